import Verif.Props.ServerWitness
import Verif.Props.ServerAsked
import Verif.Props.Feed
import Verif.Props.Caches
import Verif.Props.DiskSearch
import Verif.Props.Float64Search
import Verif.Props.Corpus
import Verif.Props.Concurrent
import Verif.Props.DiskLive
/-!
# Concrete cases for theorems that have none beside them

Each example applies a theorem to a state or a run that exists: its hypotheses can be met, and what it then says is no triviality.
-/
namespace Goir
open Spec

/-! ### C100, C101, C102 -/

/-- C100: whoever is in the answer of the search that ran beside the save of "c" was saved by a client; "a" is one of them. -/
example {F : Type} [GoFloat F] : ∃ (s : Server F) (r : DReq F) (l : Scores F), r ∈ s.reqs ∧ r.result = some l ∧ (∃ x, ("a", x) ∈ l) ∧
    ∀ d x, (d, x) ∈ l → ∃ g, StoreOp.save d g ∈ s.disk.hist ∧ (g.name = "title" ∨ g.name = "text") := by
  obtain ⟨s, r, l, h1, h2, h3, h4, h5, h6, -, -⟩ := server_witness (F := F)
  refine ⟨s, r, l, by rw [h3]; simp, h5, ?_, fun d x hd => ?_⟩
  · obtain ⟨⟨d, x⟩, hx, rfl⟩ := List.mem_map.1 h6
    exact ⟨x, hx⟩
  · obtain ⟨q, hq, -, g, hg, hn⟩ := c100_document h1 h2 (by rw [h3]; simp) h5 hd
    refine ⟨g, hg, ?_⟩
    change q ∈ r.query at hq
    rw [h4] at hq
    simp only [Http.queries, List.mem_cons, List.not_mem_nil, or_false] at hq
    rw [hn]
    rcases hq with rfl | rfl <;> simp

/-- C100 over the reals: that answer is sorted. -/
example : ∃ (s : Server ℝ) (r : DReq ℝ) (l : Scores ℝ), r ∈ s.reqs ∧ r.result = some l ∧ l ≠ [] ∧ l.Pairwise fun a b => b.2 ≤ a.2 := by
  obtain ⟨s, r, l, h1, h2, h3, h4, h5, h6, -, -⟩ := server_witness (F := ℝ)
  exact ⟨s, r, l, by rw [h3]; simp, h5, by rintro rfl; simp at h6, c100_sorted h1 h2 (by rw [h3]; simp) h5⟩

namespace Server
variable {F : Type} [GoFloat F]

/-- the states of a run, as a sequence. -/
theorem states {S : Type} {p : S → S → Prop} {s s' : S} (h : Reaches p s s') : ∃ (n : Nat) (f : Nat → S), f 0 = s ∧ f n = s' ∧ ∀ i < n, p (f i) (f (i + 1)) := by
  obtain ⟨n, h⟩ := h
  induction h with
  | refl s => exact ⟨0, fun _ => s, rfl, rfl, fun i hi => by omega⟩
  | @tail k s t u _ h1 ih =>
    obtain ⟨m, f, f0, fm, hf⟩ := ih
    refine ⟨m + 1, fun i => if i = m + 1 then u else f i, by simpa using f0, by simp, fun i hi => ?_⟩
    by_cases e : i = m
    · subst e; simpa [fm] using h1
    · have := hf i (by omega)
      simpa [show i ≠ m + 1 by omega, show i + 1 ≠ m + 1 by omega, show ¬ i = m by omega] using this

/-- other searches keep coming. -/
def arrivals (s : Server F) : Nat → Server F
  | 0 => s
  | n + 1 => { arrivals s n with reqs := (arrivals s n).reqs ++ [DReq.start []] }

theorem arrivals_disk (s : Server F) : ∀ n, (arrivals s n).disk = s.disk
  | 0 => rfl
  | n + 1 => arrivals_disk s n

theorem arrivals_result (s : Server F) {i : Nat} {l : Scores F} (h : resultOf i s = some l) : ∀ n, resultOf i (arrivals s n) = some l
  | 0 => h
  | n + 1 => by
    have ih := arrivals_result s h n
    unfold resultOf at ih ⊢
    obtain ⟨r, hr, hl⟩ := Option.bind_eq_some_iff.1 ih
    have hlt := (List.getElem?_eq_some_iff.1 hr).1
    show ((arrivals s n).reqs ++ [DReq.start []])[i]?.bind _ = _
    rw [List.getElem?_append_left hlt, hr]; exact hl

end Server

/-- C101, fairness: the process of the witness above, whose search is served at every step until it is done, while other searches keep coming for ever. -/
example {F : Type} [GoFloat F] : ∃ (s : Server F) (run : Nat → Server F), Server.resultOf 0 s = none ∧ run 0 = s ∧ (∀ n, Server.UpStep Server.RoomyAct 4 (run n) (run (n + 1))) ∧
    (∀ n, Server.resultOf 0 (run n) = none → ∃ m, n ≤ m ∧ Server.ReqStep 4 0 (run m) (run (m + 1))) ∧ ∃ n l, Server.resultOf 0 (run n) = some l := by
  obtain ⟨d₁, h1, -, -, -, hopen⟩ := serverFirst_reads
  obtain ⟨d₂, h2, e2⟩ := Option.map_eq_some_iff.1 hopen
  simp only [Prod.mk.injEq] at e2
  have f1 : ∀ a ∈ serverFirst, Server.fits "a'" a = true := by decide
  have f2 : ∀ a ∈ serverOpen readingClients, Server.fits "a" a = true := by decide
  let s : Server F := { disk := d₂, reqs := [DReq.start (Http.queries ["x"])] }
  have r : Reaches (Server.Step Server.RoomyAct 4) ({} : Server F) s :=
    (Server.reaches_run h1 fun a ha => (Server.fits_ok (f1 a ha)).1).trans ((Server.reaches_run h2 fun a ha => (Server.fits_ok (f2 a ha)).1).tail (.arrive { disk := d₂ } _ e2.1))
  have lv := Server.lively_reach (by decide) r
  have gv : GoValues d₂.hist := by rw [e2.2.1]; unfold GoValues; decide
  obtain ⟨s', l, hs, hl⟩ := ((c101_server_search_ends (by decide) r (i := 0) rfl).1 gv).2
  have hu' : s'.disk.up = true := Server.up_of_queries (Server.queries_reqStep (j := 0) lv hs (by decide) rfl).1 (Server.queries_reqStep (j := 0) lv hs (by decide) rfl).2
  have hlv : ∀ t, Reaches (Server.ReqStep 4 0) s t → Server.Lively t := fun t ht => (Server.queries_reqStep (j := 0) lv ht (by decide) rfl).1
  obtain ⟨n, f, f0, fn, hf⟩ := Server.states hs
  have hreach : ∀ i ≤ n, Reaches (Server.ReqStep 4 0) s (f i) := by
    intro i
    induction i with
    | zero => intro _; rw [f0]; exact .refl s
    | succ i ih => intro hi; exact (ih (by omega)).tail (hf i (by omega))
  let run : Nat → Server F := fun k => if k ≤ n then f k else Server.arrivals s' (k - n)
  have late : ∀ k, n ≤ k → run k = Server.arrivals s' (k - n) := by
    intro k hk
    show (if k ≤ n then f k else Server.arrivals s' (k - n)) = _
    split
    · have : k = n := by omega
      subst this
      rw [fn]; simp [Server.arrivals]
    · rfl
  have early : ∀ k, k ≤ n → run k = f k := fun k hk => if_pos hk
  have steps : ∀ k, Server.UpStep Server.RoomyAct 4 (run k) (run (k + 1)) := by
    intro k
    by_cases hk : k < n
    · rw [early k (by omega), early (k + 1) (by omega)]
      exact Server.reqStep_up (hlv _ (hreach k (by omega))) (hf k hk)
    · rw [late k (by omega), late (k + 1) (by omega), show k + 1 - n = (k - n) + 1 by omega]
      have hup : (Server.arrivals s' (k - n)).disk.up = true := by rw [Server.arrivals_disk]; exact hu'
      exact ⟨.arrive _ _ hup, hup⟩
  have fair : ∀ k, Server.resultOf 0 (run k) = none → ∃ m, k ≤ m ∧ Server.ReqStep 4 0 (run m) (run (m + 1)) := by
    intro k hk
    by_cases hlt : k < n
    · exact ⟨k, le_refl k, by rw [early k (by omega), early (k + 1) (by omega)]; exact hf k hlt⟩
    · rw [late k (by omega), Server.arrivals_result s' hl] at hk
      cases hk
  have h0 : run 0 = s := by rw [early 0 (by omega), f0]
  exact ⟨s, run, rfl, h0, steps, fair, c101_fair (by decide) r (i := 0) rfl h0 steps fair⟩

/-! ### C25, C29: the store while a merge and a flush are in progress -/

theorem c22_state : ∃ s s' out, Disk.run {} (.open_ :: c22Run) = some s ∧ s.idle = true ∧ s.getFields ["2", "3"] "title" = some (s', out) ∧ out = [("2", ⟨"title", 1, [("house", 1)]⟩)] ∧
    (s.getDocuments "title" "house").1.contains "2" = true := by
  obtain ⟨s, h1, h2⟩ : ∃ s, Disk.run {} (.open_ :: c22Run) = some s ∧ (decide (s.idle = true ∧ (s.getFields ["2", "3"] "title").map Prod.snd = some [("2", ⟨"title", 1, [("house", 1)]⟩)] ∧
    (s.getDocuments "title" "house").1.contains "2" = true)) = true := exists_of_run (by decide +kernel)
  obtain ⟨a, b, c⟩ := of_decide_eq_true h2
  obtain ⟨x, hx, e⟩ := Option.map_eq_some_iff.1 b
  exact ⟨s, x.1, x.2, h1, a, hx, e, c⟩

/-- C25: what GetFields returns for "2" was saved as "2". C29: what GetDocuments lists under "house" was posted there. -/
example : (∃ g, StoreOp.save "2" g ∈ Disk.calls c22Run ∧ g.name = "title") ∧ Posted (Disk.calls c22Run) "title" "house" "2" := by
  obtain ⟨s, s', out, h1, h2, h3, h4, h5⟩ := c22_state
  have gv : GoValues (Disk.calls (.open_ :: c22Run)) := by unfold GoValues; decide
  subst h4
  obtain ⟨-, g, g1, g2, -⟩ := c25_store_never_invents h1 gv h2 h3 "2" ⟨"title", 1, [("house", 1)]⟩ (by decide)
  exact ⟨⟨g, g1, g2⟩, c29_store_never_invents h1 "title" "house" "2" h5⟩

/-! ### C84 -/

/-- two clients that have a save to make each can race, from the start. -/
example : ∃ sched s', (Conc.init [[.save "a" ⟨"title", 1, [("x", 1)]⟩], [.save "b" ⟨"text", 1, [("y", 1)]⟩]]).run sched = some s' ∧ s'.Races 0 1 :=
  c84_every_two_calls_race_refuted _ (by decide) rfl rfl rfl rfl (by decide) (by decide)

/-- one client that saves beside one that does nothing. -/
example : ∃ s, (Conc.init [[.save "a" ⟨"title", 1, [("x", 1)]⟩], []]).run [(0, 0), (0, 0)] = some s ∧ s.clients.length = 2 ∧ ¬ s.Races 0 1 := by
  obtain ⟨s, h1, h2⟩ : ∃ s, (Conc.init [[.save "a" ⟨"title", 1, [("x", 1)]⟩], []]).run [(0, 0), (0, 0)] = some s ∧ s.clients.length = 2 := exists_of_run (by decide +kernel)
  refine ⟨s, h1, h2, c84_one_client_partial (c := 0) (fun j p hj hne => ?_) h1 0 1 (by decide)⟩
  match j with
  | 0 => exact absurd rfl hne
  | 1 => cases hj; rfl
  | j + 2 => cases hj

/-! ### C123 -/

namespace Collection
namespace Feed

/-- a feed with a title of its own, text between its elements, and two entries; the second one has two titles. -/
def twoEntries : List XNode := [.elem "title" [.text "feed"], .text "\n", .elem "entry" [.elem "title" [.text "deep ", .elem "i" [.text "very"], .text "learning"], .elem "summary" [.text "nets"]], .text "\n",
  .elem "entry" [.elem "title" [.text "old"], .elem "title" [.text "new"], .elem "author" [.elem "name" [.text "ada"]]]]

/-- C123: the file made of it has two documents; the second one has the second title. -/
example (old : List UInt8) : ∃ file a b, criarArquivo ["u", "v"] old (.document (.elem "feed" twoEntries)) = some file ∧ getDocuments file = some [a, b] ∧ a.id = "u" ∧ b.id = "v" ∧ b.title = "new" ∧ b.author = "ada" := by
  have hc : Children "entry" twoEntries [[.elem "title" [.text "deep ", .elem "i" [.text "very"], .text "learning"], .elem "summary" [.text "nets"]],
      [.elem "title" [.text "old"], .elem "title" [.text "new"], .elem "author" [.elem "name" [.text "ada"]]]] :=
    .other _ _ (by decide) (.text _ (.here _ (.text _ (.here _ .nil))))
  obtain ⟨file, docs, h1, h2, h3, h4⟩ := c123_file _ _ hc ["u", "v"] rfl old
  match docs, h4 with
  | [a, b], .cons _ (.cons hb .nil) =>
    simp only [List.map_cons, List.map_nil, List.cons.injEq, and_true] at h3
    have hn : Says [.elem "title" [.text "old"], .elem "title" [.text "new"], .elem "author" [.elem "name" [.text "ada"]]] "title" "new" :=
      .inl ⟨[.text "new"], ⟨[.elem "title" [.text "old"]], [.elem "author" [.elem "name" [.text "ada"]]], rfl, (fun b hm => by simp at hm)⟩, by simpa using TextIs.text "new" .nil⟩
    obtain ⟨as, k1, k2⟩ := hb.2.2
    have e : as = [[.elem "name" [.text "ada"]]] := (children_unique k1).trans (children_unique (.other _ _ (by decide) (.other _ _ (by decide) (.here _ .nil)))).symm
    rw [e] at k2
    have ha : Says [XNode.elem "name" [.text "ada"]] "name" "ada" := .inl ⟨[.text "ada"], ⟨[], [], rfl, (fun b hm => by simp at hm)⟩, by simpa using TextIs.text "ada" .nil⟩
    exact ⟨file, a, b, h1, h2, h3.1, h3.2, says_unique hb.1 hn, says_unique k2 ha⟩

end Feed
end Collection

/-! ### C125 on the disk store -/

/-- the two titles of C125's example, saved while the index writer works. -/
def c125Run : List Disk.Act := runOpen 10 ++ runSave "e" ⟨"title", 2, [("t", 1), ("u", 1)]⟩ ++ [.ix .recv] ++ runSave "d" ⟨"title", 2, [("t", 2)]⟩ ++ [.dc (.tick ["e", "d"]), .dc .step]

/-- C125's hypotheses can be met on the disk store too: the title that has the word twice comes first. -/
example {L : MathLog} : ∃ s, Disk.run {} (.open_ :: c125Run) = some s ∧ ∀ (cpus : Nat) (l : Scores (F64 L)) (i j : Nat), SState.Returns s.reads c125Query cpus l → (l.map Prod.fst)[i]? = some "d" → (l.map Prod.fst)[j]? = some "e" → i < j := by
  obtain ⟨s, h1, h2⟩ : ∃ s, Disk.run {} (.open_ :: c125Run) = some s ∧ s.idle = true := exists_of_run (by decide +kernel)
  refine ⟨s, h1, fun cpus l i j hl hi hj => ?_⟩
  have hc : Disk.calls c125Run = savesOf c125Texts := by decide
  have hn : CacheSuffices c125Run := by
    intro n hm
    have : n = 10 := by
      simp [c125Run, runOpen, runSave, GoMap.keys] at hm
      exact hm
    subst this
    decide
  refine (c125_disk (c125_example_moderate (L := L)).1 h1 (by decide) hc h2 hn (c125_example_moderate (L := L)).2 cpus hl).2.2.2 i j "d" "e" hi hj ?_
  have hp : 0 < Real.log (6/5) := Real.log_pos (by norm_num)
  have hw : scoreError64 2 1 (c125Query (L := L)).length = 92 / 2^53 := by simp [scoreError64, c125Query]; norm_num
  rw [c125_example_scores.1, c125_example_scores.2, hw]
  nlinarith

end Goir
