import Verif.Props.FolderServerEnds
import Verif.Props.OpeningCases
/-!
# C129: cases

A folder with the index, the sizes and the term counts of one field, and the file of one document.
-/
namespace Goir
open GoMap Spec Spec.Opening

namespace Opening
open BDisk

/-- the folder; `c` is the content of the file of document `a`. -/
def shelf (c : Bytes) : FS :=
  [(["data"], .dir), (["data", "docs"], .dir), (["data", "docs", "metrics"], .dir), (["data", "docs", "metrics", "a"], .file c), (["data", "title"], .dir), (["data", "title", "temp"], .dir),
   (["data", "title", "index"], .file (indexBytes [("x", [("a", true)])])), (["data", "title", "metrics"], .file (metricsBytes "title" 7 9))]

/-- the file of document `a`. -/
def aFile : Bytes := fieldsBytes [("title", ⟨"title", 1, [("x", 1)]⟩)]

theorem shelf_tree (c : Bytes) : Tree ["data"] (shelf c) := by
  refine ⟨by simp [shelf, GoMap.WF, GoMap.keys], fun p n hp => ?_, fun i hi => ?_⟩
  · have := GoMap.mem_of_get? hp
    simp only [shelf, List.mem_cons, Prod.mk.injEq, List.not_mem_nil, or_false] at this
    intro x hx
    rcases this with h | h | h | h | h | h | h | h <;> (obtain ⟨rfl, -⟩ := h; simp only [List.mem_cons, List.not_mem_nil, or_false] at hx) <;> aesop (add safe (by decide))
  · obtain rfl : i = 0 := by simp at hi; omega
    rfl

set_option maxRecDepth 100000 in
/-- a process opens it. -/
theorem shelf_opens : ∃ s, ({ fs := shelf aFile } : BDisk).kill.run packer ["data"] (opening 113 5 [[.getFields ["a"] "title"]]) = some s ∧ s.d.up = true := by
  obtain ⟨s, h1, h2⟩ : ∃ s, ({ fs := shelf aFile } : BDisk).kill.run packer ["data"] (opening 113 5 [[.getFields ["a"] "title"]]) = some s ∧ decide (s.d.up = true) = true := exists_of (by decide +kernel)
  exact ⟨s, h1, of_decide_eq_true h2⟩

set_option maxRecDepth 100000 in
/-- … and so does one whose document is damaged: opening does not read the documents. -/
theorem shelf_opens_damaged : ∃ s, ({ fs := shelf [1, 2, 3] } : BDisk).kill.run packer ["data"] (opening 113 7 []) = some s ∧ s.d.up = true := by
  obtain ⟨s, h1, h2⟩ : ∃ s, ({ fs := shelf [1, 2, 3] } : BDisk).kill.run packer ["data"] (opening 113 7 []) = some s ∧ decide (s.d.up = true) = true := exists_of (by decide +kernel)
  exact ⟨s, h1, of_decide_eq_true h2⟩

/-- a second process, on a copy of the folder. -/
theorem shelf_copy_opens : ∃ s, ({ fs := shelf aFile } : BDisk).kill.run packer ["data"] (opening 113 1 []) = some s ∧ s.d.up = true := by
  set_option maxRecDepth 100000 in
  obtain ⟨s, h1, h2⟩ : ∃ s, ({ fs := shelf aFile } : BDisk).kill.run packer ["data"] (opening 113 1 []) = some s ∧ decide (s.d.up = true) = true := exists_of (by decide +kernel)
  exact ⟨s, h1, of_decide_eq_true h2⟩

theorem shelf_says {c : Bytes} {f t d : String} (h : Says (shelf c) ["data"] f t d) : f = "title" ∧ t = "x" ∧ d = "a" := by
  obtain ⟨-, p, buf, m, ds, hp, hh, ht, hd⟩ := h
  have key : f = "title" ∧ buf = indexBytes [("x", [("a", true)])] := by
    cases hp with
    | index h =>
      have := GoMap.mem_of_get? h
      simp [shelf] at this
      exact this
    | fragment h =>
      have := GoMap.mem_of_get? h
      simp [shelf] at this
  obtain ⟨rfl, rfl⟩ := key
  rw [holds_x hh] at ht
  have ht := GoMap.mem_of_get? ht
  simp at ht
  obtain ⟨rfl, rfl⟩ := ht
  exact ⟨rfl, rfl, by simpa [GoMap.keys] using hd⟩

set_option maxRecDepth 100000 in
theorem shelf_listed (c : Bytes) : Says (shelf c) ["data"] "title" "x" "a" := by
  refine ⟨⟨rfl, by decide⟩, _, indexBytes [("x", [("a", true)])], [("x", [("a", true)])], [("a", true)], .index rfl, decodeIndex_iff.1 (by decide +kernel), rfl, by simp [GoMap.keys]⟩

theorem plain_a : PlainName "a" := by decide

set_option maxRecDepth 100000 in
theorem holds_aFile : HoldsFields aFile [("title", ⟨"title", 1, [("x", 1)]⟩)] := decodeFields_iff.1 (by decide +kernel)

theorem shelf_whole {f t d : String} (h : Says (shelf aFile) ["data"] f t d) : PlainName d ∧ ¬ DamagedDocument (shelf aFile) ["data"] d := by
  obtain ⟨-, -, rfl⟩ := shelf_says h
  refine ⟨plain_a, ?_⟩
  rintro ⟨buf, h1, h2⟩
  cases h1
  exact h2 _ holds_aFile

theorem shelf_metrics {c : Bytes} {f : String} {x y : Int} (h : Metrics (shelf c) ["data"] f x y) : x = 7 ∧ y = 9 := by
  obtain ⟨g, buf, -, h1, h2⟩ := h
  have := GoMap.mem_of_get? h1
  simp [shelf] at this
  obtain ⟨-, rfl⟩ := this
  set_option maxRecDepth 100000 in
  have e : decodeMetrics (metricsBytes "title" 7 9) = some ("title", 7, 9) := by decide +kernel
  have := decodeMetrics_iff.2 h2
  rw [e] at this
  cases this
  exact ⟨rfl, rfl⟩

variable {F : Type} [GoFloat F]

/-- the query. -/
def askX (F : Type) [GoFloat F] : Query F := ⟨"title", GoFloat.lit 1, ["x"]⟩

/-- on this folder a search begins, and it returns: the hypotheses of C129 are met. -/
theorem shelf_returns {s₀ : BDisk} {n : Int} {progs : List (List DOp)} (ho : ∀ p ∈ progs, ∀ op ∈ p, ∃ ids name, op = DOp.getFields ids name)
    (h : ({ fs := shelf aFile } : BDisk).kill.run packer ["data"] (opening 113 n progs) = some s₀) (hu : s₀.d.up = true) (hn : 1 ≤ n) :
    ∃ s : BServer F, Reaches (BServer.UpStep packer ["data"] OnlyReads 2) { disk := s₀ } s ∧ ∃ r l, r ∈ s.reqs ∧ r.query = [askX F] ∧ r.result = some l := by
  have h1 : Reaches (BServer.UpStep packer ["data"] OnlyReads 2) ({ disk := s₀ } : BServer F) { disk := s₀, reqs := [DReq.start [askX F]] } := Reaches.single ⟨.arrive { disk := s₀ } [askX F] hu, hu⟩
  obtain ⟨-, ⟨s', l, h2, h3⟩, -⟩ := c129_ends (shelf_tree aFile) packer_written ho h hu hn (fun _ _ _ => shelf_whole) (by decide : 0 < 2) h1 (i := 0) rfl
  have inv : Reaches (BServer.UpStep packer ["data"] OnlyReads 2) { disk := s₀ } s' ∧ queries 0 s' = some [askX F] :=
    h2.invariant (P := fun t' => Reaches (BServer.UpStep packer ["data"] OnlyReads 2) { disk := s₀ } t' ∧ queries 0 t' = some [askX F]) ⟨h1, rfl⟩ fun a b hp hs => by
      have hu' : BServer.UpStep packer ["data"] OnlyReads 2 a b := reqStep_up (lively (shelf_tree aFile) ho h hu hn (by decide) hp.1) hs
      exact ⟨hp.1.tail hu', queries_step hp.2 hu'⟩
  obtain ⟨r, hr, hq⟩ := Option.map_eq_some_iff.1 inv.2
  unfold BServer.resultOf at h3
  rw [hr] at h3
  exact ⟨s', inv.1, r, l, List.mem_of_getElem? hr, hq, h3⟩

/-- `c129_search` speaks: the search returns document `a`, and only it among the names of files. -/
example : ∃ (s₀ : BDisk) (s : BServer F) (r : DReq F) (l : Scores F), Reaches (BServer.UpStep packer ["data"] OnlyReads 2) { disk := s₀ } s ∧ r ∈ s.reqs ∧ r.result = some l ∧ (∃ x, ("a", x) ∈ l) ∧ ∀ d, PlainName d → d ≠ "a" → ∀ x, (d, x) ∉ l := by
  have ho : ∀ p ∈ [[DOp.getFields ["a"] "title"]], ∀ op ∈ p, ∃ ids name, op = DOp.getFields ids name := by
    intro p hp op hop
    cases List.mem_singleton.1 hp
    cases List.mem_singleton.1 hop
    exact ⟨_, _, rfl⟩
  obtain ⟨s₀, h, hu⟩ := shelf_opens
  obtain ⟨s, h1, r, l, hr, hq, hl⟩ := shelf_returns (F := F) ho h hu (by decide)
  obtain ⟨st, ha, -, hx⟩ := c129_search (F := F) (shelf_tree aFile) packer_written ho h hu
  obtain ⟨-, qs, hp, hy⟩ := hx 2 s h1 r hr l hl
  rw [hq] at hp
  obtain rfl := List.perm_singleton.1 hp
  have hm : st.matches "title" ["x"] "a" = true := by
    unfold Reads.matches
    rw [List.any_eq_true]
    exact ⟨"x", by simp, (ha.documents _ _ _).2 (shelf_listed _)⟩
  have hf : st.fieldOf "a" "title" = some ⟨"title", 1, [("x", 1)]⟩ := by
    unfold Reads.fieldOf
    exact (ha.fields _ _ _ plain_a _).2 ⟨by simp, aFile, _, rfl, holds_aFile, rfl⟩
  refine ⟨s₀, s, r, l, h1, hr, hl, ⟨_, (hy "a" plain_a _).2 ⟨?_, rfl⟩⟩, fun d hd hne x hx => ?_⟩
  · unfold docScores queryScore
    simp [askX, hm, hf]
  · have := ((hy d hd x).1 hx).1
    apply this
    have hm : st.matches "title" ["x"] d = false := by
      cases e : st.matches "title" ["x"] d with
      | false => rfl
      | true =>
        unfold Reads.matches at e
        obtain ⟨t, ht, e⟩ := List.any_eq_true.1 e
        exact absurd (shelf_says ((ha.documents _ _ _).1 e)).2.2 hne
    unfold docScores queryScore
    simp [askX, hm]

/-- two processes, one with room for one document and one with room for five, answer alike. -/
example : ∃ (s₀ s₀' : BDisk) (s s' : BServer F) (r r' : DReq F) (l l' : Scores F), Reaches (BServer.UpStep packer ["data"] OnlyReads 2) { disk := s₀ } s ∧ Reaches (BServer.UpStep packer ["data"] OnlyReads 2) { disk := s₀' } s' ∧
    r ∈ s.reqs ∧ r' ∈ s'.reqs ∧ r.result = some l ∧ r'.result = some l' ∧ ∀ d, PlainName d → ∀ x, (d, x) ∈ l ↔ (d, x) ∈ l' := by
  have ho : ∀ p ∈ [[DOp.getFields ["a"] "title"]], ∀ op ∈ p, ∃ ids name, op = DOp.getFields ids name := by
    intro p hp op hop
    cases List.mem_singleton.1 hp
    cases List.mem_singleton.1 hop
    exact ⟨_, _, rfl⟩
  obtain ⟨s₀, h, hu⟩ := shelf_opens
  obtain ⟨s₀', h', hu'⟩ := shelf_copy_opens
  obtain ⟨s, h1, r, l, hr, hq, hl⟩ := shelf_returns (F := F) ho h hu (by decide)
  obtain ⟨s', h1', r', l', hr', hq', hl'⟩ := shelf_returns (F := F) (by simp) h' hu' (by decide)
  exact ⟨s₀, s₀', s, s', r, r', l, l', h1, h1', hr, hr', hl, hl', fun d hd x => c129_replicas_one (shelf_tree aFile) (shelf_tree aFile) packer_written packer_written (fun _ => rfl)
    (fun f x y x' y' e e' => ⟨(shelf_metrics e).1.trans (shelf_metrics e').1.symm, (shelf_metrics e).2.trans (shelf_metrics e').2.symm⟩) ho (by simp) h hu h' hu' h1 h1' hr hr' hq hq' hl hl' hd x⟩

/-- on the folder whose document is damaged no such search ever returns. -/
example : ∃ s₀ : BDisk, s₀.d.up = true ∧ ∀ (s : BServer F), Reaches (BServer.UpStep packer ["data"] OnlyReads 2) { disk := s₀ } s → ∀ r ∈ s.reqs, askX F ∈ r.query → r.result = none := by
  obtain ⟨s₀, h, hu⟩ := shelf_opens_damaged
  refine ⟨s₀, hu, fun s hs r hr hq => ?_⟩
  cases hl : r.result with
  | none => rfl
  | some l =>
    refine absurd ⟨[1, 2, 3], rfl, fun m hm => ?_⟩ (c129_no_damage (shelf_tree [1, 2, 3]) packer_written (by simp) h hu hs hr hl hq (term := "x") (by simp [askX]) plain_a (shelf_listed _))
    have := decodeFields_iff.2 hm
    rw [show decodeFields [1, 2, 3] = none by decide +kernel] at this
    cases this

end Opening
end Goir
