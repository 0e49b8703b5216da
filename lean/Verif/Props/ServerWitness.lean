import Verif.Props.ServerEnds
import Verif.Props.ServerFinds
import Verif.Props.ServerRest
/-!
# Runs of the server that meet the hypotheses of C100 to C103
-/
namespace Goir
open Spec CDisk
namespace Server
variable {F : Type} [GoFloat F]

/-- clients and processes come and go, and nobody searches. -/
theorem reaches_run {allow : CDisk.Act → Prop} {cpus : Nat} {as : List CDisk.Act} : ∀ {s s' : CDisk}, s.run as = some s' → (∀ a ∈ as, allow a) →
    Reaches (Step (F := F) allow cpus) { disk := s } { disk := s' } := by
  induction as with
  | nil => intro s s' h _; cases h; exact .refl _
  | cons a as ih =>
    intro s s' h ha
    obtain ⟨t, h1, h2⟩ := CDisk.run_cons.1 h
    have e : Step (F := F) allow cpus { disk := s } { disk := t, reqs := if t.up then [] else [] } := .store { disk := s } a t (ha a (by simp)) h1
    rw [ite_self] at e
    exact Reaches.trans (.single e) (ih h2 fun b hb => ha b (by simp [hb]))

/-- the clients work while searches are under way. -/
theorem reaches_clients {allow : CDisk.Act → Prop} {cpus : Nat} {reqs : List (DReq F)} {as : List CDisk.Act} : ∀ {as₀ : List CDisk.Act} {s s' : CDisk}, CDisk.run {} as₀ = some s → s.up = true →
    s.run as = some s' → (∀ a ∈ as, prompt a = true ∧ allow a) → Reaches (UpStep allow cpus) { disk := s, reqs := reqs } { disk := s', reqs := reqs } := by
  induction as with
  | nil => intro as₀ s s' _ _ h _; cases h; exact .refl _
  | cons a as ih =>
    intro as₀ s s' h0 hu h ha
    obtain ⟨t, h1, h2⟩ := CDisk.run_cons.1 h
    have ht : t.up = true := (c91_bounded h0 hu (bs := [a]) (by simpa using (ha a (by simp)).1) (CDisk.run_cons.2 ⟨t, h1, rfl⟩)).2
    have e : Step allow cpus { disk := s, reqs := reqs } { disk := t, reqs := if t.up then reqs else [] } := .store { disk := s, reqs := reqs } a t (ha a (by simp)).2 h1
    rw [if_pos ht] at e
    exact Reaches.trans (.single ⟨e, ht⟩) (ih (CDisk.run_snoc.2 ⟨s, h0, h1⟩) ht h2 fun b hb => ha b (by simp [hb]))

theorem Step.mono {allow allow' : CDisk.Act → Prop} {cpus : Nat} {s s' : Server F} (h : ∀ a, allow a → allow' a) (hs : Step allow cpus s s') : Step allow' cpus s s' := by
  cases hs with
  | store a d ha hx => exact .store _ a d (h a ha) hx
  | arrive query hu => exact .arrive _ query hu
  | req i r r' d hi hm => exact .req _ i r r' d hi hm

theorem reaches_mono {S : Type} {p q : S → S → Prop} (h : ∀ a b, p a b → q a b) {s s' : S} (hr : Reaches p s s') : Reaches q s s' :=
  hr.invariant (P := fun x => Reaches q s x) (.refl _) fun a b ih hs => ih.tail (h a b hs)

/-- what only search `i` does, other searches do not see in their own results. -/
theorem resultOf_reqStep {cpus i j : Nat} (hne : i ≠ j) {s s' : Server F} (h : Reaches (ReqStep cpus i) s s') : resultOf j s' = resultOf j s :=
  h.invariant (P := fun x => resultOf j x = resultOf j s) rfl fun a b ih hs => by
    obtain ⟨r, r', d, hi, hm, rfl⟩ := hs
    show (((a.reqs.set i r')[j]?).bind _) = _
    rw [List.getElem?_set_ne hne]; exact ih

theorem queries_reqStep {cpus i j : Nat} {qs : List (Query F)} {s s' : Server F} (hl : Lively s) (h : Reaches (ReqStep cpus i) s s') (hc : 0 < cpus) (hq : queries j s = some qs) : Lively s' ∧ queries j s' = some qs :=
  h.invariant (P := fun x => Lively x ∧ queries j x = some qs) ⟨hl, hq⟩ fun a b ih hs => by
    obtain ⟨e1, e2⟩ := reqStep_up ih.1 hs
    exact ⟨lively_server hc ih.1 e1, queries_step ih.2 e2 e1⟩

theorem reqStep_hist {cpus i : Nat} {s s' : Server F} (h : Reaches (ReqStep cpus i) s s') : s'.disk.hist = s.disk.hist :=
  h.invariant (P := fun x => x.disk.hist = s.disk.hist) rfl fun a b ih hs => by
    obtain ⟨r, r', d, hi, hm, rfl⟩ := hs
    exact (req_hist hm).trans ih

theorem reqStep_step {allow : CDisk.Act → Prop} {cpus i : Nat} {s s' : Server F} (h : Reaches (ReqStep cpus i) s s') : Reaches (Step allow cpus) s s' :=
  reaches_mono (fun a b hs => by obtain ⟨r, r', d, hi, hm, rfl⟩ := hs; exact .req _ i r r' d hi hm) h

theorem reqStep_upStep {allow : CDisk.Act → Prop} {cpus i : Nat} (hc : 0 < cpus) {s s' : Server F} (hl : Lively s) (h : Reaches (ReqStep cpus i) s s') : Reaches (UpStep allow cpus) s s' :=
  (h.invariant (P := fun x => Lively x ∧ Reaches (UpStep allow cpus) s x) ⟨hl, .refl _⟩ fun a b ih hs => by
    obtain ⟨e1, e2⟩ := reqStep_up ih.1 hs
    refine ⟨lively_server hc ih.1 e1, ih.2.tail ⟨?_, e2⟩⟩
    obtain ⟨r, r', d, hi, hm, rfl⟩ := hs
    exact .req _ i r r' d hi hm).2

/-- a check of `RoomyAct` and `Spares`. -/
def fits (d : String) : CDisk.Act → Bool
  | .openRest n progs => decide (1 ≤ n) && (progs.flatMap writes).all fun op => decide op.field.tf.WF && !(op.isSave && op.doc == d)
  | _ => true

theorem fits_ok {d : String} {a : CDisk.Act} (h : fits d a = true) : RoomyAct a ∧ Spares d a := by
  refine ⟨?_, ?_⟩ <;> rintro n progs rfl <;> simp only [fits, Bool.and_eq_true, decide_eq_true_eq, List.all_eq_true] at h
  · exact h.1
  · intro op ho
    refine ⟨(h.2 op ho).1, fun hs he => ?_⟩
    have := (h.2 op ho).2
    rw [hs, he] at this
    simp at this

end Server

/-- the first process, which ends with the writes of document "b" undone. -/
def serverFirst : List CDisk.Act := openEmpty 5 [[.write (.save "a" ⟨"title", 1, [("x", 1)]⟩)], [.write (.save "b" ⟨"title", 1, [("x", 1)]⟩)]] ++ firstProcess ++ [.crash]

/-- the start of the second process. -/
def serverOpen (progs : List (List DOp)) : List CDisk.Act := .open_ :: (List.replicate 12 (.ix .merge) ++ [.openRest 5 progs])

theorem serverFirst_ok : ∃ s, CDisk.run {} serverFirst = some s ∧ s.up = false ∧ (s.load "a").map (fun o => o.getD []) = some [("title", ⟨"title", 1, [("x", 1)]⟩)] ∧
    s.hist = [.save "a" ⟨"title", 1, [("x", 1)]⟩, .save "b" ⟨"title", 1, [("x", 1)]⟩] ∧
    ((s.run (serverOpen secondClients)).map fun s => (s.up, GoSet.contains (s.getDocuments "title" "x").1 "a", s.clients.map (·.cur))) = some (true, true, [none, none]) ∧
    ((s.run (serverOpen secondClients ++ List.replicate 6 (.client 0 0) ++ [.client 1 0])).map fun s => (s.hist, s.clients.map fun cl => cl.cur.isSome)) =
      some ([.save "a" ⟨"title", 1, [("x", 1)]⟩, .save "b" ⟨"title", 1, [("x", 1)]⟩, .save "c" ⟨"title", 3, [("x", 3)]⟩], [true, true]) := by
  exact exists_of_run (by decide +kernel)

/-- the hypotheses of C100, C101 and C102 are met, and they say something: after a crash, the second process is asked for "x". While one client saves document "c" and another one reads, the search of GET /nir comes
to its end, and "a" is in what it returns; it came there after the clients had begun. -/
theorem server_witness {F : Type} [GoFloat F] : ∃ (s : Server F) (r : DReq F) (l : Scores F), Reaches (Server.Step Server.RoomyAct 4) ({} : Server F) s ∧ GoValues s.disk.hist ∧ s.reqs = [r] ∧ r.query = Http.queries ["x"] ∧ r.result = some l ∧
    "a" ∈ l.map Prod.fst ∧ StoreOp.save "c" ⟨"title", 3, [("x", 3)]⟩ ∈ s.disk.hist ∧ s.disk.up = true := by
  obtain ⟨d₁, h1, hd, hfile, hh1, hopen, hsome⟩ := serverFirst_ok
  obtain ⟨d₂, h2, e2⟩ := Option.map_eq_some_iff.1 hopen
  simp only [Prod.mk.injEq] at e2
  obtain ⟨d₃, h3, e3⟩ := Option.map_eq_some_iff.1 hsome
  simp only [Prod.mk.injEq] at e3
  rw [List.append_assoc, CDisk.run_append, h2, Option.bind_some] at h3
  have r1 : Reaches (Server.Step Server.RoomyAct 4) ({} : Server F) { disk := d₁ } := Server.reaches_run h1 fun a ha => (Server.fits_ok (d := "a'") ((by decide : ∀ a ∈ serverFirst, Server.fits "a'" a = true) a ha)).1
  have f2 : ∀ a ∈ serverOpen secondClients, Server.fits "a" a = true := by decide
  have f3 : ∀ a ∈ List.replicate 6 (CDisk.Act.client 0 0) ++ [.client 1 0], prompt a = true ∧ Server.fits "a" a = true := by decide
  have run2 : CDisk.run {} (serverFirst ++ serverOpen secondClients) = some d₂ := by rw [CDisk.run_append, h1]; exact h2
  have gv3 : GoValues d₃.hist := by rw [e3.1]; unfold GoValues; decide
  have b3 := Server.reaches_clients (F := F) (allow := fun a => Server.RoomyAct a ∧ Server.Spares "a" a) (cpus := 4) (reqs := [DReq.start (Http.queries ["x"])]) run2 e2.1 h3 fun a ha => ⟨(f3 a ha).1, Server.fits_ok (f3 a ha).2⟩
  have r3 : Reaches (Server.Step Server.RoomyAct 4) ({} : Server F) { disk := d₃, reqs := [DReq.start (Http.queries ["x"])] } :=
    (r1.trans ((Server.reaches_run h2 fun a ha => (Server.fits_ok (f2 a ha)).1).tail (.arrive { disk := d₂ } _ e2.1))).trans (Server.reaches_mono (fun a b hs => hs.1.mono fun a ha => ha.1) b3)
  have lv := Server.lively_reach (by decide) r3
  obtain ⟨s, l, hs, hl⟩ := ((c101_server_search_ends (by decide) r3 (i := 0) rfl).1 gv3).2
  have hq := (Server.queries_reqStep (j := 0) lv hs (by decide) rfl).2
  have hlen : s.reqs.length = 1 := hs.invariant (P := fun x => x.reqs.length = 1) rfl fun a b ih hs => by obtain ⟨r, r', d, hi, hm, rfl⟩ := hs; simpa using ih
  obtain ⟨r, hr⟩ := List.length_eq_one_iff.1 hlen
  unfold Server.queries at hq
  unfold Server.resultOf at hl
  rw [hr] at hq hl
  have hq : r.query = Http.queries ["x"] := by simpa [DReq.query, DReq.start, Http.queries] using hq
  have hl : r.result = some l := by simpa using hl
  refine ⟨s, r, l, r3.trans (Server.reqStep_step hs), by rw [Server.reqStep_hist hs]; exact gv3, hr, hq, hl, ?_, by rw [Server.reqStep_hist hs]; show _ ∈ d₃.hist; rw [e3.1]; decide, ?_⟩
  · obtain ⟨as, a1, a2, a3⟩ := c102_server_search_finds (s₂ := { disk := d₂ }) (f := "title") (t := "x") r1 hd (by show GoValues d₁.hist; rw [hh1]; unfold GoValues; decide) hfile (old := ⟨"title", 1, [("x", 1)]⟩) (by decide)
      (Server.reaches_run h2 fun a ha => (Server.fits_ok (f2 a ha)).2) e2.1 e2.2.1
      (fun cl hcl op loc e => by
        have : cl.cur ∈ d₂.clients.map (·.cur) := List.mem_map_of_mem hcl
        rw [e2.2.2, e] at this; simp at this)
      (query := Http.queries ["x"]) ((Server.reaches_mono (fun a b hs => ⟨hs.1.mono fun a ha => ha.2, hs.2⟩) b3).trans (Server.reqStep_upStep (by decide) lv hs)) (by rw [hr]; rfl) hl
    exact Merges.mem a1 a2 a3 (q := ⟨"title", GoFloat.lit 1, ["x"]⟩) (by simp [Http.queries]) rfl (by simp)
  · exact (Server.queries_reqStep (j := 0) lv hs (by decide) rfl).1.sound.held |> fun hh => by
      cases hu : s.disk.up with
      | true => rfl
      | false => have := hh.1 hu; rw [hr] at this; cases this

/-- the clients of a second process that only read. -/
def readingClients : List (List DOp) := [[.getFields ["a", "b"] "title"]]

theorem serverFirst_reads : ∃ s, CDisk.run {} serverFirst = some s ∧ s.up = false ∧ s.hist = [.save "a" ⟨"title", 1, [("x", 1)]⟩, .save "b" ⟨"title", 1, [("x", 1)]⟩] ∧
    ((s.onDisk "a").get? "title" = some ⟨"title", 1, [("x", 1)]⟩ ∧ (s.onDisk "b").get? "title" = none) ∧
    ((s.run (serverOpen readingClients)).map fun s => (s.up, s.hist, GoSet.contains (s.getDocuments "title" "x").1 "a", s.clients.map fun cl => cl.cur.isNone)) =
      some (true, [.save "a" ⟨"title", 1, [("x", 1)]⟩, .save "b" ⟨"title", 1, [("x", 1)]⟩], true, [true]) := by
  exact exists_of_run (by decide +kernel)

/-- the hypotheses of C103 are met: in the second process two searches for "x" run at the same time beside a client that reads, and both return; document "a" is among what the second one found, so it is in the answer of the first one too. -/
example {F : Type} [GoFloat F] : ∃ (s₁ s : Server F) (r r' : DReq F) (l l' : Scores F), Reaches (Server.Step (fun _ => True) 4) ({} : Server F) s₁ ∧ s₁.disk.up = false ∧ GoValues s₁.disk.hist ∧
    Reaches (Server.Step Server.OnlyReads 4) s₁ s ∧ s.reqs = [r, r'] ∧ r.query = Http.queries ["x"] ∧ r'.query = Http.queries ["x"] ∧ r.result = some l ∧ r'.result = some l' ∧ s₁.disk.hist ≠ [] ∧ "a" ∈ l'.map Prod.fst := by
  obtain ⟨d₁, h1, hd, hh1, hon, hopen⟩ := serverFirst_reads
  obtain ⟨d₂, h2, e2⟩ := Option.map_eq_some_iff.1 hopen
  simp only [Prod.mk.injEq] at e2
  have f1 : ∀ a ∈ serverFirst, Server.fits "a'" a = true := by decide
  have f2 : ∀ a ∈ serverOpen readingClients, Server.fits "a" a = true := by decide
  have o2 : ∀ a ∈ serverOpen readingClients, Server.OnlyReads a := by
    intro a ha n progs e
    subst e
    simp [serverOpen] at ha
    rw [ha.2]; rfl
  have two : Reaches (Server.UpStep (F := F) (fun a => CDisk.noOpen a = true) 4) { disk := d₂ } { disk := d₂, reqs := [DReq.start (Http.queries ["x"]), DReq.start (Http.queries ["x"])] } :=
    Reaches.trans (.single ⟨.arrive { disk := d₂ } (Http.queries ["x"]) e2.1, e2.1⟩) (.single ⟨.arrive { disk := d₂, reqs := [DReq.start (Http.queries ["x"])] } (Http.queries ["x"]) e2.1, e2.1⟩)
  have ro : Reaches (Server.Step (F := F) Server.RoomyAct 4) {} { disk := d₂, reqs := [DReq.start (Http.queries ["x"]), DReq.start (Http.queries ["x"])] } :=
    (Server.reaches_run h1 fun a ha => (Server.fits_ok (f1 a ha)).1).trans ((Server.reaches_run h2 fun a ha => (Server.fits_ok (f2 a ha)).1).trans (Server.reaches_mono (fun a b hs => hs.1.mono Server.roomy_noOpen) two))
  have lv := Server.lively_reach (by decide) ro
  have gv2 : GoValues d₂.hist := by rw [e2.2.1]; unfold GoValues; decide
  obtain ⟨s3, l, hs3, hl⟩ := ((c101_server_search_ends (by decide) ro (i := 0) rfl).1 gv2).2
  have k0 := Server.queries_reqStep (j := 0) lv hs3 (by decide) rfl
  have k1 := Server.queries_reqStep (j := 1) lv hs3 (by decide) rfl
  obtain ⟨s, l', hs, hl'⟩ := Server.alone (cpus := 4) (by decide) k1.1 (by rw [Server.reqStep_hist hs3]; exact gv2) k1.2
  have m0 := Server.queries_reqStep (j := 0) k1.1 hs (by decide) k0.2
  have m1 := Server.queries_reqStep (j := 1) k1.1 hs (by decide) k1.2
  have hl0 : Server.resultOf 0 s = some l := (Server.resultOf_reqStep (by decide) hs).trans hl
  have hlen : s.reqs.length = 2 := hs.invariant (P := fun x => x.reqs.length = 2)
    (hs3.invariant (P := fun x => x.reqs.length = 2) rfl fun a b ih hs => by obtain ⟨r, r', d, hi, hm, rfl⟩ := hs; simpa using ih)
    fun a b ih hs => by obtain ⟨r, r', d, hi, hm, rfl⟩ := hs; simpa using ih
  obtain ⟨r, r', hr⟩ := List.length_eq_two.1 hlen
  have n0 := m0.2
  have n1 := m1.2
  unfold Server.queries at n0 n1
  unfold Server.resultOf at hl0 hl'
  rw [hr] at n0 n1 hl0 hl'
  refine ⟨{ disk := d₁ }, s, r, r', l, l', Server.reaches_run h1 fun _ _ => trivial, hd, by show GoValues d₁.hist; rw [hh1]; unfold GoValues; decide,
    (Server.reaches_run h2 o2).trans ((Server.reaches_mono (fun a b hs => hs.1.mono Server.onlyReads_noOpen) two).trans ((Server.reqStep_step hs3).trans (Server.reqStep_step hs))), hr, ?_, ?_, by simpa using hl0, by simpa using hl',
    by show d₁.hist ≠ []; rw [hh1]; simp, ?_⟩
  · simpa [DReq.query, DReq.start, Http.queries] using n0
  · simpa [DReq.query, DReq.start, Http.queries] using n1
  · have hfile : (d₁.load "a").map (fun o => o.getD []) = some (d₁.onDisk "a") :=
      Server.load_onDisk (F := F) (s := { disk := d₁ }) (Server.sound_reach (cpus := 4) (Server.reaches_run h1 fun _ _ => (trivial : (fun _ => True) _))) (by show GoValues d₁.hist; rw [hh1]; unfold GoValues; decide) "a"
    obtain ⟨as, a1, a2, a3⟩ := c102_server_search_finds (F := F) (allow := fun _ => True) (cpus := 4) (s₁ := { disk := d₁ }) (s₂ := { disk := d₂, reqs := [DReq.start (Http.queries ["x"])] }) (f := "title") (t := "x")
      (Server.reaches_run h1 fun _ _ => trivial) hd (by show GoValues d₁.hist; rw [hh1]; unfold GoValues; decide) hfile hon.1
      ((Server.reaches_run h2 fun a ha => (Server.fits_ok (f2 a ha)).2).tail (.arrive { disk := d₂ } _ e2.1)) e2.1 e2.2.2.1
      (fun cl hcl op loc e => by
        have : cl.cur.isNone ∈ d₂.clients.map fun cl => cl.cur.isNone := List.mem_map_of_mem (f := fun cl : DClient => cl.cur.isNone) hcl
        rw [e2.2.2.2, e] at this; simp at this)
      (query := Http.queries ["x"]) ((Server.reqStep_upStep (by decide) lv hs3).trans (Server.reqStep_upStep (by decide) k1.1 hs)) (by rw [hr]; rfl) (by simpa using hl')
    exact Merges.mem a1 a2 a3 (q := ⟨"title", GoFloat.lit 1, ["x"]⟩) (by simp [Http.queries]) rfl (by simp)

end Goir
