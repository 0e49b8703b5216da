import Verif.Props.ServerBytes
/-!
# C119: cases
-/
namespace Goir
open GoMap Spec

namespace BServer
open CDisk BDisk
variable {F : Type} [GoFloat F]

/-- a run of the store is a run of the server. -/
theorem reaches_run {z : Bytes → Bytes} {root : Path} {allow : Act → Prop} {cpus : Nat} {as : List Act} : ∀ {s s' : BDisk}, s.run z root as = some s' → (∀ a ∈ as, allow a) →
    Reaches (Step (F := F) z root allow cpus) { disk := s } { disk := s' } := by
  induction as with
  | nil => intro s s' h _; cases h; exact .refl _
  | cons a as ih =>
    intro s s' h ha
    obtain ⟨t, h1, h2⟩ := brun_cons.1 h
    have e : Step (F := F) z root allow cpus { disk := s } { disk := t, reqs := if t.d.up then [] else [] } := .store { disk := s } a t (ha a (by simp)) h1
    rw [ite_self] at e
    exact (Reaches.single e).trans (ih h2 fun a h => ha a (List.mem_cons_of_mem _ h))

/-- the documents "a" and "b". -/
def AB (d : String) : Prop := d = "a" ∨ d = "b"

theorem ids_ab : Ids AB := by
  refine ⟨?_, ?_⟩
  · rintro d (rfl | rfl) <;> decide
  · rintro d e (rfl | rfl) (rfl | rfl) <;> decide

/-- what the client of the second process saves. -/
def saveB : StoreOp := .save "b" ⟨"text", 1, [("x", 1)]⟩

/-- the programs of the two processes. -/
def Both (a : Act) : Prop := ∀ n progs, a = .openRest n progs → 1 ≤ n ∧ (progs = [[.write (.save "a" ⟨"title", 1, [("x", 1)]⟩)]] ∨ progs = [[.write saveB]])

/-- the program of the second process. -/
def Second (a : Act) : Prop := ∀ n progs, a = .openRest n progs → 1 ≤ n ∧ progs = [[.write saveB]]

theorem Second.both {a : Act} (h : Second a) : Both a := fun n progs e => ⟨(h n progs e).1, .inr (h n progs e).2⟩

theorem both_tame : Tame AB Both := by
  intro n progs h p hp o ho
  have k : o = .write (.save "a" ⟨"title", 1, [("x", 1)]⟩) ∨ o = .write saveB := by
    rcases (h n progs rfl).2 with rfl | rfl
    · rw [List.mem_singleton] at hp; subst hp
      exact .inl (List.mem_singleton.1 ho)
    · rw [List.mem_singleton] at hp; subst hp
      exact .inr (List.mem_singleton.1 ho)
  rcases k with rfl | rfl
  · exact ⟨⟨⟨by decide, by decide⟩, fun _ => .inl rfl, by simp [StoreOp.field, GoMap.WF, GoMap.keys]⟩, fun op e => by cases e; exact .inl rfl⟩
  · exact ⟨⟨⟨by decide, by decide⟩, fun _ => .inr rfl, by simp [saveB, StoreOp.field, GoMap.WF, GoMap.keys]⟩, fun op e => by cases e; exact .inr rfl⟩

theorem both_noOpen (a : Act) (h : noOpen a = true) : Both a := by rintro n progs rfl; cases h

theorem second_noOpen (a : Act) (h : noOpen a = true) : Second a := by rintro n progs rfl; cases h

theorem second_spares (a : Act) (h : Second a) : Server.Spares "a" a := by
  intro n progs e op hop
  rw [(h n progs e).2] at hop
  have : op = saveB := by simpa [writes] using hop
  subst this
  exact ⟨by simp [saveB, StoreOp.field, GoMap.WF, GoMap.keys], fun _ => by decide⟩

/-- document "a" is saved, its fragment and its file are written, and the process ends in the middle of the last rename. -/
def aSaved : List Act := oneSaved ++ [.tickD ["a"]] ++ List.replicate 158 .stepD ++ [.crash]

/-- the second process, in the middle of a save. -/
def bBegun : List Act := (.open_ :: (List.replicate 115 (.ix .merge) ++ [.openRest 5 [[.write saveB]]])) ++ List.replicate 4 (.client 0 0)

set_option maxRecDepth 100000 in
theorem ab_run : ∃ s, BDisk.run packer ["data"] { fs := folder } aSaved = some s ∧ s.d.up = false ∧ loadDoc s.fs ["data"] "a" = some (some [("title", ⟨"title", 1, [("x", 1)]⟩)]) ∧
    ∃ s', s.run packer ["data"] bBegun = some s' ∧ s'.d.up = true ∧ GoSet.contains (s'.d.getDocuments "title" "x").1 "a" = true ∧
      (s'.d.clients.map fun cl => cl.cur.map fun c => match c with | .write op _ => op.field.name | _ => "title") = [some "text"] := by
  obtain ⟨s, h1, h2⟩ : ∃ s, BDisk.run packer ["data"] { fs := folder } aSaved = some s ∧ (decide (s.d.up = false ∧ loadDoc s.fs ["data"] "a" = some (some [("title", ⟨"title", 1, [("x", 1)]⟩)])) &&
      (s.run packer ["data"] bBegun).any fun s' => decide (s'.d.up = true ∧ GoSet.contains (s'.d.getDocuments "title" "x").1 "a" = true ∧
      (s'.d.clients.map fun cl => cl.cur.map fun c => match c with | .write op _ => op.field.name | _ => "title") = [some "text"])) = true :=
    exists_of (by decide +kernel)
  rw [Bool.and_eq_true, decide_eq_true_eq] at h2
  obtain ⟨s', h3, h4⟩ := exists_of h2.2
  exact ⟨s, h1, h2.1.1, h2.1.2, s', h3, of_decide_eq_true h4⟩

/-- the hypotheses of the theorems of C119 are met, and they say something: the first process saves "a" and ends; the second one is in the middle of saving "b" when it is asked for "x" in titles; the search, which reads the bytes of the file
of "a", comes to an end, and "a" is in what it returns. -/
example : ∃ (b₂ b : BServer F) (r : DReq F) (l : Scores F), Reaches (Step packer ["data"] Both 4) { disk := { fs := folder } } b₂ ∧ b₂.disk.d.up = true ∧ (∀ cl ∈ b₂.disk.d.clients, cl.cur ≠ none) ∧ b₂.disk.d.clients ≠ [] ∧
    Reaches (UpStep packer ["data"] Second 4) { b₂ with reqs := b₂.reqs ++ [DReq.start [⟨"title", GoFloat.lit 1, ["x"]⟩]] } b ∧ b.reqs[b₂.reqs.length]? = some r ∧ r.result = some l ∧ "a" ∈ l.map Prod.fst := by
  obtain ⟨s, h1, hd, hfile, s', h2, hu, listed, hcur⟩ := ab_run
  have a1 : ∀ a ∈ aSaved, Both a := by
    rintro a ha n progs rfl
    have : (n, progs) = (5, [[DOp.write (.save "a" ⟨"title", 1, [("x", 1)]⟩)]]) := by
      rcases List.mem_append.1 ha with ha | ha
      · rcases List.mem_append.1 ha with ha | ha
        · rcases List.mem_append.1 ha with ha | ha
          · simpa [oneSaved, oneSave, openEmpty, List.mem_replicate] using ha
          · cases List.mem_singleton.1 ha
        · cases List.eq_of_mem_replicate ha
      · cases List.mem_singleton.1 ha
    cases this
    exact ⟨by decide, .inl rfl⟩
  have a2 : ∀ a ∈ bBegun, Second a := by
    rintro a ha n progs rfl
    have : (n, progs) = (5, [[DOp.write saveB]]) := by
      rcases List.mem_append.1 ha with ha | ha
      · rcases List.mem_cons.1 ha with ha | ha
        · cases ha
        · rcases List.mem_append.1 ha with ha | ha
          · cases List.eq_of_mem_replicate ha
          · cases List.mem_singleton.1 ha; rfl
      · cases List.eq_of_mem_replicate ha
    cases this
    exact ⟨by decide, rfl⟩
  have r1 : Reaches (Step (F := F) packer ["data"] Both 4) { disk := { fs := folder } } { disk := s } := reaches_run h1 a1
  have r2 : Reaches (Step (F := F) packer ["data"] Second 4) { disk := s } { disk := s' } := reaches_run h2 a2
  have both : ∀ {x y : BServer F}, Step packer ["data"] Second 4 x y → Step packer ["data"] Both 4 x y := fun h => by
    cases h with
    | store a d ha hx => exact .store _ a d ha.both hx
    | arrive query hu => exact .arrive _ query hu
    | req i r r' d hr hm => exact .req _ i r r' d hr hm
    | panics i r d hr hm => exact .panics _ i r d hr hm
  have r3 : Reaches (Step (F := F) packer ["data"] Both 4) { disk := { fs := folder } } { disk := s' } := r1.trans (Server.reaches_mono (fun x y => both) r2)
  have r4 : Reaches (Step (F := F) packer ["data"] Both 4) { disk := { fs := folder } } { disk := s', reqs := [DReq.start [⟨"title", GoFloat.lit 1, ["x"]⟩]] } := r3.tail (.arrive { disk := s' } _ hu)
  obtain ⟨-, ⟨b, l, hb, hl⟩, -⟩ := c119_ends (by decide) folder_empty packer_written ids_ab both_tame both_noOpen (fun a ha n progs e => (ha n progs e).1) r4 (i := 0) rfl
  have up : ∀ x, Reaches (ReqStep ["data"] 4 0) { disk := s', reqs := [DReq.start [⟨"title", GoFloat.lit 1, ["x"]⟩]] } x → x.disk.d.up = true ∧ Reaches (Step (F := F) packer ["data"] Both 4) { disk := { fs := folder } } x := by
    intro x hx
    refine hx.invariant (P := fun x => x.disk.d.up = true ∧ Reaches (Step (F := F) packer ["data"] Both 4) { disk := { fs := folder } } x) ⟨hu, r4⟩ ?_
    rintro x y ⟨p1, p2⟩ hs
    obtain ⟨a, k1, k2⟩ := reach_sim ids_ab packer_written both_tame both_noOpen (a := {}) ⟨brel_init folder_empty, rfl⟩ (SInv.init AB) p2
    have i1 := (SInv.init AB).reach both_tame k1
    obtain ⟨a', e1, e2⟩ := reqStep_sim ids_ab k2 i1 hs
    refine ⟨?_, p2.tail ?_⟩
    · rw [← e2.disk.up]
      exact (Server.reqStep_up (Server.lively_reach (by decide) (Server.reaches_mono (fun x y hs => hs.mono fun a ha n progs e => (ha n progs e).1) k1)) e1).2
    · obtain ⟨r, r', d, e3, e4, rfl⟩ := hs
      exact .req _ 0 r r' d e3 e4
  have r5 : Reaches (UpStep packer ["data"] Second 4) { disk := s', reqs := [DReq.start [⟨"title", GoFloat.lit 1, ["x"]⟩]] } b := by
    refine (hb.invariant (P := fun x => Reaches (ReqStep ["data"] 4 0) { disk := s', reqs := [DReq.start [⟨"title", GoFloat.lit 1, ["x"]⟩]] } x ∧
      Reaches (UpStep packer ["data"] Second 4) { disk := s', reqs := [DReq.start [⟨"title", GoFloat.lit 1, ["x"]⟩]] } x) ⟨.refl _, .refl _⟩ ?_).2
    rintro x y ⟨p1, p2⟩ hs
    refine ⟨p1.tail hs, p2.tail ⟨?_, (up y (p1.tail hs)).1⟩⟩
    obtain ⟨r, r', d, e3, e4, rfl⟩ := hs
    exact .req _ 0 r r' d e3 e4
  unfold resultOf at hl
  obtain ⟨r, hr, hl⟩ := Option.bind_eq_some_iff.1 hl
  obtain ⟨cl, hcl⟩ : ∃ cl, s'.d.clients = [cl] := by
    have := congrArg List.length hcur
    rw [List.length_map] at this
    exact List.length_eq_one_iff.1 this
  rw [hcl, List.map_singleton, List.cons.injEq] at hcur
  obtain ⟨c, hc, hcn⟩ := Option.map_eq_some_iff.1 hcur.1
  refine ⟨{ disk := s' }, b, r, l, r3, hu, ?_, by rw [hcl]; simp, r5, hr, hl, ?_⟩
  · intro x hx
    rw [hcl, List.mem_singleton] at hx
    rw [hx, hc]; simp
  obtain ⟨as, b1, b2, b3⟩ := c119_finds (allow' := Second) (d := "a") (f := "title") (t := "x") (b₂ := { disk := s' }) folder_empty packer_written ids_ab both_tame both_noOpen (fun n progs h => both_tame n progs (Second.both h)) second_noOpen second_spares (.inl rfl)
    r1 hd hfile (old := ⟨"title", 1, [("x", 1)]⟩) (by decide) r2 hu listed (fun x hx op loc e => by
      rw [hcl, List.mem_singleton] at hx
      rw [hx, hc] at e
      cases e
      rw [show op.field.name = "text" from hcn]; decide) r5 hr hl
  exact Merges.mem b1 b2 b3 (q := ⟨"title", GoFloat.lit 1, ["x"]⟩) (by simp) rfl (by simp)

/-- searches make steps of the process that is up. -/
theorem reqStep_upStep {root : Path} {fs : FS} {D : String → Prop} {z : Bytes → Bytes} {allow allow' : Act → Prop} {cpus i : Nat} (hc : 0 < cpus) (hroot : EmptyRoot root fs) (hz : ∀ d, Gz.Written d (z d)) (hD : Ids D) (ht : Tame D allow)
    (ha : ∀ a, noOpen a = true → allow a) (room : ∀ a, allow a → Server.RoomyAct a) {x y : BServer F} (hx : Reaches (Step z root allow cpus) { disk := { fs := fs } } x) (hu : x.disk.d.up = true)
    (h : Reaches (ReqStep root cpus i) x y) : Reaches (UpStep z root allow' cpus) x y := by
  refine (h.invariant (P := fun y => Reaches (Step z root allow cpus) { disk := { fs := fs } } y ∧ Reaches (UpStep z root allow' cpus) x y) ⟨hx, .refl _⟩ ?_).2
  rintro x y ⟨p2, p3⟩ hs
  obtain ⟨a, k1, k2⟩ := reach_sim hD hz ht ha (a := {}) ⟨brel_init hroot, rfl⟩ (SInv.init D) p2
  obtain ⟨a', e1, e2⟩ := reqStep_sim hD k2 ((SInv.init D).reach ht k1) hs
  have up : y.disk.d.up = true := by
    rw [← e2.disk.up]
    exact (Server.reqStep_up (Server.lively_reach hc (Server.reaches_mono (fun x y hs => hs.mono room) k1)) e1).2
  obtain ⟨r, r', d, e3, e4, rfl⟩ := hs
  exact ⟨p2.tail (.req _ i r r' d e3 e4), p3.tail ⟨.req _ i r r' d e3 e4, up⟩⟩

end BServer

namespace Http
open Json BDisk

set_option maxRecDepth 100000 in
theorem red_brun : ∃ s, BDisk.run packer ["data"] { fs := folder } (CDisk.openEmpty 5 [redCalls, redCalls] ++ [.client 0 0, .client 1 0, .client 0 0]) = some s ∧ s.d.up = true ∧
    (s.d.clients.map fun cl => cl.cur.isSome) = [true, true] := by
  obtain ⟨s, h1, h2⟩ : ∃ s, BDisk.run packer ["data"] { fs := folder } (CDisk.openEmpty 5 [redCalls, redCalls] ++ [.client 0 0, .client 1 0, .client 0 0]) = some s ∧
    (decide (s.d.up = true ∧ (s.d.clients.map fun cl => cl.cur.isSome) = [true, true])) = true := exists_of (by decide +kernel)
  exact ⟨s, h1, of_decide_eq_true h2⟩

theorem sent_seven {d : String} (h : Sent [bodyOf "7" "" "red"] d) : d = "7" := by
  obtain ⟨body, hb, s, doc, h1, h2, h3, -⟩ := h
  rw [List.mem_singleton] at hb
  subst hb
  obtain ⟨cs, b1, b2⟩ := bodyOf_carries "7" "" "red" (by decide)
  have := (bind_carries b1 b2).symm.trans (bind_carries h1 h2)
  cases this
  exact h3.symm

/-- the hypotheses of `c119_live` are met: two clients POST a document at the same time and are in the middle of it when GET /nir?query=red arrives, and the search comes to an end. -/
example {F : Type} [GoFloat F] : Ids (Sent [bodyOf "7" "" "red"]) ∧ ∃ (b₂ b : BServer F) (r : DReq F) (l : Scores F), Reaches (BServer.Step packer ["data"] (Posts demoEnv [bodyOf "7" "" "red"]) 4) { disk := { fs := folder } } b₂ ∧
    b₂.disk.d.up = true ∧ (b₂.disk.d.clients.map fun cl => cl.cur.isSome) = [true, true] ∧
    Reaches (BServer.UpStep packer ["data"] (Posts demoEnv [bodyOf "7" "" "red"]) 4) { b₂ with reqs := b₂.reqs ++ [DReq.start (queries (termsOf demoEnv "red"))] } b ∧
    b.reqs[b₂.reqs.length]? = some r ∧ r.result = some l := by
  have hD : Ids (Sent [bodyOf "7" "" "red"]) := ⟨fun d h => by rw [sent_seven h]; decide, fun d e h h' => by rw [sent_seven h, sent_seven h']; decide⟩
  refine ⟨hD, ?_⟩
  obtain ⟨s, h1, hu, hc⟩ := red_brun
  obtain ⟨cs, b1, b2⟩ := bodyOf_carries "7" "" "red" (by decide)
  have hb := bind_carries b1 b2
  have hs : ∀ a ∈ CDisk.openEmpty 5 [redCalls, redCalls] ++ [.client 0 0, .client 1 0, .client 0 0], Posts demoEnv [bodyOf "7" "" "red"] a ∧ Server.RoomyAct a := by
    intro a ha
    refine ⟨?_, (Server.fits_ok (d := "a") ((by decide +kernel : ∀ a ∈ CDisk.openEmpty 5 [redCalls, redCalls] ++ [.client 0 0, .client 1 0, .client 0 0], Server.fits "a" a = true) a ha)).1⟩
    rintro n progs rfl p hp o ho
    have : progs = [redCalls, redCalls] := by simp [CDisk.openEmpty] at ha; exact ha.2
    subst this
    have hp : p = redCalls := by simpa using hp
    subst hp
    obtain ⟨op, h1, h2⟩ := List.mem_map.1 ho
    exact ⟨op, by simp only [List.map_cons, List.map_nil, hb, List.flatMap_cons, List.flatMap_nil, List.append_nil]; exact h1, h2.symm⟩
  have r1 : Reaches (BServer.Step (F := F) packer ["data"] (Posts demoEnv [bodyOf "7" "" "red"]) 4) { disk := { fs := folder } } { disk := s } := BServer.reaches_run h1 fun a ha => (hs a ha).1
  have ht : BServer.Tame (Sent [bodyOf "7" "" "red"]) fun a => Posts demoEnv [bodyOf "7" "" "red"] a ∧ Server.RoomyAct a := fun n progs h => posts_tame demoEnv _ n progs h.1
  have hno : ∀ a, CDisk.noOpen a = true → Posts demoEnv [bodyOf "7" "" "red"] a ∧ Server.RoomyAct a := fun a h => ⟨posts_noOpen _ _ a h, Server.roomy_noOpen a h⟩
  have r2 : Reaches (BServer.Step (F := F) packer ["data"] (fun a => Posts demoEnv [bodyOf "7" "" "red"] a ∧ Server.RoomyAct a) 4) { disk := { fs := folder } } { disk := s, reqs := [DReq.start (queries (termsOf demoEnv "red"))] } :=
    (BServer.reaches_run h1 hs).tail (.arrive { disk := s } _ hu)
  obtain ⟨-, ⟨b, l, hb, hl⟩, -⟩ := c119_ends (by decide) folder_empty packer_written hD ht hno (fun a h => h.2) r2 (i := 0) rfl
  unfold BServer.resultOf at hl
  obtain ⟨r, hr, hl⟩ := Option.bind_eq_some_iff.1 hl
  exact ⟨{ disk := s }, b, r, l, r1, hu, hc, BServer.reqStep_upStep (by decide) folder_empty packer_written hD ht hno (fun a h => h.2) r2 hu hb, hr, hl⟩

end Http
end Goir
