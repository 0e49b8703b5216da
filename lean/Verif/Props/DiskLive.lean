import Verif.Props.DiskStore
/-!
# The whole disk store, across crashes and reopenings

Where everything a store shows comes from (C25, C29 for the whole store), and C77: calls always complete.
-/
namespace Goir
open GoMap Spec Disk

namespace Disk

/-! ### provenance -/

/-- everything in the store and in the update in progress was handed to some call. -/
structure Prov (as : List Act) (tr : List DcState.Act) (s : Disk) : Prop where
  saved : ∀ d f, DcState.Act.save d f ∈ tr → StoreOp.save d f ∈ calls as
  docs  : ∀ d f, Micro.doc d f ∈ s.prog → StoreOp.save d f ∈ calls as
  hist  : ∀ f t d, (f, t, d) ∈ s.ix.hist → Posted (calls as) f t d
  posts : ∀ f t d, Micro.post f t d ∈ s.prog → Posted (calls as) f t d
  caps  : ∀ n, DcState.Act.open_ n ∈ tr → Act.openRest n ∈ as

theorem posted_mono {h h' : List StoreOp} (hs : ∀ op ∈ h, op ∈ h') {f t d : String} (hp : Posted h f t d) : Posted h' f t d := by
  obtain ⟨op, h1, h2⟩ := hp; exact ⟨op, hs op h1, h2⟩

theorem prov_exec {as : List Act} {tr : List DcState.Act} {s s' : Disk} {a : Act} (h : Prov as tr s) (he : s.exec a = some s') :
    Prov (as ++ [a]) (tr ++ dcActs s a) s' := by
  have hsub : ∀ op ∈ calls as, op ∈ calls (as ++ [a]) := fun op ho => by rw [calls_snoc]; exact List.mem_append_left _ ho
  have base : ∀ {prog' : List Micro} {hist' : List (String × String × String)},
      (∀ d f, Micro.doc d f ∈ prog' → Micro.doc d f ∈ s.prog ∨ StoreOp.save d f ∈ calls [a]) →
      (∀ f t d, Micro.post f t d ∈ prog' → Micro.post f t d ∈ s.prog ∨ Posted (calls [a]) f t d) →
      (∀ x, x ∈ hist' → x ∈ s.ix.hist ∨ Micro.post x.1 x.2.1 x.2.2 ∈ s.prog) →
      (∀ d f, DcState.Act.save d f ∈ dcActs s a → Micro.doc d f ∈ s.prog) →
      (∀ n, DcState.Act.open_ n ∈ dcActs s a → a = .openRest n) → s'.prog = prog' → s'.ix.hist = hist' →
      Prov (as ++ [a]) (tr ++ dcActs s a) s' := by
    intro prog' hist' h1 h2 h3 h4 h5 e1 e2
    have new : ∀ op ∈ calls [a], op ∈ calls (as ++ [a]) := fun op ho => by rw [calls_snoc]; exact List.mem_append_right _ ho
    refine ⟨fun d f hm => ?_, fun d f hm => ?_, fun f t d hm => ?_, fun f t d hm => ?_, fun n hm => ?_⟩
    · rcases List.mem_append.1 hm with hm | hm
      · exact hsub _ (h.saved d f hm)
      · exact hsub _ (h.docs d f (h4 d f hm))
    · rw [e1] at hm
      rcases h1 d f hm with hm | hm
      · exact hsub _ (h.docs d f hm)
      · exact new _ hm
    · rw [e2] at hm
      rcases h3 _ hm with hm | hm
      · exact posted_mono hsub (h.hist f t d hm)
      · exact posted_mono hsub (h.posts f t d hm)
    · rw [e1] at hm
      rcases h2 f t d hm with hm | hm
      · exact posted_mono hsub (h.posts f t d hm)
      · exact posted_mono new hm
    · rcases List.mem_append.1 hm with hm | hm
      · exact List.mem_append_left _ (h.caps n hm)
      · rw [h5 n hm]; simp
  have keepIx : ∀ {b : IxState.Act} {ix : IxState}, (∀ f t d, b ≠ .post f t d) → s.ix.exec b = some ix →
      ∀ x, x ∈ ix.hist → x ∈ s.ix.hist ∨ Micro.post x.1 x.2.1 x.2.2 ∈ s.prog := by
    intro b ix hb hx x hm
    rcases IxState.hist_exec hx x hm with h | h
    · exact .inl h
    · exact absurd h (hb _ _ _)
  have rest : ∀ {m : Micro} {r : List Micro}, s.prog = m :: r → ∀ x, x ∈ r → x ∈ s.prog := by
    intro m r e x hx; rw [e]; exact List.mem_cons_of_mem _ hx
  cases exec_eff he with
  | @save d f o₁ o₂ hi h1 h2 =>
    refine base (fun e g hm => .inr ?_) (fun n t e hm => .inr ?_) (fun x hx => .inl hx) (by simp [dcActs]) (by simp [dcActs]) rfl rfl
    · have : (e, g) ∈ (saveProg d f o₁ o₂).filterMap dDoc := List.mem_filterMap.2 ⟨_, hm, rfl⟩
      rw [docs_saveProg] at this; simp at this; simp [calls, this]
    · exact ⟨.save d f, by simp [calls], (post_mem_saveProg d f o₁ o₂ h1 n t e).1 hm⟩
  | @updateIndex d f o hi h1 =>
    refine base (fun e g hm => .inr ?_) (fun n t e hm => .inr ?_) (fun x hx => .inl hx) (by simp [dcActs]) (by simp [dcActs]) rfl rfl
    · have : (e, g) ∈ (updateIndexProg d f o).filterMap dDoc := List.mem_filterMap.2 ⟨_, hm, rfl⟩
      rw [docs_updateIndexProg] at this; cases this
    · exact ⟨.updateIndex d f, by simp [calls], (post_mem_updateIndexProg d f o h1 n t e).1 hm⟩
  | size hp hb hx =>
    exact base (fun _ _ hm => .inl (rest hp _ hm)) (fun _ _ _ hm => .inl (rest hp _ hm)) (fun x hx => .inl hx) (by simp [dcActs, hp])
      (by simp [dcActs, hp]) rfl rfl
  | touch hp hb hx =>
    exact base (fun _ _ hm => .inl (rest hp _ hm)) (fun _ _ _ hm => .inl (rest hp _ hm)) (keepIx (fun _ _ _ e => by cases e) hx)
      (by simp [dcActs, hp]) (by simp [dcActs, hp]) rfl rfl
  | post hp hb hx =>
    refine base (fun _ _ hm => .inl (rest hp _ hm)) (fun _ _ _ hm => .inl (rest hp _ hm)) (fun x hm => ?_)
      (by simp [dcActs, hp]) (by simp [dcActs, hp]) rfl rfl
    rcases IxState.hist_exec hx x hm with h | h
    · exact .inl h
    · cases h; exact .inr (by rw [hp]; simp)
  | term hp hb hx =>
    exact base (fun _ _ hm => .inl (rest hp _ hm)) (fun _ _ _ hm => .inl (rest hp _ hm)) (fun x hx => .inl hx) (by simp [dcActs, hp])
      (by simp [dcActs, hp]) rfl rfl
  | doc hp hb hx =>
    refine base (fun _ _ hm => .inl (rest hp _ hm)) (fun _ _ _ hm => .inl (rest hp _ hm)) (fun x hx => .inl hx) ?_
      (by simp [dcActs, hp]) rfl rfl
    intro e g hm
    simp only [dcActs, hp, List.mem_singleton, DcState.Act.save.injEq] at hm
    rw [hp, hm.1, hm.2]; simp
  | read hi hx =>
    exact base (fun _ _ hm => .inl hm) (fun _ _ _ hm => .inl hm) (fun x hx => .inl hx) (by simp [dcActs]) (by simp [dcActs]) rfl rfl
  | ix hb hu hx hp =>
    refine base (fun _ _ hm => .inl hm) (fun _ _ _ hm => .inl hm) (keepIx (fun _ _ _ e => ?_) hx) (by simp [dcActs, hx, hp])
      (by simp [dcActs, hx, hp]) rfl rfl
    subst e; cases hb
  | ixDown hb hu hx hp =>
    refine base (prog' := []) (fun _ _ hm => by cases hm) (fun _ _ _ hm => by cases hm) (keepIx (fun _ _ _ e => ?_) hx) ?_ ?_ rfl rfl
    · subst e; cases hb
    · intro d f hm; simp only [dcActs, hx, hp, if_true, dcStop] at hm; split at hm <;> simp at hm
    · intro n hm; simp only [dcActs, hx, hp, if_true, dcStop] at hm; split at hm <;> simp at hm
  | ct hb hu hx =>
    exact base (fun _ _ hm => .inl hm) (fun _ _ _ hm => .inl hm) (fun x hx => .inl hx) (by simp [dcActs]) (by simp [dcActs]) rfl rfl
  | dc hb hu hx =>
    refine base (fun _ _ hm => .inl hm) (fun _ _ _ hm => .inl hm) (fun x hx => .inl hx) ?_ ?_ rfl rfl
    · intro d f hm; simp only [dcActs, List.mem_singleton] at hm; subst hm; cases hb
    · intro n hm; simp only [dcActs, List.mem_singleton] at hm; subst hm; cases hb
  | crash hx =>
    refine base (prog' := []) (fun _ _ hm => by cases hm) (fun _ _ _ hm => by cases hm) (keepIx (fun _ _ _ e => by cases e) hx) ?_ ?_ rfl rfl
    · intro d f hm; simp only [dcActs, dcStop] at hm; split at hm <;> simp at hm
    · intro n hm; simp only [dcActs, dcStop] at hm; split at hm <;> simp at hm
  | open_ hx =>
    exact base (fun _ _ hm => .inl hm) (fun _ _ _ hm => .inl hm) (keepIx (fun _ _ _ e => by cases e) hx) (by simp [dcActs]) (by simp [dcActs]) rfl rfl
  | openRest hp hu h1 h2 =>
    refine base (fun _ _ hm => .inl hm) (fun _ _ _ hm => .inl hm) (fun x hx => .inl hx) (by simp [dcActs]) ?_ rfl rfl
    intro n hm; simp only [dcActs, List.mem_singleton, DcState.Act.open_.injEq] at hm; rw [hm]

theorem prov_run {as : List Act} {s : Disk} (h : run {} as = some s) : Prov as (trace dcActs {} as) s := by
  refine run_induction (P := fun as s => Prov as (trace dcActs {} as) s) ⟨?_, ?_, ?_, ?_, ?_⟩ ?_ h
  · intro d f hm; cases hm
  · intro d f hm; cases hm
  · intro f t d hm; cases hm
  · intro f t d hm; cases hm
  · intro n hm; cases hm
  · intro as s a s' hr ih he
    rw [trace_snoc dcActs a hr]
    exact prov_exec ih he

theorem goFields_trace {as : List Act} {s : Disk} (h : run {} as = some s) (gv : GoValues (calls as)) : GoFields (trace dcActs {} as) :=
  fun d f hm => gv _ ((prov_run h).saved d f hm)

/-! ### the parts are up together -/

theorem up_together {as : List Act} {s : Disk} (h : run {} as = some s) :
    s.ct.up = s.dc.up ∧ (s.dc.up = true → s.ix.proc = .up) ∧ (s.dc.up = false → s.prog = []) := by
  refine run_induction (P := fun _ s => s.ct.up = s.dc.up ∧ (s.dc.up = true → s.ix.proc = .up) ∧ (s.dc.up = false → s.prog = []))
    ⟨rfl, fun e => (by cases e), fun _ => rfl⟩ ?_ h
  clear h
  intro as s a s' hr ⟨h1, h2, h3⟩ he
  have progUp : s.prog ≠ [] → s.dc.up = true := by
    intro hp
    cases hu : s.dc.up with
    | true => rfl
    | false => exact absurd (h3 hu) hp
  have stopped : ∀ ix, (s.stop ix).ct.up = (s.stop ix).dc.up ∧ ((s.stop ix).dc.up = true → (s.stop ix).ix.proc = .up) ∧
      ((s.stop ix).dc.up = false → (s.stop ix).prog = []) := by
    intro ix
    have e1 : (s.stop ix).ct.up = false := by unfold stop; simp only [CtState.exec]; cases hu : s.ct.up <;> simp [hu]
    have e2 : (s.stop ix).dc.up = false := by unfold stop; simp only [DcState.exec]; cases hu : s.dc.up <;> simp [hu]
    exact ⟨by rw [e1, e2], fun e => (by rw [e2] at e; cases e), fun _ => rfl⟩
  cases exec_eff he with
  | save hi => have := (idle_spec hi).1; exact ⟨h1, h2, fun e => (by rw [show DcState.up _ = s.dc.up from rfl, this] at e; cases e)⟩
  | updateIndex hi => have := (idle_spec hi).1; exact ⟨h1, h2, fun e => (by rw [show DcState.up _ = s.dc.up from rfl, this] at e; cases e)⟩
  | size hp hb hx =>
    have hu := progUp (by rw [hp]; simp)
    simp only [CtState.exec] at hx; split at hx
    · cases hx; exact ⟨h1, h2, fun e => (by rw [show DcState.up _ = s.dc.up from rfl, hu] at e; cases e)⟩
    · cases hx
  | touch hp hb hx =>
    have hu := progUp (by rw [hp]; simp)
    simp only [IxState.exec] at hx; split at hx
    · cases hx; exact ⟨h1, h2, fun e => (by rw [show DcState.up _ = s.dc.up from rfl, hu] at e; cases e)⟩
    · cases hx
  | post hp hb hx =>
    have hu := progUp (by rw [hp]; simp)
    simp only [IxState.exec] at hx; split at hx
    · cases hx; exact ⟨h1, h2, fun e => (by rw [show DcState.up _ = s.dc.up from rfl, hu] at e; cases e)⟩
    · cases hx
  | term hp hb hx =>
    have hu := progUp (by rw [hp]; simp)
    simp only [CtState.exec] at hx; split at hx
    · cases hx; exact ⟨h1, h2, fun e => (by rw [show DcState.up _ = s.dc.up from rfl, hu] at e; cases e)⟩
    · cases hx
  | doc hp hb hx =>
    have hu := progUp (by rw [hp]; simp)
    have := dc_save_up hx
    exact ⟨by rw [h1, hu, this], fun _ => h2 hu, fun e => (by rw [show DcState.up _ = true from this] at e; cases e)⟩
  | read hi hx =>
    have e1 := (dc_read_up hx).1
    exact ⟨h1.trans e1.symm, fun e => h2 (e1 ▸ e), fun e => h3 (e1 ▸ e)⟩
  | ix hb hu hx hp =>
    refine ⟨h1, fun e => ?_, h3⟩
    exact ((ix_background (h2 e) hb hx).resolve_left hp).1
  | ixDown hb hu hx hp => exact stopped _
  | ct hb hu hx => exact ⟨(ct_background hb hx).1.trans h1, h2, h3⟩
  | dc hb hu hx =>
    have e1 := dc_background hb hx
    exact ⟨h1.trans e1.symm, fun e => h2 (e1 ▸ e), fun e => h3 (e1 ▸ e)⟩
  | crash hx => exact stopped _
  | open_ hx =>
    simp only [IxState.exec] at hx; split at hx
    · rename_i hp
      cases hx
      refine ⟨h1, fun e => ?_, h3⟩
      rw [h2 e] at hp; cases hp
    · cases hx
  | @openRest n ct dc hp hu hx1 hx2 =>
    have e1 : ct.up = true := by
      simp only [CtState.exec] at hx1
      split at hx1
      · cases hx1
      · split at hx1
        · cases hx1; rfl
        · cases hx1
    have e2 : dc.up = true := by
      simp only [DcState.exec, hu, Bool.false_eq_true, if_false, Option.some.injEq] at hx2; rw [← hx2]
    exact ⟨by rw [e1, e2], fun _ => hp, fun e => (by rw [e2] at e; cases e)⟩

end Disk

/-- **C29, whole store.** In any process, at any moment, also during a call and while opening, a posting that GetDocuments shows was in some
SaveOrUpdate or UpdateIndex call, of this or an earlier process. -/
theorem c29_store_never_invents {as : List Act} {s : Disk} (h : run {} as = some s) (f t d : String)
    (hv : (s.getDocuments f t).1.contains d = true) : Posted (calls as) f t d := by
  have hx := IxState.run_inv IxState.init_inv (run_parts h).1
  have h2 := (IxState.has2_iff_getDocuments s.ix f t d).2 hv
  refine (prov_run h).hist f t d ?_
  cases hp : s.ix.proc with
  | up =>
    rcases (hx.up hp f t d).1 h2 with h | h | h
    · exact hx.histS f t d h
    · exact hx.histB f t d h
    · exact hx.histC _ h
  | opening => rw [(hx.opening hp).mem] at h2; obtain ⟨p, e, _⟩ := h2; cases e
  | down => rw [(hx.down hp).mem] at h2; obtain ⟨p, e, _⟩ := h2; cases e

/-- **C25, whole store.** Every field that GetFields returns was passed to a SaveOrUpdate call on that document, of this or an earlier
process, up to the 32 bits of the file format. -/
theorem c25_store_never_invents {as : List Act} {s s' : Disk} (h : run {} as = some s) (gv : GoValues (calls as)) (hi : s.idle = true)
    {ids : List String} {name : String} {out : GoMap String Field} (hf : s.getFields ids name = some (s', out)) :
    ∀ d f, out.get? d = some f → d ∈ ids ∧ ∃ g, StoreOp.save d g ∈ calls as ∧ g.name = name ∧ (f = g ∨ f = cutField g) := by
  obtain ⟨hu, -, -, hs, -⟩ := idle_spec hi
  obtain ⟨r, h1, h2⟩ := Option.map_eq_some_iff.1 hf
  cases h2
  intro d f hd
  obtain ⟨a1, g, a2, a3⟩ := c25_getFields_never_invents (run_parts h).2.2 (goFields_trace h gv) hu hs h1 d f hd
  exact ⟨a1, g, (prov_run h).saved d g a2, a3⟩

/-! ### C77: calls complete -/

namespace Disk

/-- the client's next statement, and the steps of the four writers that need no ticker. -/
def prompt : Act → Bool
  | .client => true
  | .ix a => match a with | .recv | .create _ | .write | .flushed => true | _ => false
  | .ct a => match a with | .recvM | .recvN | .stepM | .stepN => true | _ => false
  | .dc a => match a with | .recv | .step => true | _ => false
  | _ => false

/-- system calls SecureSaveFile still has to make. -/
def spcLeft : SPc → Nat | .start => 5 | .writing => 4 | .written => 3 | .moved => 2 | .installed => 1 | .done => 0

/-- steps left of a flush in progress. -/
def flushLeft : FlushPc → Nat
  | .idle => 0
  | .flushing todo => 1 + 7 * todo.length
  | .saving _ rest _ pc => 2 + 7 * rest.length + spcLeft pc

/-- steps left of a flush of postings in progress. -/
def writerLeft : WriterPc → Nat
  | .idle => 0
  | .flushing rest none => 1 + 2 * rest.length
  | .flushing rest (some _) => 2 * rest.length

/-- steps left until the call in progress is complete and no writer has anything to do before its next tick. -/
def work (s : Disk) : Nat :=
  2 * s.prog.length + s.ix.chan.length + writerLeft s.ix.writer + flushLeft s.ct.mx.pc + flushLeft s.ct.nf.pc + flushLeft s.dc.fl.pc +
    s.ct.sendM.toList.length + s.ct.sendN.toList.length + s.dc.send.toList.length

theorem step_left {B : Type} {ser : String → B → Option FB.Buf} {x x' : Flusher B} (h : x.step ser = some x') :
    flushLeft x'.pc + 1 = flushLeft x.pc := by
  unfold Flusher.step at h
  match hp : x.pc with
  | .idle => rw [hp] at h; cases h
  | .flushing [] => rw [hp] at h; cases h; rfl
  | .flushing (k :: rest) =>
    rw [hp] at h
    simp only at h
    split at h
    · cases h
    · split at h
      · cases h
      · cases h; simp only [flushLeft, spcLeft, List.length_cons]; omega
  | .saving k rest b pc =>
    rw [hp] at h
    cases pc <;> (cases h; simp only [flushLeft, spcLeft, SPc.next] <;> try omega)

/-- every prompt step does one unit of the work. -/
theorem work_exec {as : List Act} {s s' : Disk} {a : Act} (h : run {} as = some s) (ha : prompt a = true) (he : s.exec a = some s') :
    work s' + 1 ≤ work s ∧ (s.dc.up = true → s'.dc.up = true) := by
  have hix := IxState.run_inv IxState.init_inv (run_parts h).1
  cases exec_eff he with
  | save => cases ha
  | updateIndex => cases ha
  | read => cases ha
  | crash => cases ha
  | open_ => cases ha
  | openRest => cases ha
  | size hp hb hx =>
    refine ⟨?_, id⟩
    have hs : s.ct.sendM = none := by
      unfold blocked at hb; simp only [Bool.or_eq_false_iff, Option.isSome_eq_false_iff, Option.isNone_iff_eq_none] at hb; exact hb.1.1
    simp only [CtState.exec] at hx; split at hx
    · cases hx; simp only [work, hp, hs, List.length_cons, Option.toList_some, Option.toList_none, List.length_nil]; omega
    · cases hx
  | touch hp hb hx =>
    refine ⟨?_, id⟩
    simp only [IxState.exec] at hx; split at hx
    · cases hx; simp only [work, hp, List.length_cons]; omega
    · cases hx
  | post hp hb hx =>
    refine ⟨?_, id⟩
    simp only [IxState.exec] at hx; split at hx
    · cases hx; simp only [work, hp, List.length_cons, List.length_append, List.length_nil]; omega
    · cases hx
  | term hp hb hx =>
    refine ⟨?_, id⟩
    have hs : s.ct.sendN = none := by
      unfold blocked at hb; simp only [Bool.or_eq_false_iff, Option.isSome_eq_false_iff, Option.isNone_iff_eq_none] at hb; exact hb.1.2
    simp only [CtState.exec] at hx; split at hx
    · cases hx; simp only [work, hp, hs, List.length_cons, Option.toList_some, Option.toList_none, List.length_nil]; omega
    · cases hx
  | @doc d f rest dc hp hb hx =>
    refine ⟨?_, fun _ => dc_save_up hx⟩
    have hs : s.dc.send = none := by
      unfold blocked at hb; simp only [Bool.or_eq_false_iff, Option.isSome_eq_false_iff, Option.isNone_iff_eq_none] at hb; exact hb.2
    simp only [DcState.exec] at hx; split at hx
    · unfold DcState.save at hx
      have e : dc.fl = s.dc.fl ∧ dc.send.toList.length = 1 := by
        split at hx <;> (obtain ⟨_, _, rfl⟩ := Option.map_eq_some_iff.1 hx; exact ⟨rfl, rfl⟩)
      simp only [work, hp, hs, e.1, e.2, List.length_cons, Option.toList_none, List.length_nil]; omega
    · cases hx
  | @ct b ct hb hu hx =>
    refine ⟨?_, id⟩
    cases b with
    | recvM =>
      simp only [CtState.exec] at hx; split at hx
      · cases hx
      · rename_i f hs
        obtain ⟨mx, h1, rfl⟩ := Option.map_eq_some_iff.1 hx
        obtain ⟨hp, rfl⟩ := Flusher.recv_some h1
        simp only [work, hs, Option.toList_some, Option.toList_none, List.length_cons, List.length_nil]; omega
    | recvN =>
      simp only [CtState.exec] at hx; split at hx
      · cases hx
      · rename_i f t hs
        obtain ⟨mx, h1, rfl⟩ := Option.map_eq_some_iff.1 hx
        obtain ⟨hp, rfl⟩ := Flusher.recv_some h1
        simp only [work, hs, Option.toList_some, Option.toList_none, List.length_cons, List.length_nil]; omega
    | stepM =>
      simp only [CtState.exec] at hx
      obtain ⟨mx, h1, rfl⟩ := Option.map_eq_some_iff.1 hx
      have := step_left h1
      simp only [work]; omega
    | stepN =>
      simp only [CtState.exec] at hx
      obtain ⟨mx, h1, rfl⟩ := Option.map_eq_some_iff.1 hx
      have := step_left h1
      simp only [work]; omega
    | _ => cases ha
  | @dc b dc hb hu hx =>
    refine ⟨?_, fun e => (dc_background hb hx).trans e⟩
    cases b with
    | recv =>
      simp only [DcState.exec] at hx; split at hx
      · cases hx
      · rename_i d r hs
        obtain ⟨mx, h1, rfl⟩ := Option.map_eq_some_iff.1 hx
        obtain ⟨hp, rfl⟩ := Flusher.recv_some h1
        simp only [work, hs, Option.toList_some, Option.toList_none, List.length_cons, List.length_nil]; omega
    | step =>
      simp only [DcState.exec] at hx
      obtain ⟨mx, h1, rfl⟩ := Option.map_eq_some_iff.1 hx
      have := step_left h1
      simp only [work]; omega
    | _ => cases ha
  | @ix b ix hb hu hx hp =>
    refine ⟨?_, id⟩
    cases b with
    | recv =>
      simp only [IxState.exec] at hx; split at hx
      · rename_i h1 h2 h3
        cases hx; simp only [work, h3, List.length_cons]; omega
      · cases hx
    | create n =>
      simp only [IxState.exec] at hx; split at hx
      · rename_i f p rest hw
        split at hx
        · split at hx
          · cases hx; exact absurd rfl hp
          · cases hx
            simp only [work, hw, writerLeft, IxState.setFiles, List.length_cons]; omega
        · cases hx
      · cases hx
    | write =>
      simp only [IxState.exec] at hx; split at hx
      · rename_i f p rest n hw
        split at hx
        · cases hx; exact absurd rfl hp
        · cases hx
          simp only [work, hw, writerLeft, IxState.setFiles, List.length_cons]; omega
      · cases hx
    | flushed =>
      simp only [IxState.exec] at hx; split at hx
      · rename_i hw
        cases hx; simp only [work, hw, writerLeft, List.length_nil]; omega
      · cases hx
    | _ => cases ha
  | @ixDown b ix hb hu hx hp =>
    -- a prompt step of the posting writer never panics
    exfalso
    cases b with
    | recv =>
      simp only [IxState.exec] at hx; split at hx
      · rename_i h1 h2 h3
        cases hx; rw [show IxState.proc _ = s.ix.proc from rfl, h1] at hp; cases hp
      · cases hx
    | create n =>
      simp only [IxState.exec] at hx; split at hx
      · rename_i f p rest hw
        obtain ⟨hpp, hsub, -, -⟩ := IxState.writerOk_flushing hix.writer hw
        obtain ⟨b, hb, -⟩ := (hix.sane.buf _ (hsub (f, p) (by simp))).readBack
        split at hx
        · rw [hb] at hx; cases hx
          have hp : s.ix.proc = .down := hp
          rw [hpp] at hp; cases hp
        · cases hx
      · cases hx
    | write =>
      simp only [IxState.exec] at hx; split at hx
      · rename_i f p rest n hw
        obtain ⟨hpp, hsub, -, -⟩ := IxState.writerOk_flushing hix.writer hw
        obtain ⟨b, hb, -⟩ := (hix.sane.buf _ (hsub (f, p) (by simp))).readBack
        rw [hb] at hx; cases hx
        have hp : s.ix.proc = .down := hp
        rw [hpp] at hp; cases hp
      · cases hx
    | flushed =>
      simp only [IxState.exec] at hx; split at hx
      · rename_i hw
        obtain ⟨hpp, -, -, -⟩ := IxState.writerOk_flushing hix.writer hw
        cases hx; rw [show IxState.proc _ = s.ix.proc from rfl, hpp] at hp; cases hp
      · cases hx
    | _ => cases ha

/-- there is always an unused name. -/
theorem fresh_name (m : GoMap String Content) : ∃ n, m.get? n = none := by
  have : ∀ l : List String, ∃ n : String, ∀ k ∈ l, k.length < n.length := by
    intro l
    induction l with
    | nil => exact ⟨"", by simp⟩
    | cons k l ih =>
      obtain ⟨n, hn⟩ := ih
      refine ⟨k ++ n ++ "a", ?_⟩
      intro j hj
      have e : (k ++ n ++ "a").length = k.length + n.length + 1 := by
        rw [String.length_append, String.length_append]; rfl
      rw [e]
      rcases List.mem_cons.1 hj with rfl | hj
      · omega
      · have := hn j hj; omega
  obtain ⟨n, hn⟩ := this m.keys
  refine ⟨n, ?_⟩
  cases h : m.get? n with
  | none => rfl
  | some c => exact absurd (hn n ((mem_keys_iff _ _).2 ⟨c, h⟩)) (Nat.lt_irrefl _)

end Disk

/-- **C77 (1).** However the store got here, while a call is in progress the client or a writer can make a step, without waiting for a
ticker, and the process does not end by it: there is no deadlock and no panic. -/
theorem c77_no_deadlock {as : List Act} {s : Disk} (h : run {} as = some s) (gv : GoValues (calls as)) (hn : ∀ n, Act.openRest n ∈ as → 1 ≤ n)
    (hu : s.dc.up = true) (hi : s.idle = false) : ∃ a s', prompt a = true ∧ s.exec a = some s' ∧ s'.dc.up = true := by
  obtain ⟨u1, u2, -⟩ := up_together h
  have hcu : s.ct.up = true := by rw [u1, hu]
  have hxu := u2 hu
  obtain ⟨r1, r2, r3⟩ := run_parts h
  have hix := IxState.run_inv IxState.init_inv r1
  have hct := CtState.run_cinv CtState.init_cinv r2
  obtain ⟨-, hsave, hstep⟩ := c76_documents_never_panic r3 (goFields_trace h gv) (fun n hm => hn n ((prov_run h).caps n hm)) hu
  suffices key : ∃ a s', prompt a = true ∧ s.exec a = some s' by
    obtain ⟨a, s', h1, h2⟩ := key
    exact ⟨a, s', h1, h2, (work_exec h h1 h2).2 hu⟩
  -- one of the two counter writers is in its select or can make a step
  have stepM : s.ct.mx.pc ≠ .idle → ∃ a s', prompt a = true ∧ s.exec a = some s' := by
    intro hp
    obtain ⟨mx, hmx⟩ := Flusher.step_enabled (ser := CtState.serM) hct.fm
      (fun k v _ => by obtain ⟨b, hb, _⟩ := CtState.serM_spec k v; exact ⟨b, hb⟩) hp
    exact ⟨.ct .stepM, _, rfl, by simp only [exec, ctBackground, hu, and_self, if_true, CtState.exec, hmx, Option.map_some]; rfl⟩
  have stepN : s.ct.nf.pc ≠ .idle → ∃ a s', prompt a = true ∧ s.exec a = some s' := by
    intro hp
    obtain ⟨nf, hnf⟩ := Flusher.step_enabled (ser := CtState.serN) hct.fn
      (fun k v hv => by obtain ⟨b, hb, _⟩ := CtState.serN_spec k v (hct.wn k v hv); exact ⟨b, hb⟩) hp
    exact ⟨.ct .stepN, _, rfl, by simp only [exec, ctBackground, hu, and_self, if_true, CtState.exec, hnf, Option.map_some]; rfl⟩
  have stepD : s.dc.fl.pc ≠ .idle → ∃ a s', prompt a = true ∧ s.exec a = some s' := by
    intro hp
    obtain ⟨dc, hdc⟩ := hstep hp
    exact ⟨.dc .step, _, rfl, by simp only [exec, dcBackground, hu, and_self, if_true, hdc, Option.map_some]; rfl⟩
  -- blocked sends
  by_cases hM : s.ct.sendM = none
  swap
  · by_cases hp : s.ct.mx.pc = .idle
    · obtain ⟨f, hf⟩ := Option.ne_none_iff_exists'.1 hM
      exact ⟨.ct .recvM, _, rfl, by simp only [exec, ctBackground, hu, and_self, if_true, CtState.exec, hf, Flusher.recv, hp, Option.map_some]; rfl⟩
    · exact stepM hp
  by_cases hN : s.ct.sendN = none
  swap
  · by_cases hp : s.ct.nf.pc = .idle
    · obtain ⟨⟨f, t⟩, hf⟩ := Option.ne_none_iff_exists'.1 hN
      exact ⟨.ct .recvN, _, rfl, by simp only [exec, ctBackground, hu, and_self, if_true, CtState.exec, hf, Flusher.recv, hp, Option.map_some]; rfl⟩
    · exact stepN hp
  by_cases hD : s.dc.send = none
  swap
  · by_cases hp : s.dc.fl.pc = .idle
    · obtain ⟨⟨d, r⟩, hf⟩ := Option.ne_none_iff_exists'.1 hD
      exact ⟨.dc .recv, _, rfl, by simp only [exec, dcBackground, hu, and_self, if_true, DcState.exec, hf, Flusher.recv, hp, Option.map_some]; rfl⟩
    · exact stepD hp
  have hb : s.blocked = false := by simp [blocked, hM, hN, hD]
  have hfree : s.ct.free = true := by simp [CtState.free, hcu, hM, hN]
  cases hp : s.prog with
  | nil => simp [idle, hu, hb, hp] at hi
  | cons m rest =>
    have client : ∀ t, s.micro m = some t → ∃ a s', prompt a = true ∧ s.exec a = some s' := by
      intro t ht
      exact ⟨.client, _, rfl, by simp only [exec, hp, hb, ht, Option.map_some]; rfl⟩
    cases m with
    | size f len => exact client _ (by simp only [micro, CtState.exec, hfree, if_true, Option.map_some]; rfl)
    | term f t => exact client _ (by simp only [micro, CtState.exec, hfree, if_true, Option.map_some]; rfl)
    | touch f => exact client _ (by simp only [micro, IxState.exec, hxu, if_true, Option.map_some]; rfl)
    | doc d f =>
      obtain ⟨dc, hdc⟩ := hsave hD d f
      exact client _ (by simp only [micro, hdc, Option.map_some]; rfl)
    | post f t d =>
      by_cases hcap : s.ix.chan.length < IxState.chanCap
      · exact client _ (by simp only [micro, IxState.exec, hxu, hcap, and_self, if_true, Option.map_some]; rfl)
      · -- the channel is full: the posting writer receives, or goes on with its flush
        have back : ∀ a ix, ixBackground a = true → prompt (.ix a) = true → s.ix.exec a = some ix → ∃ a s', prompt a = true ∧ s.exec a = some s' := by
          intro a ix h1 h2 h3
          exact ⟨.ix a, _, h2, by simp only [exec, h1, hu, true_or, and_self, if_true, h3, Option.map_some]; rfl⟩
        cases hw : s.ix.writer with
        | idle =>
          cases hc : s.ix.chan with
          | nil => rw [hc] at hcap; exact absurd (by decide) hcap
          | cons x xs =>
            obtain ⟨f, t, d⟩ := x
            exact back .recv _ rfl rfl (by simp only [IxState.exec, hxu, hw, hc]; rfl)
        | flushing todo tn =>
          obtain ⟨-, hsub, -, htn⟩ := IxState.writerOk_flushing hix.writer hw
          cases tn with
          | some n =>
            obtain ⟨f, p, r, e, -⟩ := htn n rfl
            subst e
            obtain ⟨b, hb, -⟩ := (hix.sane.buf _ (hsub (f, p) (by simp))).readBack
            exact back .write _ rfl rfl (by simp only [IxState.exec, hw, hb]; rfl)
          | none =>
            cases todo with
            | nil => exact back .flushed _ rfl rfl (by simp only [IxState.exec, hw]; rfl)
            | cons e r =>
              obtain ⟨f, p⟩ := e
              obtain ⟨b, hb, -⟩ := (hix.sane.buf _ (hsub (f, p) (by simp))).readBack
              obtain ⟨n, hnn⟩ := fresh_name (s.ix.files f).temp
              exact back (.create n) _ rfl rfl (by simp only [IxState.exec, hw, hnn, if_true, hb]; rfl)

/-- **C77 (2).** The number of such steps is bounded: whatever their order, after at most `work s` of them nothing is left to do until
a ticker fires. -/
theorem c77_bounded {as bs : List Act} {s s' : Disk} (h : run {} as = some s) (hb : ∀ b ∈ bs, prompt b = true) (hr : s.run bs = some s') :
    bs.length ≤ work s := by
  induction bs generalizing as s with
  | nil => exact Nat.zero_le _
  | cons b bs ih =>
    obtain ⟨t, h1, h2⟩ := run_cons.1 hr
    have h3 := (work_exec h (hb b (by simp)) h1).1
    have h4 := ih (as := as ++ [b]) (run_snoc.2 ⟨s, h, h1⟩) (fun x hx => hb x (by simp [hx])) h2
    simp only [List.length_cons]; omega

/-- **C77 (3).** So under every schedule the call in progress completes: a schedule of such steps that cannot be continued has reached
an idle store (and by (2) each has at most `work s` steps). -/
theorem c77_every_schedule {as bs : List Act} {s s' : Disk} (h : run {} as = some s) (gv : GoValues (calls as))
    (hn : ∀ n, Act.openRest n ∈ as → 1 ≤ n) (hu : s.dc.up = true) (hb : ∀ b ∈ bs, prompt b = true) (hr : s.run bs = some s')
    (hmax : ∀ a, prompt a = true → s'.exec a = none) : s'.idle = true := by
  have key : run {} (as ++ bs) = some s' ∧ calls (as ++ bs) = calls as ∧ (∀ n, Act.openRest n ∈ as ++ bs → 1 ≤ n) ∧ s'.dc.up = true := by
    clear hmax
    induction bs generalizing as s with
    | nil => cases hr; rw [List.append_nil]; exact ⟨h, rfl, hn, hu⟩
    | cons b bs ih =>
      obtain ⟨t, h1, h2⟩ := run_cons.1 hr
      have hpb := hb b (by simp)
      have hca : calls [b] = [] := by cases b <;> first | rfl | (cases hpb)
      have hc : calls (as ++ [b]) = calls as := by rw [calls_snoc, hca, List.append_nil]
      have := ih (as := as ++ [b]) (run_snoc.2 ⟨s, h, h1⟩) (by rw [hc]; exact gv)
        (fun n hm => by
          rcases List.mem_append.1 hm with hm | hm
          · exact hn n hm
          · have : b = .openRest n := (List.mem_singleton.1 hm).symm
            rw [this] at hpb; cases hpb) ((work_exec h hpb h1).2 hu) (fun x hx => hb x (by simp [hx])) h2
      rw [List.append_assoc, List.singleton_append, hc] at this
      exact this
  obtain ⟨k1, k2, k3, k4⟩ := key
  cases hi : s'.idle with
  | true => rfl
  | false =>
    obtain ⟨a, t, h1, h2, -⟩ := c77_no_deadlock k1 (by rw [k2]; exact gv) k3 k4 hi
    rw [hmax a h1] at h2; cases h2

/-- **C77 (4).** And from every state of a running process there is such a schedule. -/
theorem c77_call_completes {as : List Act} {s : Disk} (h : run {} as = some s) (gv : GoValues (calls as)) (hn : ∀ n, Act.openRest n ∈ as → 1 ≤ n)
    (hu : s.dc.up = true) : ∃ bs s', (∀ b ∈ bs, prompt b = true) ∧ s.run bs = some s' ∧ s'.idle = true := by
  have : ∀ k, ∀ (as : List Act) (s : Disk), work s ≤ k → run {} as = some s → GoValues (calls as) → (∀ n, Act.openRest n ∈ as → 1 ≤ n) →
      s.dc.up = true → ∃ bs s', (∀ b ∈ bs, prompt b = true) ∧ s.run bs = some s' ∧ s'.idle = true := by
    intro k
    induction k with
    | zero =>
      intro as s hk h gv hn hu
      cases hi : s.idle with
      | true => exact ⟨[], s, by simp, rfl, hi⟩
      | false =>
        obtain ⟨a, s', h1, h2, h3⟩ := c77_no_deadlock h gv hn hu hi
        have := (work_exec h h1 h2).1
        omega
    | succ k ih =>
      intro as s hk h gv hn hu
      cases hi : s.idle with
      | true => exact ⟨[], s, by simp, rfl, hi⟩
      | false =>
        obtain ⟨a, s', h1, h2, h3⟩ := c77_no_deadlock h gv hn hu hi
        have hw := (work_exec h h1 h2).1
        have hca : calls [a] = [] := by cases a <;> first | rfl | (cases h1)
        obtain ⟨bs, t, g1, g2, g3⟩ := ih (as ++ [a]) s' (by omega) (run_snoc.2 ⟨s, h, h2⟩) (by rw [calls_snoc, hca, List.append_nil]; exact gv)
          (fun n hm => by
            rcases List.mem_append.1 hm with hm | hm
            · exact hn n hm
            · have : a = .openRest n := (List.mem_singleton.1 hm).symm
              rw [this] at h1; cases h1) h3
        refine ⟨a :: bs, t, ?_, run_cons.2 ⟨s', h2, g2⟩, g3⟩
        intro b hb
        rcases List.mem_cons.1 hb with rfl | hb
        · exact h1
        · exact g1 b hb
  exact this _ as s (Nat.le_refl _) h gv hn hu

/-- a call in progress while a flush of metrics is going on: the client waits for the metrics writer. -/
def c77Run : List Act :=
  .open_ :: (runOpen 10 ++ runSave "1" ⟨"title", 3, [("house", 2)]⟩ ++ [.ct (.tickM ["title"]), .ct .stepM,
    .save "2" ⟨"title", 1, [("tree", 1)]⟩ ["tree"] ["tree"], .client])

example : ∃ s, run {} c77Run = some s ∧ s.dc.up = true ∧ s.idle = false ∧ s.blocked = true ∧ work s = 17 :=
  exists_of_run (by decide +kernel)

end Goir
