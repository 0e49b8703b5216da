import Verif.Lemmas.DiskBytes
import Verif.Lemmas.ConcurrentDiskCounters
/-!
# The names that a store uses in paths come from the calls of its clients
-/
namespace Goir
open GoMap Spec

/-- the names in a call: the field, and the document if it is stored or asked for. (The terms are the keys of a Go map.) -/
def OpNames (D : String → Prop) : DOp → Prop
  | .write op => FieldName op.field.name ∧ (op.isSave = true → D op.doc) ∧ op.field.tf.WF
  | .getFields ids _ => ∀ i ∈ ids, D i

namespace CDisk

/-- what the index writer still has to write. -/
def pending : WriterPc → List (String × Postings)
  | .idle => []
  | .flushing rest _ => rest

/-- every name in the state comes from a call. -/
structure Names (D : String → Prop) (s : CDisk) : Prop where
  ops : ∀ op ∈ s.hist, OpNames D (.write op)
  todo : ∀ cl ∈ s.clients, ∀ o ∈ cl.todo, OpNames D o
  rd : ∀ cl ∈ s.clients, ∀ ids n l, cl.cur = some (.read ids n l) → ∀ i ∈ ids, D i
  mx : ∀ f v, s.mx.buf.get? f = some v → FieldName f
  nf : ∀ f v, s.nf.buf.get? f = some v → FieldName f
  fl : ∀ d v, s.fl.buf.get? d = some v → D d
  chan : ∀ x ∈ s.ix.chan, FieldName x.1
  ibuf : ∀ f v, s.ix.buf.get? f = some v → FieldName f
  wr : ∀ e ∈ pending s.ix.writer, FieldName e.1

theorem names_init (D : String → Prop) : Names D {} :=
  ⟨fun _ h => (by cases h), fun _ h => (by cases h), fun _ h => (by cases h), fun _ _ h => (by cases h), fun _ _ h => (by cases h), fun _ _ h => (by cases h), fun _ h => (by cases h), fun _ _ h => (by cases h), fun _ h => (by cases h)⟩

theorem names_ix {s s' : IxState} {a : IxState.Act} (hb : Disk.ixBackground a = true) (bw : s.buf.WF) (he : s.exec a = some s') (hc : ∀ x ∈ s.chan, FieldName x.1)
    (hf : ∀ f v, s.buf.get? f = some v → FieldName f) (hw : ∀ e ∈ pending s.writer, FieldName e.1) :
    (∀ x ∈ s'.chan, FieldName x.1) ∧ (∀ f v, s'.buf.get? f = some v → FieldName f) ∧ (∀ e ∈ pending s'.writer, FieldName e.1) := by
  have keep : ∀ t : IxState, t.chan = s.chan → t.buf = s.buf → t.writer = s.writer → (∀ x ∈ t.chan, FieldName x.1) ∧ (∀ f v, t.buf.get? f = some v → FieldName f) ∧ (∀ e ∈ pending t.writer, FieldName e.1) := by
    intro t e1 e2 e3; rw [e1, e2, e3]; exact ⟨hc, hf, hw⟩
  have dead : ∀ t : IxState, t.chan = [] → t.buf = [] → t.writer = .idle → (∀ x ∈ t.chan, FieldName x.1) ∧ (∀ f v, t.buf.get? f = some v → FieldName f) ∧ (∀ e ∈ pending t.writer, FieldName e.1) := by
    intro t e1 e2 e3; rw [e1, e2, e3]; exact ⟨fun _ h => (by cases h), fun _ _ h => (by cases h), fun _ h => (by cases h)⟩
  cases a with
  | recv =>
    simp only [IxState.exec] at he
    split at he
    · rename_i f t d rest _ _ hch
      cases he
      refine ⟨fun x hx => hc x (by rw [hch]; simp [hx]), fun g v hv => ?_, hw⟩
      simp only [IxState.bufAdd, GoMap.get?_set] at hv
      split at hv
      · rename_i e; subst e; exact hc (f, t, d) (by rw [hch]; simp)
      · exact hf g v hv
    · cases he
  | tick order =>
    simp only [IxState.exec] at he
    split at he
    · rename_i hg
      cases he
      refine ⟨hc, hf, fun e hm => ?_⟩
      exact hf e.1 e.2 (GoMap.get?_of_mem bw (hg.2.2.mem_iff.1 hm))
    · cases he
  | create name =>
    simp only [IxState.exec] at he
    split at he
    · rename_i hwr
      rw [hwr] at hw
      split at he
      · split at he
        · cases he; exact dead _ rfl rfl rfl
        · cases he; exact ⟨hc, hf, hw⟩
      · cases he
    · cases he
  | write =>
    simp only [IxState.exec] at he
    split at he
    · rename_i hwr
      rw [hwr] at hw
      split at he
      · cases he; exact dead _ rfl rfl rfl
      · cases he; exact ⟨hc, hf, fun e hm => hw e (by simp only [pending] at hm ⊢; simp [hm])⟩
    · cases he
  | flushed =>
    simp only [IxState.exec] at he
    split at he
    · cases he; exact ⟨hc, fun _ _ h => (by cases h), fun _ h => (by cases h)⟩
    · cases he
  | startMerge =>
    simp only [IxState.exec] at he
    split at he
    · cases he; exact keep _ rfl rfl rfl
    · cases he
  | merge =>
    simp only [IxState.exec] at he
    have le : ∀ t : IxState, t = s.loadError → (∀ x ∈ t.chan, FieldName x.1) ∧ (∀ f v, t.buf.get? f = some v → FieldName f) ∧ (∀ e ∈ pending t.writer, FieldName e.1) := by
      rintro t rfl
      unfold IxState.loadError
      split
      · exact dead _ rfl rfl rfl
      · exact keep _ rfl rfl rfl
    unfold IxState.mergeStep at he
    split at he
    · cases he
    · cases he
    · split at he
      · cases he; exact keep _ rfl rfl rfl
      · cases he; exact keep _ rfl rfl rfl
    · simp only at he
      split at he
      · cases he; exact keep _ rfl rfl rfl
      · cases he; exact dead _ rfl rfl rfl
      · split at he
        · cases he; exact dead _ rfl rfl rfl
        · cases he; exact keep _ rfl rfl rfl
    · split at he
      · cases he; exact le _ rfl
      · cases he; exact dead _ rfl rfl rfl
      · split at he
        · cases he; exact dead _ rfl rfl rfl
        · cases he; exact keep _ rfl rfl rfl
    · split at he
      · cases he; exact dead _ rfl rfl rfl
      · cases he; exact keep _ rfl rfl rfl
    · cases he; exact keep _ rfl rfl rfl
    · cases he; exact keep _ rfl rfl rfl
    · cases he; exact keep _ rfl rfl rfl
    · split at he
      · cases he; exact le _ rfl
      · cases he; exact keep _ rfl rfl rfl
  | mkdir f =>
    simp only [IxState.exec] at he
    split at he
    · cases he; exact keep _ rfl rfl rfl
    · cases he
  | touch f => cases hb
  | post f t d => cases hb
  | crash => cases hb
  | open_ => cases hb

theorem names_stop {D : String → Prop} {s : CDisk} (h : Names D s) {ix : IxState} (h1 : ∀ x ∈ ix.chan, FieldName x.1) (h2 : ∀ f v, ix.buf.get? f = some v → FieldName f) (h3 : ∀ e ∈ pending ix.writer, FieldName e.1) :
    Names D (s.stop ix) :=
  ⟨fun op ho => h.ops op (by simpa [hist, stop] using ho), fun _ h => (by cases h), fun _ h => (by cases h), fun _ _ h => (by cases h), fun _ _ h => (by cases h), fun _ _ h => (by cases h), h1, h2, h3⟩

theorem names_clients {D : String → Prop} {s : CDisk} (h : Names D s) {i : Nat} {cl cl' : DClient} (hi : s.clients[i]? = some cl) (ht : ∀ o ∈ cl'.todo, o ∈ cl.todo)
    (hc : ∀ ids n l, cl'.cur = some (.read ids n l) → ∀ x ∈ ids, D x) :
    (∀ c ∈ s.clients.set i cl', ∀ o ∈ c.todo, OpNames D o) ∧ (∀ c ∈ s.clients.set i cl', ∀ ids n l, c.cur = some (.read ids n l) → ∀ x ∈ ids, D x) := by
  have hm : cl ∈ s.clients := List.mem_of_getElem? hi
  constructor
  · intro c hcm o ho
    rcases List.mem_or_eq_of_mem_set hcm with h' | rfl
    · exact h.todo c h' o ho
    · exact h.todo cl hm o (ht o ho)
  · intro c hcm
    rcases List.mem_or_eq_of_mem_set hcm with h' | rfl
    · exact h.rd c h'
    · exact hc

theorem names_step {D : String → Prop} {s s' : CDisk} {a : Act} (hk : Ok s) (h : Names D s) (hs : Step s a s')
    (ho : ∀ n progs, a = .openRest n progs → ∀ p ∈ progs, ∀ o ∈ p, OpNames D o) : Names D s' := by
  have cw : ∀ (s1 : CDisk) {i : Nat} {cl cl' : DClient}, s.clients[i]? = some cl → s1.clients = s.clients.set i cl' → (∀ o ∈ cl'.todo, o ∈ cl.todo) → (∀ ids n l, cl'.cur = some (.read ids n l) → ∀ x ∈ ids, D x) →
      s1.hist = s.hist → s1.mx.buf = s.mx.buf → s1.nf.buf = s.nf.buf → s1.fl.buf = s.fl.buf → s1.ix.chan = s.ix.chan → s1.ix.buf = s.ix.buf → s1.ix.writer = s.ix.writer → Names D s1 := by
    intro s1 i cl cl' hi e1 ht hc e2 e3 e4 e5 e6 e7 e8
    obtain ⟨a1, a2⟩ := names_clients h hi ht hc
    exact ⟨by rw [e2]; exact h.ops, by rw [e1]; exact a1, by rw [e1]; exact a2, by rw [e3]; exact h.mx, by rw [e4]; exact h.nf, by rw [e5]; exact h.fl, by rw [e6]; exact h.chan, by rw [e7]; exact h.ibuf, by rw [e8]; exact h.wr⟩
  have nr : ∀ {op : StoreOp} {loc : WLoc}, ∀ ids n l, some (DCur.write op loc) = some (.read ids n l) → ∀ x ∈ ids, D x := fun _ _ _ e => by cases e
  have nn : ∀ ids n l, (none : Option DCur) = some (.read ids n l) → ∀ x ∈ ids, D x := fun _ _ _ e => by cases e
  have rr : ∀ {i : Nat} {cl : DClient} {ids : List String} {n : String} {l l' : RLoc}, s.clients[i]? = some cl → cl.cur = some (.read ids n l) →
      ∀ ids' n' m, some (DCur.read ids n l') = some (.read ids' n' m) → ∀ x ∈ ids', D x := by
    intro i cl ids n l l' hi hc ids' n' m e
    cases e
    exact h.rd cl (List.mem_of_getElem? hi) _ _ _ hc
  cases hs with
  | @beginWrite i k cl op rest hu hi hc ht =>
    have hop : OpNames D (.write op) := h.todo cl (List.mem_of_getElem? hi) _ (by rw [ht]; simp)
    obtain ⟨a1, a2⟩ := names_clients h (cl' := { todo := rest, cur := some (.write op (start op)) }) hi (fun o ho => by rw [ht]; simp [ho]) nr
    refine ⟨fun o ho => ?_, a1, a2, h.mx, h.nf, h.fl, h.chan, h.ibuf, h.wr⟩
    simp only [hist, List.mem_append, List.mem_singleton] at ho
    rcases ho with h' | h' | rfl
    · exact h.ops o (by simp [hist, h'])
    · exact h.ops o (by simp [hist, h'])
    · exact hop
  | @beginRead i k cl ids name rest hu hi hc ht =>
    refine cw _ (cl' := { todo := rest, cur := some (.read ids name (.get ids [])) }) hi rfl (fun o ho => by rw [ht]; simp [ho]) ?_ rfl rfl rfl rfl rfl rfl rfl
    intro ids' n' m e
    cases e
    exact h.todo cl (List.mem_of_getElem? hi) (.getFields ids name) (by rw [ht]; simp)
  | acc hu hi hc he hn => exact cw _ hi rfl (fun _ h => h) nr rfl rfl rfl rfl rfl rfl rfl
  | accReturn hu hi hc he hn => exact cw _ hi rfl (fun _ h => h) nn rfl rfl rfl rfl rfl rfl rfl
  | msgLen hu hi hc => exact cw _ hi rfl (fun _ h => h) nr rfl rfl rfl rfl rfl rfl rfl
  | msgSize hu hi hc => exact cw _ hi rfl (fun _ h => h) nr rfl rfl rfl rfl rfl rfl rfl
  | @sendI i k cl op r key ts ix hu hi hc he =>
    have hop := h.ops op (by
      have := hk.cur cl (List.mem_of_getElem? hi) _ hc
      simp [hist, this.1])
    obtain ⟨a1, a2⟩ := names_clients h (cl' := { cl with cur := some (.write op (.acc (.post r ts))) }) hi (fun o ho => ho) nr
    simp only [IxState.exec] at he
    split at he
    · cases he
      refine ⟨h.ops, a1, a2, h.mx, h.nf, h.fl, fun x hx => ?_, h.ibuf, h.wr⟩
      rcases List.mem_append.1 hx with h' | h'
      · exact h.chan x h'
      · simp at h'; subst h'; exact hop.1
    · cases he
  | msgN hu hi hc => exact cw _ hi rfl (fun _ h => h) nr rfl rfl rfl rfl rfl rfl rfl
  | docHit hu hi hc hr => exact cw _ hi rfl (fun _ h => h) nr rfl rfl rfl rfl rfl rfl rfl
  | docMiss hu hi hc hr => exact cw _ hi rfl (fun _ h => h) nr rfl rfl rfl rfl rfl rfl rfl
  | docSet hu hi hc => exact cw _ hi rfl (fun _ h => h) nr rfl rfl rfl rfl rfl rfl rfl
  | docPut hu hi hc he => exact cw _ hi rfl (fun _ h => h) nr rfl rfl rfl rfl rfl rfl rfl
  | readEnd hu hi hc => exact cw _ hi rfl (fun _ h => h) nn rfl rfl rfl rfl rfl rfl rfl
  | readHit hu hi hc hr => exact cw _ hi rfl (fun _ h => h) (rr hi hc) rfl rfl rfl rfl rfl rfl rfl
  | readMiss hu hi hc hr => exact cw _ hi rfl (fun _ h => h) (rr hi hc) rfl rfl rfl rfl rfl rfl rfl
  | readField hu hi hc => exact cw _ hi rfl (fun _ h => h) (rr hi hc) rfl rfl rfl rfl rfl rfl rfl
  | readAbsent hu hi hc hl => exact cw _ hi rfl (fun _ h => h) (rr hi hc) rfl rfl rfl rfl rfl rfl rfl
  | readLoad hu hi hc hl hb => exact cw _ hi rfl (fun _ h => h) (rr hi hc) rfl rfl rfl rfl rfl rfl rfl
  | readPut hu hi hc he => exact cw _ hi rfl (fun _ h => h) (rr hi hc) rfl rfl rfl rfl rfl rfl rfl
  | @recvM i cl op size len mx hi hc he =>
    have hop := h.ops op (by
      have := hk.cur cl (List.mem_of_getElem? hi) _ hc
      simp [hist, this.1])
    obtain ⟨a1, a2⟩ := names_clients h (cl' := { cl with cur := some (.write op (.acc .idxLook)) }) hi (fun o ho => ho) nr
    refine ⟨h.ops, a1, a2, ?_, h.nf, h.fl, h.chan, h.ibuf, h.wr⟩
    intro f v hv
    have e := (Flusher.recv_some he).2
    simp only [e, GoMap.get?_set] at hv
    split at hv
    · rename_i e; exact e ▸ hop.1
    · exact h.mx f v hv
  | @recvN i cl op r key n ts nf hi hc he =>
    have hop := h.ops op (by
      have := hk.cur cl (List.mem_of_getElem? hi) _ hc
      simp [hist, this.1])
    obtain ⟨a1, a2⟩ := names_clients h (cl' := { cl with cur := some (.write op (.acc (.term r ts))) }) hi (fun o ho => ho) nr
    refine ⟨h.ops, a1, a2, h.mx, ?_, h.fl, h.chan, h.ibuf, h.wr⟩
    intro f v hv
    have e := (Flusher.recv_some he).2
    simp only [e, GoMap.get?_set] at hv
    split at hv
    · rename_i e; exact e ▸ hop.1
    · exact h.nf f v hv
  | @recvD i cl op r fl hi hc he =>
    have hcur := hk.cur cl (List.mem_of_getElem? hi) _ hc
    have hop := h.ops op (by simp [hist, hcur.1])
    obtain ⟨a1, a2⟩ := names_clients h (cl' := { cl with cur := none }) hi (fun o ho => ho) nn
    refine ⟨h.ops, a1, a2, h.mx, h.nf, ?_, h.chan, h.ibuf, h.wr⟩
    intro f v hv
    have e := (Flusher.recv_some he).2
    simp only [e, GoMap.get?_set] at hv
    split at hv
    · rename_i e; exact e ▸ hop.2.1 hcur.2.1
    · exact h.fl f v hv
  | ix hb hu he hp =>
    obtain ⟨a1, a2, a3⟩ := names_ix hb hk.ix.sane.bufw he h.chan h.ibuf h.wr
    exact ⟨h.ops, h.todo, h.rd, h.mx, h.nf, h.fl, a1, a2, a3⟩
  | ixDown hb hu he hp =>
    obtain ⟨a1, a2, a3⟩ := names_ix hb hk.ix.sane.bufw he h.chan h.ibuf h.wr
    exact names_stop h a1 a2 a3
  | tickM hu he =>
    have e := (Flusher.tick_some he).2.2
    exact ⟨h.ops, h.todo, h.rd, by rw [e]; exact h.mx, h.nf, h.fl, h.chan, h.ibuf, h.wr⟩
  | tickN hu he =>
    have e := (Flusher.tick_some he).2.2
    exact ⟨h.ops, h.todo, h.rd, h.mx, by rw [e]; exact h.nf, h.fl, h.chan, h.ibuf, h.wr⟩
  | tickD hu he =>
    have e := (Flusher.tick_some he).2.2
    exact ⟨h.ops, h.todo, h.rd, h.mx, h.nf, by rw [e]; exact h.fl, h.chan, h.ibuf, h.wr⟩
  | stepM he => exact ⟨h.ops, h.todo, h.rd, fun f v hv => h.mx f v (step_buf he f v hv), h.nf, h.fl, h.chan, h.ibuf, h.wr⟩
  | stepN he => exact ⟨h.ops, h.todo, h.rd, h.mx, fun f v hv => h.nf f v (step_buf he f v hv), h.fl, h.chan, h.ibuf, h.wr⟩
  | stepD he => exact ⟨h.ops, h.todo, h.rd, h.mx, h.nf, fun f v hv => h.fl f v (step_buf he f v hv), h.chan, h.ibuf, h.wr⟩
  | crash he =>
    simp only [IxState.exec] at he
    split at he
    · cases he
    · cases he
      exact names_stop h (fun _ h => (by cases h)) (fun _ _ h => (by cases h)) (fun _ h => (by cases h))
  | open_ he =>
    simp only [IxState.exec] at he
    split at he
    · cases he
      exact ⟨h.ops, h.todo, h.rd, h.mx, h.nf, h.fl, h.chan, h.ibuf, h.wr⟩
    · cases he
  | @openRest n progs size length nft hp hu hm hn =>
    have e0 : s.begun = [] := (hk.off hu).begun
    refine ⟨h.ops, fun cl hcl o ho' => ?_, fun cl hcl ids n l hc => ?_, h.mx, h.nf, h.fl, h.chan, h.ibuf, h.wr⟩
    · obtain ⟨p, hp, rfl⟩ := List.mem_map.1 hcl
      exact ho n progs rfl p hp o ho'
    · obtain ⟨p, hp, rfl⟩ := List.mem_map.1 hcl
      cases hc

end CDisk
end Goir
