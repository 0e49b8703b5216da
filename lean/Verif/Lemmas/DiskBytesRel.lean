import Verif.Lemmas.DiskBytesFlush
import Verif.Props.FlatBytes
/-!
# The store with bytes and the store with objects: when they agree
-/
namespace Goir
open GoMap

/-! ### what is written and what is read -/

theorem fits_toInt32 (x : Int) : FitsInt32 (toInt32 x) := FBB.toInt32_range x

theorem agM (f : String) (v : Int × Int) : ∃ b, CtState.serM f v = some b ∧ ∀ raw, FBB.serializeFieldSizeLength f (toInt32 v.1) (toInt32 v.2) = some raw → (Slot.mx f).ag b raw := by
  obtain ⟨b, h1, h2⟩ := CtState.serM_spec f v
  refine ⟨b, h1, fun raw hr => ?_⟩
  show FBB.deserializeFieldSizeLength raw = deserializeFieldSizeLength b
  rw [FBB.c111_metrics_bytes f _ _ (fits_toInt32 _) (fits_toInt32 _) hr, h2]

theorem agN (f : String) (m : GoMap String Int) (wf : m.WF) : ∃ b, CtState.serN f m = some b ∧ ∀ raw, FBB.serializeNumberFieldTerm m = some raw → (Slot.nf f).ag b raw := by
  obtain ⟨b, h1, h2⟩ := CtState.serN_spec f m wf
  refine ⟨b, h1, fun raw hr => ?_⟩
  show FBB.deserializeNumberFieldTerm raw = deserializeNumberFieldTerm b
  rw [FBB.c111_counts_bytes m wf hr, h2]

theorem agD (d : String) (m : GoMap String Field) (wf : m.WF) (wfi : ∀ k f, m.get? k = some f → f.tf.WF) :
    ∃ b, serializeFieldMap m = some b ∧ ∀ raw, FBB.serializeFieldMap m = some raw → (Slot.doc d).ag b raw := by
  obtain ⟨b, h1, h2⟩ := DcState.ser_spec wf wfi
  refine ⟨b, h1, fun raw hr => ?_⟩
  show FBB.deserializeFieldMap raw = deserializeFieldMap b
  rw [FBB.c111_fields_bytes m wf (fun p hp => wfi p.1 p.2 (get?_of_mem wf hp)) hr, h2]
  rfl

theorem agI (f : String) (p : Postings) (h : Good p) : ∃ b, serializeIndex p = some b ∧ ∀ raw, FBB.serializeIndex p = some raw → (Slot.ix f).ag b raw := by
  obtain ⟨b, h1, h2⟩ := h.readBack
  refine ⟨b, h1, fun raw hr => ?_⟩
  show FBB.deserializeIndex raw = deserializeIndex b
  rw [FBB.c111_index_bytes p h.1 (fun e he => (h.2 e he).1.1) hr]
  have := c45_index_roundtrip_keys p h.1 (fun e he => (h.2 e he).1.1)
  rw [h1] at this
  exact this.symm

/-! ### the maps in memory -/

/-- the maps agree; those that were loaded directory by directory need not list their keys in the same order. -/
structure MemEq (m m' : CMem) : Prop where
  fieldDocument : m'.fieldDocument = m.fieldDocument
  docCells : m'.docCells = m.docCells
  fieldSize : ∀ k, m'.fieldSize.get? k = m.fieldSize.get? k
  fieldLength : ∀ k, m'.fieldLength.get? k = m.fieldLength.get? k
  index : m'.index = m.index
  idxCells : m'.idxCells = m.idxCells
  setCells : m'.setCells = m.setCells
  numberFieldTerm : ∀ k, m'.numberFieldTerm.get? k = m.numberFieldTerm.get? k
  nftCells : m'.nftCells = m.nftCells
  next : m'.next = m.next

theorem MemEq.refl (m : CMem) : MemEq m m := ⟨rfl, rfl, fun _ => rfl, fun _ => rfl, rfl, rfl, rfl, fun _ => rfl, rfl, rfl⟩

theorem MemEq.exec {m m' m1 : CMem} (h : MemEq m m') {op : StoreOp} {k : Nat} {l : CMem.Loc} {o : Option CMem.Loc} (he : CMem.exec m op k l = some (m1, o)) :
    ∃ m1', CMem.exec m' op k l = some (m1', o) ∧ MemEq m1 m1' := by
  obtain ⟨m1', m2', m3', m4', m5', m6', m7', m8', m9', m10'⟩ := m'
  obtain ⟨h1, h2, h3, h4, h5, h6, h7, h8, h9, h10⟩ := h
  simp only at h1 h2 h3 h4 h5 h6 h7 h8 h9 h10
  subst h1 h2 h5 h6 h7 h9 h10
  have e3 : ∀ f, GoMap.getD m3' f 0 = m.fieldSize.getD f 0 := fun f => by simp [GoMap.getD, h3 f]
  have e4 : ∀ f, GoMap.getD m4' f 0 = m.fieldLength.getD f 0 := fun f => by simp [GoMap.getD, h4 f]
  have mk : ∀ {x : CMem} {a b c}, (∀ k, GoMap.get? a k = x.fieldSize.get? k) → (∀ k, GoMap.get? b k = x.fieldLength.get? k) → (∀ k, GoMap.get? c k = x.numberFieldTerm.get? k) →
      MemEq x { x with fieldSize := a, fieldLength := b, numberFieldTerm := c } := fun a b c => ⟨rfl, rfl, a, b, rfl, rfl, rfl, c, rfl, rfl⟩
  cases l with
  | docLook =>
    simp only [CMem.exec] at he ⊢
    split at he <;> (cases he; exact ⟨_, rfl, mk h3 h4 h8⟩)
  | docSet r => cases he; exact ⟨_, rfl, mk h3 h4 h8⟩
  | docNew => cases he; exact ⟨_, rfl, mk h3 h4 h8⟩
  | sizeRead =>
    cases he
    refine ⟨_, ?_, mk h3 h4 h8⟩
    simp only [CMem.exec, e3]
  | sizeWrite n =>
    cases he
    refine ⟨_, rfl, mk (fun k => ?_) h4 h8⟩
    simp only [get?_set, h3]
  | lenRead =>
    cases he
    refine ⟨_, ?_, mk h3 h4 h8⟩
    simp only [CMem.exec, e4]
  | lenWrite n =>
    cases he
    refine ⟨_, rfl, mk h3 (fun k => ?_) h8⟩
    simp only [get?_set, h4]
  | idxLook =>
    simp only [CMem.exec] at he ⊢
    split at he <;> (cases he; exact ⟨_, rfl, mk h3 h4 h8⟩)
  | idxNew => cases he; exact ⟨_, rfl, mk h3 h4 h8⟩
  | post r ts =>
    cases ts with
    | nil => cases he; exact ⟨_, rfl, mk h3 h4 h8⟩
    | cons t ts =>
      simp only [CMem.exec] at he ⊢
      split at he
      · cases he
      · rename_i e
        split at he <;> (cases he; exact ⟨_, rfl, mk h3 h4 h8⟩)
  | postNew r key ts => cases he; exact ⟨_, rfl, mk h3 h4 h8⟩
  | postAdd r key set ts => cases he; exact ⟨_, rfl, mk h3 h4 h8⟩
  | nftLook =>
    simp only [CMem.exec, h8] at he ⊢
    split at he <;> (cases he; exact ⟨_, rfl, mk h3 h4 h8⟩)
  | term r ts =>
    cases ts with
    | nil => cases he; exact ⟨_, rfl, mk h3 h4 h8⟩
    | cons t ts =>
      simp only [CMem.exec] at he ⊢
      split at he
      · cases he
      · rename_i e
        cases he; exact ⟨_, rfl, mk h3 h4 h8⟩
  | termWrite r key n ts => cases he; exact ⟨_, rfl, mk h3 h4 h8⟩
  | nftStore r =>
    cases he
    refine ⟨_, rfl, mk h3 h4 (fun k => ?_)⟩
    simp only [get?_set, h8]

/-! ### the whole state -/

/-- the targets of SecureSaveFile. -/
def slots (a : CDisk) : Slot → SFile
  | .mx f => a.mx.file f
  | .nf f => a.nf.file f
  | .ix f => (a.ix.files f).index
  | .doc d => a.fl.file d

/-- the fragments. -/
def temps (a : CDisk) (f : String) : GoMap String Content := (a.ix.files f).temp

/-- the index writer, with `frag` bytes and with objects. The model with objects is done as soon as the last byte is written. -/
def WrRel (w : WriterPc) (frag : Option (Bytes × Nat)) (aw : WriterPc) : Prop :=
  match frag with
  | none => aw = w
  | some (bs, n) => ∃ f p rest name raw b, w = .flushing ((f, p) :: rest) (some name) ∧ Spec.Gz.Written raw bs ∧ (Slot.ix f).ag b raw ∧ serializeIndex p = some b ∧ n ≤ bs.length ∧
      aw = if n < bs.length then w else .flushing rest none

/-- the merge, inside SecureSaveFile or not. -/
def MgRel (root : Path) (fs : FS) (m : MergePc) (sv : Option (SaveCall × SavePc)) (am : MergePc) : Prop :=
  match sv with
  | none => am = m
  | some (c, pc) => ∃ f rest seen td acc b apc, m = .reading f rest seen [] td acc ∧ am = .saving f rest seen td (acc.set f td) b apc ∧ FieldName f ∧
      c.path = (Slot.ix f).dir root ∧ c.name = (Slot.ix f).name ∧ SaveRel (Slot.ix f).ag fs c pc b apc

/-- the store with bytes `s` and the store with objects `a` agree. -/
structure BRel (root : Path) (D : String → Prop) (s : BDisk) (a : CDisk) : Prop where
  up : a.up = s.d.up
  mem : MemEq s.d.mem a.mem
  cache : a.cache = s.d.cache
  clients : a.clients = s.d.clients
  earlier : a.earlier = s.d.earlier
  begun : a.begun = s.d.begun
  returned : a.returned = s.d.returned
  answers : a.answers = s.d.answers
  iproc : a.ix.proc = s.d.ix.proc
  imem : a.ix.mem = s.d.ix.mem
  ichan : a.ix.chan = s.d.ix.chan
  ibuf : a.ix.buf = s.d.ix.buf
  ihist : a.ix.hist = s.d.ix.hist
  files : FRel root D s.fs (slots a) (temps a) a.ix.dirs.keys
  uuids : ∀ f n c, (temps a f).get? n = some c → PlainName n
  mx : FlRel root D .mx s.fs s.d.mx s.saveM a.mx
  nf : FlRel root D .nf s.fs s.d.nf s.saveN a.nf
  fl : FlRel root D .doc s.fs s.d.fl s.saveD a.fl
  writer : WrRel s.d.ix.writer s.frag a.ix.writer
  merger : MgRel root s.fs s.d.ix.merger s.saveI a.ix.merger
  inDirs : ∀ f ∈ IxState.remaining a.ix.merger, f ∈ a.ix.dirs.keys

theorem MgRel.keep {root : Path} {D : String → Prop} {P : Slot → Prop} {fs fs' : FS} {m am : MergePc} {sv : Option (SaveCall × SavePc)} (h : MgRel root fs m sv am)
    (hk : Keeps root D P fs fs') (hp : ∀ f, ¬ P (.ix f)) : MgRel root fs' m sv am := by
  cases sv with
  | none => exact h
  | some x =>
    obtain ⟨c, pc⟩ := x
    obtain ⟨f, rest, seen, td, acc, b, apc, h1, h2, h3, h4, h5, h6⟩ := h
    exact ⟨f, rest, seen, td, acc, b, apc, h1, h2, h3, h4, h5, hk.save (τ := .ix f) h3 (hp f) h4 h5 h6⟩

/-- what is known of every reachable state of the store with objects. -/
structure AInv (D : String → Prop) (a : CDisk) : Prop where
  ok : CDisk.Ok a
  flush : CDisk.FlushOk a
  docs : CDisk.DocsOk a
  names : CDisk.Names D a

theorem AInv.step {D : String → Prop} {a a' : CDisk} {act : CDisk.Act} (h : AInv D a) (he : a.exec act = some a')
    (ho : ∀ n progs, act = .openRest n progs → ∀ p ∈ progs, ∀ o ∈ p, OpNames D o) : AInv D a' := by
  have hs := CDisk.exec_step he
  have hn := CDisk.names_step h.ok h.names hs ho
  exact ⟨CDisk.ok_step h.ok hs, CDisk.flushOk_step h.flush hs, CDisk.docsOk_step h.ok h.docs hs (fun op hop => (hn.ops op hop).2.2), hn⟩

theorem AInv.init (D : String → Prop) : AInv D {} := ⟨CDisk.ok_init, CDisk.flushOk_init, CDisk.docsOk_init, CDisk.names_init D⟩

end Goir
