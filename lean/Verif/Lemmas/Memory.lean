import Verif.Spec.History
/-! # Helper lemmas about the Memory store -/
namespace Goir

open GoMap Spec

/-- membership test in a per-field posting map. -/
def hasPosting (ix : GoMap String GoSet) (t d : String) : Bool :=
  match ix.get? t with
  | some s => GoSet.contains s d
  | none => false

theorem get?_addPosting (d : String) (ix : GoMap String GoSet) (key t : String) :
    (Memory.addPosting d ix key).get? t =
      if key = t then some (GoSet.add ((ix.get? key).getD []) d) else ix.get? t := by
  unfold Memory.addPosting
  cases h : ix.get? key <;> simp [get?_set, GoSet.new]

theorem hasPosting_addPosting (d : String) (ix : GoMap String GoSet) (key t d' : String) :
    hasPosting (Memory.addPosting d ix key) t d' = (decide (key = t ∧ d = d') || hasPosting ix t d') := by
  unfold hasPosting
  rw [get?_addPosting]
  by_cases h : key = t
  · subst h
    cases hk : ix.get? key <;> simp
  · simp [h]

theorem hasPosting_foldl (d : String) (ks : List String) (ix : GoMap String GoSet) (t d' : String) :
    hasPosting (ks.foldl (Memory.addPosting d) ix) t d' = (decide (t ∈ ks ∧ d = d') || hasPosting ix t d') := by
  induction ks generalizing ix with
  | nil => simp
  | cons k ks ih =>
    simp only [List.foldl_cons, ih, hasPosting_addPosting, List.mem_cons]
    by_cases h1 : t ∈ ks <;> by_cases h2 : d = d' <;> by_cases h3 : k = t <;> simp [h1, h2, h3]
    · intro h; exact absurd h.symm h3
  
theorem foldl_addPosting_isSome (d : String) (ks : List String) (ix : GoMap String GoSet) (t : String) :
    ((ks.foldl (Memory.addPosting d) ix).get? t).isSome = (decide (t ∈ ks) || (ix.get? t).isSome) := by
  induction ks generalizing ix with
  | nil => simp
  | cons k ks ih =>
    simp only [List.foldl_cons, ih, get?_addPosting, List.mem_cons]
    by_cases h1 : t ∈ ks <;> by_cases h3 : k = t <;> simp [h1, h3]
    · intro h; exact absurd h.symm h3

/-- every stored flag is `true` (Add is the only writer). -/
def AllTrue (s : GoSet) : Prop := ∀ d b, GoMap.get? s d = some b → b = true

theorem AllTrue.add {s : GoSet} (h : AllTrue s) (d : String) : AllTrue (s.add d) := by
  intro d' b hb
  simp only [GoSet.add, get?_set] at hb
  split at hb
  · simpa using hb.symm
  · exact h _ _ hb

theorem allTrue_foldl (d : String) (ks : List String) (ix : GoMap String GoSet)
    (h : ∀ t s, ix.get? t = some s → AllTrue s) :
    ∀ t s, (ks.foldl (Memory.addPosting d) ix).get? t = some s → AllTrue s := by
  induction ks generalizing ix with
  | nil => exact h
  | cons k ks ih =>
    refine ih _ ?_
    intro t s hs
    rw [get?_addPosting] at hs
    split at hs
    · cases hs
      apply AllTrue.add
      cases hk : ix.get? k with
      | none => intro _ _ hb; simp at hb
      | some s' => exact h _ _ hk
    · exact h _ _ hs

theorem getD_foldl_bumpTerm (ks : List String) (nd : ks.Nodup) (m : GoMap String Int) (t : String) :
    (ks.foldl Memory.bumpTerm m).getD t 0 = m.getD t 0 + (if t ∈ ks then 1 else 0) := by
  induction ks generalizing m with
  | nil => simp
  | cons k ks ih =>
    simp only [List.nodup_cons] at nd
    simp only [List.foldl_cons, ih nd.2, Memory.bumpTerm, getD_set, List.mem_cons]
    by_cases h : k = t
    · subst h; simp [nd.1]
    · simp [h, Ne.symm h]

/-! ### one call -/
namespace Memory

/-- postings of field `name`. -/
theorem index_updateIndex (m : Memory) (d : String) (f : Field) (name : String) :
    (m.updateIndex d f).getIndex name =
      if f.name = name then f.tf.keys.foldl (addPosting d) (m.getIndex name) else m.getIndex name := by
  simp only [getIndex, updateIndex, get?_set]
  by_cases h : f.name = name <;> simp [h]

@[simp] theorem index_createFieldDocument (m : Memory) (d f) : (m.createFieldDocument d f).index = m.index := by
  unfold createFieldDocument; split <;> rfl
@[simp] theorem fieldSize_createFieldDocument (m : Memory) (d f) : (m.createFieldDocument d f).fieldSize = m.fieldSize := by
  unfold createFieldDocument; split <;> rfl
@[simp] theorem fieldLength_createFieldDocument (m : Memory) (d f) : (m.createFieldDocument d f).fieldLength = m.fieldLength := by
  unfold createFieldDocument; split <;> rfl
@[simp] theorem nft_createFieldDocument (m : Memory) (d f) : (m.createFieldDocument d f).numberFieldTerm = m.numberFieldTerm := by
  unfold createFieldDocument; split <;> rfl

theorem getIndex_apply (m : Memory) (op : StoreOp) (name : String) :
    (m.apply op).getIndex name =
      if op.field.name = name then op.field.tf.keys.foldl (addPosting op.doc) (m.getIndex name) else m.getIndex name := by
  cases op with
  | updateIndex d f => exact index_updateIndex m d f name
  | save d f =>
    have := index_updateIndex (m.createFieldDocument d f) d f name
    simp only [getIndex, index_createFieldDocument] at this
    exact this

theorem fieldSize_apply (m : Memory) (op : StoreOp) (name : String) :
    (m.apply op).getFieldSize name = m.getFieldSize name + (if op.field.name = name then 1 else 0) := by
  cases op <;> simp only [apply, saveOrUpdate, updateIndex, getFieldSize, getD_set, StoreOp.field,
    fieldSize_createFieldDocument] <;> split <;> simp_all

theorem fieldLength_apply (m : Memory) (op : StoreOp) (name : String) :
    (m.apply op).getFieldLength name =
      m.getFieldLength name + (if op.field.name = name then op.field.length else 0) := by
  cases op <;> simp only [apply, saveOrUpdate, updateIndex, getFieldLength, getD_set, StoreOp.field,
    fieldLength_createFieldDocument] <;> split <;> simp_all

/-- stored document frequency of a term. -/
def nft (m : Memory) (name t : String) : Int := ((m.numberFieldTerm.get? name).getD []).getD t 0

theorem nft_apply (m : Memory) (op : StoreOp) (wf : op.field.tf.WF) (name t : String) :
    (m.apply op).nft name t =
      m.nft name t + (if op.isSave = true ∧ op.field.name = name ∧ t ∈ op.field.tf.keys then 1 else 0) := by
  cases op with
  | updateIndex d f => simp [apply, updateIndex, nft, StoreOp.isSave]
  | save d f =>
    simp only [apply, saveOrUpdate, nft, StoreOp.field, StoreOp.isSave, updateIndex, get?_set,
      nft_createFieldDocument]
    by_cases h : f.name = name
    · subst h; simpa using getD_foldl_bumpTerm (GoMap.keys f.tf) wf _ t
    · simp [h]

/-- stored field of a document. -/
def storedField (m : Memory) (d name : String) : Option Field :=
  (m.fieldDocument.get? d).bind fun fd => fd.get? name

theorem storedField_createFieldDocument (m : Memory) (d : String) (f : Field) (d' name : String) :
    (m.createFieldDocument d f).storedField d' name =
      if d = d' ∧ f.name = name then some f else m.storedField d' name := by
  unfold createFieldDocument storedField
  cases h : m.fieldDocument.get? d with
  | none =>
    simp only [get?_set]
    by_cases hd : d = d'
    · subst hd; simp [h, get?_cons]
    · simp [hd]
  | some fd =>
    simp only [get?_set]
    by_cases hd : d = d'
    · subst hd; simp [h, get?_set]
    · simp [hd]

theorem storedField_apply (m : Memory) (op : StoreOp) (d name : String) :
    (m.apply op).storedField d name =
      if op.isSave = true ∧ op.doc = d ∧ op.field.name = name then some op.field else m.storedField d name := by
  cases op with
  | updateIndex d f => simp [apply, updateIndex, storedField, StoreOp.isSave]
  | save d' f =>
    have := storedField_createFieldDocument m d' f d name
    simpa [apply, saveOrUpdate, updateIndex, storedField, StoreOp.isSave, StoreOp.field, StoreOp.doc] using this

/-! ### histories -/

theorem run_append (h : List StoreOp) (op : StoreOp) : run (h ++ [op]) = (run h).apply op := by
  simp [run]

theorem hasPosting_foldl_apply (h : List StoreOp) (m : Memory) (name t d : String) :
    hasPosting ((h.foldl apply m).getIndex name) t d = true ↔
      hasPosting (m.getIndex name) t d = true ∨ Posted h name t d := by
  induction h generalizing m with
  | nil => simp [Posted]
  | cons op h ih =>
    simp only [List.foldl_cons, ih, getIndex_apply, Posted, List.mem_cons, exists_eq_or_imp]
    by_cases hn : op.field.name = name
    · simp only [if_pos hn, hasPosting_foldl]
      by_cases h1 : t ∈ GoMap.keys op.field.tf <;> by_cases h2 : op.doc = d <;> simp [h1, h2, hn]
    · simp [hn]

theorem isSome_foldl_apply (h : List StoreOp) (m : Memory) (name t : String) :
    (((h.foldl apply m).getIndex name).get? t).isSome = true ↔
      ((m.getIndex name).get? t).isSome = true ∨ ∃ d, Posted h name t d := by
  induction h generalizing m with
  | nil => simp [Posted]
  | cons op h ih =>
    simp only [List.foldl_cons, ih, getIndex_apply, Posted, List.mem_cons, exists_eq_or_imp]
    by_cases hn : op.field.name = name
    · simp only [if_pos hn, foldl_addPosting_isSome]
      by_cases h1 : t ∈ GoMap.keys op.field.tf <;> simp [h1, hn, exists_or]
    · simp [hn]

theorem allTrue_foldl_apply (h : List StoreOp) (m : Memory) (name : String)
    (hm : ∀ t s, (m.getIndex name).get? t = some s → AllTrue s) :
    ∀ t s, ((h.foldl apply m).getIndex name).get? t = some s → AllTrue s := by
  induction h generalizing m with
  | nil => exact hm
  | cons op h ih =>
    refine ih _ ?_
    rw [getIndex_apply]
    split
    · exact allTrue_foldl _ _ _ hm
    · exact hm

theorem getDocuments_eq (m : Memory) (name t : String) :
    m.getDocuments name t = match (m.getIndex name).get? t with | some s => (s, true) | none => ([], false) := by
  unfold getDocuments getIndex
  cases m.index.get? name <;> rfl

theorem getDocuments_contains (m : Memory) (name t d : String) :
    GoSet.contains (m.getDocuments name t).1 d = hasPosting (m.getIndex name) t d := by
  rw [getDocuments_eq]; unfold hasPosting; cases (m.getIndex name).get? t <;> simp

theorem getDocuments_ok (m : Memory) (name t : String) :
    (m.getDocuments name t).2 = ((m.getIndex name).get? t).isSome := by
  rw [getDocuments_eq]; cases (m.getIndex name).get? t <;> simp

theorem size_foldl_apply (h : List StoreOp) (m : Memory) (name : String) :
    (h.foldl apply m).getFieldSize name = m.getFieldSize name + callCount h name := by
  induction h generalizing m with
  | nil => simp [callCount]
  | cons op h ih =>
    simp only [List.foldl_cons, ih, fieldSize_apply, callCount, List.filter_cons]
    by_cases hn : op.field.name = name <;> simp [hn]; omega

theorem length_foldl_apply (h : List StoreOp) (m : Memory) (name : String) :
    (h.foldl apply m).getFieldLength name = m.getFieldLength name + lengthSum h name := by
  induction h generalizing m with
  | nil => simp [lengthSum]
  | cons op h ih =>
    simp only [List.foldl_cons, ih, fieldLength_apply, lengthSum, List.filter_cons]
    by_cases hn : op.field.name = name <;> simp [hn]; omega

theorem nft_foldl_apply (h : List StoreOp) (gv : GoValues h) (m : Memory) (name t : String) :
    (h.foldl apply m).nft name t = m.nft name t + termCount h name t := by
  induction h generalizing m with
  | nil => simp [termCount]
  | cons op h ih =>
    have gv' : GoValues h := fun o ho => gv o (List.mem_cons_of_mem _ ho)
    simp only [List.foldl_cons, ih gv', nft_apply _ _ (gv op List.mem_cons_self), termCount, List.filter_cons]
    by_cases hn : op.isSave = true ∧ op.field.name = name ∧ t ∈ GoMap.keys op.field.tf <;> simp [hn]; omega

theorem lastSaved_cons (op : StoreOp) (h : List StoreOp) (d name : String) :
    lastSaved (op :: h) d name = (lastSaved h d name).or
      (if op.isSave = true ∧ op.doc = d ∧ op.field.name = name then some op.field else none) := by
  unfold lastSaved
  simp only [List.reverse_cons, List.findSome?_append]
  congr 1
  by_cases hc : op.isSave = true ∧ op.doc = d ∧ op.field.name = name <;> simp [hc]

theorem storedField_foldl_apply (h : List StoreOp) (m : Memory) (d name : String) :
    (h.foldl apply m).storedField d name = (lastSaved h d name).or (m.storedField d name) := by
  induction h generalizing m with
  | nil => simp [lastSaved]
  | cons op h ih =>
    simp only [List.foldl_cons, ih, storedField_apply, lastSaved_cons]
    by_cases hc : op.isSave = true ∧ op.doc = d ∧ op.field.name = name
    · cases lastSaved h d name <;> simp [hc]
    · cases lastSaved h d name <;> simp [hc]

theorem get?_getFieldsStep (m : Memory) (name : String) (fs : GoMap String Field) (id d : String) :
    (m.getFieldsStep name fs id).get? d =
      if id = d then (m.storedField d name).or (fs.get? d) else fs.get? d := by
  unfold getFieldsStep storedField
  cases h : m.fieldDocument.get? id with
  | none =>
    by_cases hd : id = d
    · subst hd; simp [h]
    · simp [hd]
  | some fd =>
    cases h2 : fd.get? name with
    | none =>
      by_cases hd : id = d
      · subst hd; simp [h, h2]
      · simp [h2, hd]
    | some f =>
      by_cases hd : id = d
      · subst hd; simp [h, h2, get?_set]
      · simp [h2, hd, get?_set]

theorem get?_getFields_aux (m : Memory) (ids : List String) (name : String) (fs : GoMap String Field) (d : String) :
    (ids.foldl (m.getFieldsStep name) fs).get? d =
      if d ∈ ids then (m.storedField d name).or (fs.get? d) else fs.get? d := by
  induction ids generalizing fs with
  | nil => simp
  | cons id ids ih =>
    simp only [List.foldl_cons, ih, get?_getFieldsStep, List.mem_cons]
    by_cases h1 : d ∈ ids <;> by_cases h2 : id = d
    · cases m.storedField d name <;> simp [h1, h2]
    · simp [h1, h2, Ne.symm h2]
    · simp [h1, h2]
    · simp [h1, h2, Ne.symm h2]

theorem get?_getFields (m : Memory) (ids : List String) (name d : String) :
    (m.getFields ids name).get? d = if d ∈ ids then m.storedField d name else none := by
  simp [getFields, get?_getFields_aux]

theorem get?_getNumberFieldTerm_aux (m : Memory) (name : String) (terms : List String) (acc : GoMap String Int) (t : String) :
    (terms.foldl (fun temp term => temp.set term (((m.numberFieldTerm.get? name).getD []).getD term 0)) acc).get? t =
      if t ∈ terms then some (m.nft name t) else acc.get? t := by
  induction terms generalizing acc with
  | nil => simp
  | cons k ts ih =>
    simp only [List.foldl_cons, ih, get?_set, List.mem_cons]
    by_cases h1 : t ∈ ts <;> by_cases h2 : k = t
    · simp [h1]
    · simp [h1]
    · subst h2; simp [h1, nft]
    · simp [h1, h2, Ne.symm h2]

theorem get?_getNumberFieldTerm (m : Memory) (name : String) (terms : List String) (t : String) :
    (m.getNumberFieldTerm name terms).get? t = if t ∈ terms then some (m.nft name t) else none := by
  simp [getNumberFieldTerm, get?_getNumberFieldTerm_aux]

end Memory
end Goir
