import Verif.Lemmas.Serialize
/-!
# C45, C34: serialization

A Go map has no order; the list `m` is its contents in the order the serializer's `range` loop happens to visit them, so "for
every list" is "for every map and every iteration order".  The results below are equal as lists: the deserialized map has
the same keys with the same values, and the deserializer inserted them in the order they were written.
-/
namespace Goir
open FB

/-- the values an `int32` can hold. -/
def FitsInt32 (x : Int) : Prop := -2147483648 ≤ x ∧ x ≤ 2147483647

instance (x : Int) : Decidable (FitsInt32 x) := inferInstanceAs (Decidable (_ ∧ _))

/-- C45: the nesting rule of the library: a string, a table or a vector cannot be started while a table or a vector is being built (the
library panics). -/
theorem c45_no_nesting (b : Builder) (hb : b.cur ≠ .idle) (s : String) (n : Nat) :
    createString s b = none ∧ startObject n b = none ∧ startVector n b = none := by
  obtain ⟨objs, cur⟩ := b
  cases cur with
  | idle => exact absurd rfl hb
  | vec els => exact ⟨rfl, rfl, rfl⟩
  | tab sl => exact ⟨rfl, rfl, rfl⟩

example : (do startVector 1; createString "x" : M Nat) {} = none := by decide

/-- **C45**, field metrics. -/
theorem c45_sizeLength_roundtrip (name : String) (size length : Int) :
    (serializeFieldSizeLength name size length).bind deserializeFieldSizeLength = some (name, size, length) := by
  by_cases h1 : size = 0 <;> by_cases h2 : length = 0 <;>
    simp [serializeFieldSizeLength, finish, bind, StateT.bind, createString, startObject, offsetSlot, int32Slot,
      endObject, deserializeFieldSizeLength, getString, getInt32, slot?, objAt, h1, h2]

/-- What the term-count round trip does for every map, whatever the size of the counts. -/
theorem c34_counts_are_cut_to_32_bits (m : GoMap String Int) (wf : m.WF) :
    (serializeNumberFieldTerm m).bind deserializeNumberFieldTerm = some (m.map fun p => (p.1, toInt32 p.2)) := by
  obtain ⟨buf, offs, h1, h2, h3⟩ := finish_entries serializeCount CountAt CountAt.stable serializeCount_writes m
  have := readCounts_eq buf.objs buf.root 0 offs h2 m [] offs rfl h3 [] wf (by simp)
  unfold serializeNumberFieldTerm
  rw [h1]
  simp only [Option.bind_some, deserializeNumberFieldTerm, h2.len, Option.bind_eq_bind, ← h3.length_eq]
  simpa using this

/-- What the document round trip does for every map, whatever the size of the counts. -/
theorem c34_fields_are_cut_to_32_bits (m : GoMap String Field) (wf : m.WF) (wfi : ∀ p ∈ m, p.2.tf.WF) :
    (serializeFieldMap m).bind deserializeFieldMap =
      some (m.map fun p => (p.1, ⟨p.2.name, toInt32 p.2.length, p.2.tf.map fun q => (q.1, toInt32 q.2)⟩)) := by
  obtain ⟨buf, offs, h1, h2, h3⟩ := finish_entries serializeFieldEntry FieldAt FieldAt.stable serializeFieldEntry_writes m
  have := readFieldEntries_eq buf.objs buf.root offs h2 m [] offs rfl h3 none [] wf wfi (by simp)
  unfold serializeFieldMap
  rw [h1]
  simp only [Option.bind_some, deserializeFieldMap, h2.len, Option.bind_eq_bind, ← h3.length_eq]
  simpa [cutField] using this

/-- **C45**, term counts. -/
theorem c45_numberFieldTerm_roundtrip (m : GoMap String Int) (wf : m.WF) (hr : ∀ p ∈ m, FitsInt32 p.2) :
    (serializeNumberFieldTerm m).bind deserializeNumberFieldTerm = some m := by
  rw [c34_counts_are_cut_to_32_bits m wf]
  congr 1
  conv => rhs; rw [← List.map_id m]
  apply List.map_congr_left
  intro p hp
  simp [toInt32_eq_self (hr p hp)]

/-- **C45**, documents: a document's map from field name to Field, with its TF maps. -/
theorem c45_fieldMap_roundtrip (m : GoMap String Field) (wf : m.WF) (wfi : ∀ p ∈ m, p.2.tf.WF)
    (hr : ∀ p ∈ m, FitsInt32 p.2.length ∧ ∀ q ∈ p.2.tf, FitsInt32 q.2) :
    (serializeFieldMap m).bind deserializeFieldMap = some m := by
  rw [c34_fields_are_cut_to_32_bits m wf wfi]
  congr 1
  conv => rhs; rw [← List.map_id m]
  apply List.map_congr_left
  intro p hp
  have h2 : (p.2.tf.map fun q => (q.1, toInt32 q.2)) = p.2.tf := by
    conv => rhs; rw [← List.map_id p.2.tf]
    apply List.map_congr_left
    intro q hq
    simp [toInt32_eq_self ((hr p hp).2 q hq)]
  simp [toInt32_eq_self (hr p hp).1, h2]

/-- **C45**, posting lists: the keys come back exactly, every flag as `true`. -/
theorem c45_index_roundtrip_keys (m : GoMap String (GoMap String Bool)) (wf : m.WF) (wfi : ∀ p ∈ m, GoMap.WF p.2) :
    (serializeIndex m).bind deserializeIndex = some (m.map fun p => (p.1, p.2.map fun q => (q.1, true))) := by
  obtain ⟨buf, offs, h1, h2, h3⟩ := finish_entries serializeTerm TermAt TermAt.stable serializeTerm_writes m
  have := readTerms_eq buf.objs buf.root offs h2 m [] offs rfl h3 [] wf wfi (by simp)
  unfold serializeIndex
  rw [h1]
  simp only [Option.bind_some, deserializeIndex, h2.len, Option.bind_eq_bind, ← h3.length_eq]
  simpa using this

/-- **C45**, posting lists: the identity on the maps the store builds (`Set.Add` only stores `true`,
/repo/model/Set.go:17-19). -/
theorem c45_index_roundtrip (m : GoMap String (GoMap String Bool)) (wf : m.WF) (wfi : ∀ p ∈ m, GoMap.WF p.2)
    (ht : ∀ p ∈ m, ∀ q ∈ p.2, q.2 = true) : (serializeIndex m).bind deserializeIndex = some m := by
  rw [c45_index_roundtrip_keys m wf wfi]
  congr 1
  conv => rhs; rw [← List.map_id m]
  apply List.map_congr_left
  intro p hp
  have h2 : (p.2.map fun q => (q.1, true)) = p.2 := by
    conv => rhs; rw [← List.map_id p.2]
    apply List.map_congr_left
    intro q hq
    simp [← ht p hp q hq]
  simp [h2]

/-- **C34** is false: a count of `2^31` in a Go `int` comes back as `-2^31`. -/
theorem c34_any_size_refuted : ¬ ∀ m : GoMap String Int, m.WF →
    (∀ p ∈ m, -9223372036854775808 ≤ p.2 ∧ p.2 ≤ 9223372036854775807) →
    (serializeNumberFieldTerm m).bind deserializeNumberFieldTerm = some m := by
  intro h
  have := h [("go", 2147483648)] (by decide) (by decide)
  rw [c34_counts_are_cut_to_32_bits _ (by decide)] at this
  revert this; decide

/-- **C34**, the true part: a term-count map survives exactly when every count fits in 32 bits. -/
theorem c34_survives_iff_fits_partial (m : GoMap String Int) (wf : m.WF) :
    (serializeNumberFieldTerm m).bind deserializeNumberFieldTerm = some m ↔ ∀ p ∈ m, FitsInt32 p.2 := by
  refine ⟨fun h => ?_, c45_numberFieldTerm_roundtrip m wf⟩
  rw [c34_counts_are_cut_to_32_bits m wf, Option.some_inj] at h
  intro p hp
  have hmem := List.map_eq_map_iff.1 (h.trans (List.map_id m).symm) p hp
  have hv : toInt32 p.2 = p.2 := congrArg Prod.snd hmem
  unfold toInt32 at hv
  have h1 := Int.le_bmod (x := p.2) (m := 4294967296) (by decide)
  have h2 := Int.bmod_lt (x := p.2) (m := 4294967296) (by decide)
  unfold FitsInt32
  omega

/-- a non-trivial instance: two entries, a negative, a zero (its slot is omitted) and an extreme count. -/
example : (serializeNumberFieldTerm [("a", 0), ("b", -7), ("", 2147483647)]).bind deserializeNumberFieldTerm
    = some [("a", 0), ("b", -7), ("", 2147483647)] :=
  c45_numberFieldTerm_roundtrip _ (by decide) (by decide)

example : (serializeFieldMap [("title", ⟨"title", 3, [("go", 2), ("ir", 0)]⟩), ("body", ⟨"other", 0, []⟩)]).bind
    deserializeFieldMap = some [("title", ⟨"title", 3, [("go", 2), ("ir", 0)]⟩), ("body", ⟨"other", 0, []⟩)] :=
  c45_fieldMap_roundtrip _ (by decide) (by decide) (by decide)

example : (serializeIndex [("go", [("d1", true), ("d2", true)]), ("ir", [])]).bind deserializeIndex
    = some [("go", [("d1", true), ("d2", true)]), ("ir", [])] :=
  c45_index_roundtrip _ (by decide) (by decide) (by decide)

end Goir
