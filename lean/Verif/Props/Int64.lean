import Verif.Model.Int64
import Verif.Model.Serialize
import Verif.Props.Memory
import Verif.Props.Http
/-!
# C122: Go's 64-bit int
-/
namespace Goir
open Spec GoMap Http

/-- a value of Go's `int`. -/
def IsInt64 (x : Int) : Prop := -2^63 ≤ x ∧ x < 2^63

theorem wrap64_of_isInt64 {x : Int} (h : IsInt64 x) : wrap64 x = x := by
  obtain ⟨h1, h2⟩ := h
  unfold wrap64
  rw [Int.bmod_def]
  omega

theorem wrap64_isInt64 (x : Int) : IsInt64 (wrap64 x) := by
  unfold wrap64 IsInt64
  rw [Int.bmod_def]
  omega

theorem wrap64_add (x y : Int) : wrap64 (wrap64 x + y) = wrap64 (x + y) := by
  unfold wrap64
  simp only [Int.bmod_def]
  omega

theorem wrap64_zero : wrap64 0 = 0 := by decide

/-- cutting to 32 bits, as the files do, does not notice. -/
theorem toInt32_wrap64 (x : Int) : toInt32 (wrap64 x) = toInt32 x := by
  unfold toInt32 wrap64
  simp only [Int.bmod_def]
  omega

namespace Memory

/-- wrapping every count of a map. -/
def wrapVals (m : GoMap String Int) : GoMap String Int := m.map fun e => (e.1, wrap64 e.2)

theorem map_get? {V W : Type} (g : V → W) (m : GoMap String V) (k : String) : get? (m.map fun e => (e.1, g e.2)) k = (m.get? k).map g := by
  induction m with
  | nil => rfl
  | cons e m ih =>
    rw [List.map_cons, get?_cons, ih]
    obtain ⟨k', v⟩ := e
    rw [get?_cons]
    split <;> rfl

theorem map_set {V W : Type} (g : V → W) (m : GoMap String V) (k : String) (v : V) : (GoMap.set m k v).map (fun e => (e.1, g e.2)) = GoMap.set (m.map fun e => (e.1, g e.2)) k (g v) := by
  induction m with
  | nil => rfl
  | cons e m ih =>
    obtain ⟨k', v'⟩ := e
    simp only [GoMap.set, List.map_cons]
    split
    · rfl
    · rw [List.map_cons, ih]

theorem wrapVals_getD (m : GoMap String Int) (k : String) : GoMap.getD (wrapVals m) k 0 = wrap64 (GoMap.getD m k 0) := by
  unfold GoMap.getD wrapVals
  rw [map_get?]
  cases m.get? k
  · exact wrap64_zero.symm
  · rfl

theorem wrapVals_add (m : GoMap String Int) (k : String) (n : Int) :
    GoMap.set (wrapVals m) k (wrap64 (GoMap.getD (wrapVals m) k 0 + n)) = wrapVals (GoMap.set m k (GoMap.getD m k 0 + n)) := by
  rw [wrapVals_getD, wrap64_add]
  exact (map_set wrap64 m k _).symm

theorem wrapVals_bump (ts : List String) (m : GoMap String Int) : ts.foldl bumpTerm64 (wrapVals m) = wrapVals (ts.foldl bumpTerm m) := by
  induction ts generalizing m with
  | nil => rfl
  | cons t ts ih =>
    rw [List.foldl_cons, List.foldl_cons, ← ih]
    congr 1
    exact wrapVals_add m t 1

/-- wrapping every counter. -/
def wrap (m : Memory) : Memory :=
  { m with fieldLength := wrapVals m.fieldLength, fieldSize := wrapVals m.fieldSize, numberFieldTerm := m.numberFieldTerm.map fun e => (e.1, wrapVals e.2) }

theorem updateIndex64_wrap (m : Memory) (d : String) (f : Field) : m.wrap.updateIndex64 d f = (m.updateIndex d f).wrap := by
  unfold updateIndex64 updateIndex wrap
  simp only [wrapVals_add]

theorem create_wrap (m : Memory) (d : String) (f : Field) : m.wrap.createFieldDocument d f = (m.createFieldDocument d f).wrap := by
  unfold createFieldDocument
  show (match m.fieldDocument.get? d with | some fieldIndex => _ | none => _) = _
  cases m.fieldDocument.get? d <;> rfl

theorem apply64_wrap (m : Memory) (op : StoreOp) : m.wrap.apply64 op = (m.apply op).wrap := by
  cases op with
  | updateIndex d f => exact updateIndex64_wrap m d f
  | save d f =>
    show m.wrap.saveOrUpdate64 d f = (m.saveOrUpdate d f).wrap
    unfold saveOrUpdate64 saveOrUpdate
    simp only [create_wrap, updateIndex64_wrap]
    generalize (m.createFieldDocument d f).updateIndex d f = m'
    show ({ m'.wrap with numberFieldTerm := _ } : Memory) = _
    have : (get? m'.wrap.numberFieldTerm f.name).getD [] = wrapVals ((get? m'.numberFieldTerm f.name).getD []) := by
      show (get? (m'.numberFieldTerm.map fun e => (e.1, wrapVals e.2)) f.name).getD [] = _
      rw [map_get?]
      cases m'.numberFieldTerm.get? f.name <;> rfl
    rw [this, wrapVals_bump]
    unfold wrap
    simp only [map_set]

theorem run64_eq (h : List StoreOp) : run64 h = (run h).wrap := by
  have : ∀ (h : List StoreOp) (m : Memory), h.foldl apply64 m.wrap = (h.foldl apply m).wrap := by
    intro h
    induction h with
    | nil => exact fun _ => rfl
    | cons op h ih => exact fun m => by rw [List.foldl_cons, apply64_wrap, ih]; rfl
  exact this h new

end Memory

theorem Memory.nft_wrap (m : Memory) (name t : String) : m.wrap.nft name t = wrap64 (m.nft name t) := by
  unfold nft
  show GoMap.getD ((get? (m.numberFieldTerm.map fun e => (e.1, wrapVals e.2)) name).getD []) t 0 = _
  rw [map_get?]
  cases m.numberFieldTerm.get? name
  · exact wrap64_zero.symm
  · exact wrapVals_getD _ _

/-- **C122.** With Go's wrapping `int` every counter is the exact one of C15 modulo 2^64, and nothing else changes. -/
theorem c122_wraps (h : List StoreOp) (gv : Spec.GoValues h) (name : String) (terms : List String) :
    (Memory.run64 h).getFieldSize name = wrap64 (callCount h name) ∧
    (Memory.run64 h).getFieldLength name = wrap64 (lengthSum h name) ∧
    (∀ t, ((Memory.run64 h).getNumberFieldTerm name terms).get? t = if t ∈ terms then some (wrap64 (termCount h name t)) else none) ∧
    (∀ t, (Memory.run64 h).getDocuments name t = (Memory.run h).getDocuments name t) ∧
    (∀ ids, (Memory.run64 h).getFields ids name = (Memory.run h).getFields ids name) := by
  obtain ⟨h1, h2, h3⟩ := c15_memory_counters_exact h gv name terms
  rw [Memory.run64_eq]
  refine ⟨?_, ?_, fun t => ?_, fun _ => rfl, fun _ => rfl⟩
  · rw [← h1]; exact Memory.wrapVals_getD _ _
  · rw [← h2]; exact Memory.wrapVals_getD _ _
  · have h4 := h3 t
    rw [Memory.get?_getNumberFieldTerm] at h4 ⊢
    by_cases ht : t ∈ terms
    · rw [if_pos ht, if_pos ht] at h4
      rw [if_pos ht, if_pos ht, Memory.nft_wrap, Option.some.inj h4]
    · rw [if_neg ht, if_neg ht]

/-- **C122, when nothing wraps**: if there were fewer than 2^63 calls and the lengths of each field add up to a Go `int`, every call of the storage interface answers as with unbounded numbers, so all that is
proved of those holds; in particular every search is the same. -/
theorem c122_exact (h : List StoreOp) (gv : Spec.GoValues h) (hc : h.length < 2^63) (hl : ∀ name, IsInt64 (lengthSum h name)) : (Memory.run64 h).reads = (Memory.run h).reads := by
  have cnt : ∀ p : StoreOp → Bool, IsInt64 ((h.filter p).length : Nat) := fun p => by
    have := List.length_filter_le p h
    unfold IsInt64; omega
  rw [Memory.run64_eq]
  have e1 : (Memory.run h).wrap.getFieldSize = (Memory.run h).getFieldSize := funext fun name => by
    have := (c15_memory_counters_exact h gv name []).1
    refine (Memory.wrapVals_getD _ _).trans (wrap64_of_isInt64 ?_)
    show IsInt64 ((Memory.run h).getFieldSize name)
    rw [this]; exact cnt _
  have e2 : (Memory.run h).wrap.getFieldLength = (Memory.run h).getFieldLength := funext fun name => by
    have := (c15_memory_counters_exact h gv name []).2.1
    refine (Memory.wrapVals_getD _ _).trans (wrap64_of_isInt64 ?_)
    show IsInt64 ((Memory.run h).getFieldLength name)
    rw [this]; exact hl name
  have e3 : (Memory.run h).wrap.getNumberFieldTerm = (Memory.run h).getNumberFieldTerm := funext fun name => funext fun terms => by
    have : ∀ t, (Memory.run h).wrap.nft name t = (Memory.run h).nft name t := fun t => by
      rw [Memory.nft_wrap]
      refine wrap64_of_isInt64 ?_
      have := (c15_memory_counters_exact h gv name [t]).2.2 t
      rw [Memory.get?_getNumberFieldTerm, if_pos (by simp), if_pos (by simp)] at this
      rw [Option.some.inj this]; exact cnt _
    unfold Memory.getNumberFieldTerm
    unfold Memory.nft at this
    simp only [this]
  unfold Memory.reads
  rw [e1, e2, e3]
  rfl

/-- a text has at most as many terms as characters. -/
theorem length_termsOf (env : TextEnv) (text : String) : (termsOf env text).length ≤ text.length := by
  have seg : ∀ {sep : Char → Bool} {s : List Char} {ws : List (List Char)}, Segmented sep s ws → ws.length ≤ s.length := by
    intro sep s ws h
    induction h with
    | blank => simp
    | word pre w rest ws _ hne _ _ _ ih =>
      have := List.length_pos_iff.2 hne
      simp only [List.length_append, List.length_cons]
      omega
  have h1 := seg ((c01_tokens_are_maximal_runs env text _).1 rfl)
  have h2 : (termsOf env text).length ≤ (Text.tokenize env text).length := by
    unfold termsOf
    rw [c05_preprocessing_per_token]
    exact List.length_filterMap_le _ _
  rw [List.length_map] at h1
  exact h2.trans h1

/-- the characters of a request. -/
def chars : Option Http.Document → Nat
  | none => 0
  | some doc => doc.id.length + doc.title.length + doc.text.length

/-- **C122, POST /nir**: as long as fewer than 2^61 characters were posted, the store with Go's `int` answers every call as the one with unbounded numbers. -/
theorem c122_served (env : TextEnv) (docs : List (Option Http.Document)) (hn : (docs.map chars).sum < 2^61) :
    (Memory.run64 (docs.flatMap (callsOf env))).reads = (Memory.run (docs.flatMap (callsOf env))).reads := by
  have key : ∀ docs : List (Option Http.Document), (docs.flatMap (callsOf env)).length ≤ 3 * (docs.map chars).sum ∧
      ∀ name, 0 ≤ lengthSum (docs.flatMap (callsOf env)) name ∧ lengthSum (docs.flatMap (callsOf env)) name ≤ (docs.map chars).sum := by
    intro docs
    induction docs with
    | nil => exact ⟨by simp, fun name => by simp [lengthSum]⟩
    | cons d docs ih =>
      obtain ⟨h1, h2⟩ := ih
      have app : ∀ (a b : List StoreOp) name, lengthSum (a ++ b) name = lengthSum a name + lengthSum b name := by
        intro a b name; simp [lengthSum]
      have one : (callsOf env d).length ≤ 3 * chars d ∧ ∀ name, 0 ≤ lengthSum (callsOf env d) name ∧ lengthSum (callsOf env d) name ≤ chars d := by
        cases d with
        | none => exact ⟨by simp [callsOf], fun name => by simp [callsOf, lengthSum]⟩
        | some doc =>
          by_cases hid : doc.id = ""
          · exact ⟨by simp [callsOf, hid], fun name => by simp [callsOf, hid, lengthSum]⟩
          · have hpos : 0 < doc.id.length := by
              rw [Nat.pos_iff_ne_zero]
              intro e
              exact hid (by simpa using e)
            refine ⟨by simp [callsOf, hid, fieldsOf, chars]; omega, fun name => ?_⟩
            have l1 := length_termsOf env doc.id
            have l2 := length_termsOf env doc.title
            have l3 := length_termsOf env doc.text
            simp only [callsOf, hid, if_false, fieldsOf, List.map_cons, List.map_nil, lengthSum, List.filter_cons, List.filter_nil, StoreOp.field, Text.makeField, chars]
            split <;> split <;> split <;> simp <;> omega
      rw [List.flatMap_cons, List.map_cons, List.sum_cons, List.length_append]
      refine ⟨by omega, fun name => ?_⟩
      rw [app]
      have := one.2 name
      have := h2 name
      rw [Nat.cast_add]
      constructor <;> omega
  obtain ⟨h1, h2⟩ := key docs
  refine c122_exact _ ?_ (by omega) (fun name => ⟨by have := (h2 name).1; omega, by have := (h2 name).2; omega⟩)
  exact (c68_http_finite env docs).1

/-- **C122 refuted**: the length of a field is the caller's; two fields of length 2^62 have together a negative one. -/
theorem c122_refuted : (∀ op ∈ [StoreOp.save "a" ⟨"t", 2^62, []⟩, .save "b" ⟨"t", 2^62, []⟩], IsInt64 op.field.length ∧ 0 < op.field.length) ∧
    (Memory.run64 [StoreOp.save "a" ⟨"t", 2^62, []⟩, .save "b" ⟨"t", 2^62, []⟩]).getFieldLength "t" = -2^63 := by
  refine ⟨fun op h => ?_, by decide⟩
  simp only [List.mem_cons, List.not_mem_nil, or_false] at h
  rcases h with rfl | rfl <;> (constructor <;> simp [IsInt64, StoreOp.field])

/-- a history that meets the hypotheses. -/
example : demoHistory.length < 2^63 ∧ ∀ name, IsInt64 (lengthSum demoHistory name) := by
  refine ⟨by decide, fun name => ?_⟩
  simp only [demoHistory, lengthSum, List.filter_cons, List.filter_nil, StoreOp.field]
  split <;> split <;> split <;> simp [IsInt64]

end Goir
