/-!
# Go maps

`map[K]V` as an association list.  `get?` is the two-valued read `v, ok := m[k]`, `set` is `m[k] = v`
(in place if the key is present, otherwise appended), `del` is `delete(m, k)`.

Simplification: Go's `range` order is random.  Here the list order *is* the iteration order, and theorems about loops over
maps either quantify over all lists or speak only about `get?`, which does not depend on the order.
A real Go map has no duplicate keys: `WF`.
-/

set_option linter.unusedSectionVars false

namespace Goir

/-- Go `map[K]V` (language construct; used by every package of /repo). -/
abbrev GoMap (K V : Type) := List (K × V)

namespace GoMap

variable {K V W : Type} [DecidableEq K]

/-- `v, ok := m[k]`. (Go maps, as in /repo/storage/Memory.go:7-120) -/
def get? : GoMap K V → K → Option V
  | [], _ => none
  | (k', v) :: m, k => if k' = k then some v else get? m k

/-- `m[k] = v`. (Go maps, as in /repo/storage/Memory.go:7-120) -/
def set : GoMap K V → K → V → GoMap K V
  | [], k, v => [(k, v)]
  | (k', v') :: m, k, v => if k' = k then (k, v) :: m else (k', v') :: set m k v

/-- `delete(m, k)`. (Go maps, as in /repo/storage/Memory.go:7-120) -/
def del : GoMap K V → K → GoMap K V
  | [], _ => []
  | (k', v') :: m, k => if k' = k then del m k else (k', v') :: del m k

/-- the keys, in iteration order. (Go maps, as in /repo/storage/Memory.go:7-120) -/
def keys (m : GoMap K V) : List K := m.map Prod.fst

/-- a value of Go type `map[K]V` has each key once. (Go maps, as in /repo/storage/Memory.go:7-120) -/
def WF (m : GoMap K V) : Prop := m.keys.Nodup

/-- `m[k]` for a value type with zero value `z`. (Go maps, as in /repo/storage/Memory.go:7-120) -/
def getD (m : GoMap K V) (k : K) (z : V) : V := (m.get? k).getD z

instance (m : GoMap K V) : Decidable m.WF := inferInstanceAs (Decidable (List.Nodup _))

/-! ### Lemmas -/

@[simp] theorem get?_nil (k : K) : get? ([] : GoMap K V) k = none := rfl

theorem get?_cons (k' : K) (v : V) (m : GoMap K V) (k : K) :
    get? ((k', v) :: m) k = if k' = k then some v else get? m k := rfl

theorem get?_set (m : GoMap K V) (k : K) (v : V) (j : K) :
    get? (m.set k v) j = if k = j then some v else get? m j := by
  induction m with
  | nil => simp [set, get?]
  | cons p m ih =>
    obtain ⟨k', v'⟩ := p
    simp only [set]
    by_cases h : k' = k
    · subst h; simp only [if_pos]; simp only [get?]; split <;> simp_all
    · simp only [if_neg h, get?, ih]
      by_cases hj : k = j
      · subst hj; simp [h]
      · simp [hj]

@[simp] theorem get?_set_self (m : GoMap K V) (k : K) (v : V) : get? (m.set k v) k = some v := by
  simp [get?_set]

theorem get?_set_ne (m : GoMap K V) {k j : K} (v : V) (h : k ≠ j) : get? (m.set k v) j = get? m j := by
  simp [get?_set, h]

theorem get?_del (m : GoMap K V) (k j : K) :
    get? (m.del k) j = if k = j then none else get? m j := by
  induction m with
  | nil => simp [del]
  | cons p m ih =>
    obtain ⟨k', v'⟩ := p
    simp only [del]
    by_cases h : k' = k
    · subst h; simp only [if_pos, ih, get?]; split <;> simp_all
    · simp only [if_neg h, get?, ih]
      by_cases hj : k = j
      · subst hj; simp [h]
      · simp [hj]

@[simp] theorem keys_nil : keys ([] : GoMap K V) = [] := rfl
@[simp] theorem keys_cons (p : K × V) (m : GoMap K V) : keys (p :: m) = p.1 :: keys m := rfl

theorem get?_eq_none_iff (m : GoMap K V) (k : K) : m.get? k = none ↔ k ∉ m.keys := by
  induction m with
  | nil => simp
  | cons p m ih =>
    obtain ⟨k', v'⟩ := p
    simp only [get?, keys_cons, List.mem_cons, not_or]
    by_cases h : k' = k
    · subst h; simp
    · simp [h, ih, Ne.symm h]

theorem mem_keys_iff (m : GoMap K V) (k : K) : k ∈ m.keys ↔ ∃ v, m.get? k = some v := by
  have := get?_eq_none_iff m k
  cases h : m.get? k with
  | none => simp [h] at this; simp [this]
  | some v => simp [h] at this; simp [this]

theorem get?_isSome_iff (m : GoMap K V) (k : K) : (m.get? k).isSome ↔ k ∈ m.keys := by
  rw [mem_keys_iff, Option.isSome_iff_exists]

theorem mem_keys_set (m : GoMap K V) (k : K) (v : V) (j : K) :
    j ∈ (m.set k v).keys ↔ j = k ∨ j ∈ m.keys := by
  rw [mem_keys_iff, mem_keys_iff]
  simp only [get?_set]
  by_cases h : k = j
  · simp [h]
  · simp [h, Ne.symm h]

theorem mem_keys_del (m : GoMap K V) (k j : K) :
    j ∈ (m.del k).keys ↔ j ≠ k ∧ j ∈ m.keys := by
  rw [mem_keys_iff, mem_keys_iff]
  simp only [get?_del]
  by_cases h : k = j
  · simp [h]
  · simp [h, Ne.symm h]

theorem mem_of_get? {m : GoMap K V} {k : K} {v : V} (h : m.get? k = some v) : (k, v) ∈ m := by
  induction m with
  | nil => simp at h
  | cons p m ih =>
    obtain ⟨k', v'⟩ := p
    simp only [get?] at h
    split at h
    · simp_all
    · simp [ih h]

theorem get?_of_mem {m : GoMap K V} (wf : m.WF) {k : K} {v : V} (h : (k, v) ∈ m) : m.get? k = some v := by
  induction m with
  | nil => simp at h
  | cons p m ih =>
    obtain ⟨k', v'⟩ := p
    simp only [WF, keys_cons, List.nodup_cons] at wf
    simp only [List.mem_cons, Prod.mk.injEq] at h
    simp only [get?]
    rcases h with ⟨rfl, rfl⟩ | h
    · simp
    · have : k ∈ GoMap.keys m := List.mem_map.2 ⟨_, h, rfl⟩
      have hne : k' ≠ k := fun e => wf.1 (e ▸ this)
      simp [hne, ih wf.2 h]

theorem get?_eq_some_iff {m : GoMap K V} (wf : m.WF) (k : K) (v : V) : m.get? k = some v ↔ (k, v) ∈ m :=
  ⟨mem_of_get?, get?_of_mem wf⟩

@[simp] theorem WF_nil : WF ([] : GoMap K V) := List.nodup_nil

theorem WF.set {m : GoMap K V} (wf : m.WF) (k : K) (v : V) : (m.set k v).WF := by
  induction m with
  | nil => simp [GoMap.set, WF]
  | cons p m ih =>
    obtain ⟨k', v'⟩ := p
    simp only [WF, keys_cons, List.nodup_cons] at wf
    simp only [GoMap.set]
    by_cases h : k' = k
    · subst h; simpa [WF] using wf
    · simp only [if_neg h, WF, keys_cons, List.nodup_cons]
      refine ⟨?_, ih wf.2⟩
      rw [mem_keys_set]; simp [h, wf.1]

theorem WF.del {m : GoMap K V} (wf : m.WF) (k : K) : (m.del k).WF := by
  induction m with
  | nil => simp [GoMap.del, WF]
  | cons p m ih =>
    obtain ⟨k', v'⟩ := p
    simp only [WF, keys_cons, List.nodup_cons] at wf
    simp only [GoMap.del]
    by_cases h : k' = k
    · simp [h, ih wf.2]
    · simp only [if_neg h, WF, keys_cons, List.nodup_cons]
      refine ⟨?_, ih wf.2⟩
      rw [mem_keys_del]; simp [wf.1]

theorem WF.tail {p : K × V} {m : GoMap K V} (wf : WF (p :: m)) : m.WF := by
  simp only [WF, keys_cons, List.nodup_cons] at wf; exact wf.2

theorem WF.perm {m m' : GoMap K V} (wf : m.WF) (h : m.Perm m') : m'.WF :=
  (h.map Prod.fst).nodup_iff.1 wf

/-- lookups do not depend on the iteration order. -/
theorem get?_perm {m m' : GoMap K V} (wf : m.WF) (h : m.Perm m') (k : K) : m.get? k = m'.get? k := by
  have wf' := wf.perm h
  ext v
  rw [get?_eq_some_iff wf, get?_eq_some_iff wf', h.mem_iff]

theorem set_length_of_mem {m : GoMap K V} {k : K} (h : k ∈ m.keys) (v : V) : (m.set k v).length = m.length := by
  induction m with
  | nil => simp at h
  | cons p m ih =>
    obtain ⟨k', v'⟩ := p
    simp only [GoMap.set]
    by_cases hk : k' = k
    · simp [hk]
    · simp only [keys_cons, List.mem_cons] at h
      have : k ∈ GoMap.keys m := by
        rcases h with h | h
        · exact absurd h.symm hk
        · exact h
      simp [hk, ih this]

theorem set_eq_append {m : GoMap K V} {k : K} (h : k ∉ m.keys) (v : V) : m.set k v = m ++ [(k, v)] := by
  induction m with
  | nil => rfl
  | cons p m ih =>
    obtain ⟨k', v'⟩ := p
    simp only [keys_cons, List.mem_cons, not_or] at h
    simp [GoMap.set, Ne.symm h.1, ih h.2]

theorem del_of_not_mem {m : GoMap K V} {k : K} (h : k ∉ m.keys) : m.del k = m := by
  induction m with
  | nil => rfl
  | cons p m ih =>
    obtain ⟨k', v'⟩ := p
    simp only [keys_cons, List.mem_cons, not_or] at h
    simp [GoMap.del, Ne.symm h.1, ih h.2]

theorem length_del_of_mem {m : GoMap K V} (wf : m.WF) {k : K} (h : k ∈ m.keys) :
    (m.del k).length + 1 = m.length := by
  induction m with
  | nil => simp at h
  | cons p m ih =>
    obtain ⟨k', v'⟩ := p
    simp only [WF, keys_cons, List.nodup_cons] at wf
    simp only [GoMap.del]
    by_cases hk : k' = k
    · subst hk; simp [del_of_not_mem wf.1]
    · simp only [keys_cons, List.mem_cons] at h
      have : k ∈ GoMap.keys m := by
        rcases h with h | h
        · exact absurd h.symm hk
        · exact h
      simp [hk, ih wf.2 this]

theorem keys_length (m : GoMap K V) : m.keys.length = m.length := by simp [keys]

theorem getD_set (m : GoMap K V) (k : K) (v : V) (j : K) (z : V) :
    (m.set k v).getD j z = if k = j then v else m.getD j z := by
  simp only [getD, get?_set]; split <;> simp

/-- two well-formed maps with the same lookups are permutations of each other. -/
theorem perm_of_get?_eq {m m' : GoMap K V} (wf : m.WF) (wf' : m'.WF) (h : ∀ k, m.get? k = m'.get? k) :
    m.Perm m' := by
  have nd : m.Nodup := List.Pairwise.of_map Prod.fst (fun _ _ h e => h (e ▸ rfl)) wf
  have nd' : m'.Nodup := List.Pairwise.of_map Prod.fst (fun _ _ h e => h (e ▸ rfl)) wf'
  rw [List.perm_ext_iff_of_nodup nd nd']
  intro ⟨k, v⟩
  rw [← get?_eq_some_iff wf, ← get?_eq_some_iff wf', h]

end GoMap
end Goir
