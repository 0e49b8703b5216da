import Verif.Spec.Flatten
/-!
# C09–C11: Flatten and GetID
-/
namespace Goir
open JObj Spec
variable {A : Type}

private def joinFrom (pfx : String) (p : List String) : String := p.foldl goKey pfx

private theorem goKey_eq (pfx k : String) : (if pfx = "" then k else pfx ++ "." ++ k) = goKey pfx k := by
  unfold goKey; by_cases h : pfx = "" <;> simp [h]

private theorem joinKey_eq (p : List String) : joinKey p = joinFrom "" p := by
  unfold joinKey joinFrom; congr 1; funext a b; exact goKey_eq a b

/-- keys of the output: old keys or joined leaf paths. -/
private theorem mem_keys_rec (o : JObj A) : ∀ (out : GoMap String A) (pfx k : String),
    k ∈ (recFlatten o out pfx).keys ↔ k ∈ out.keys ∨ ∃ p v, LeafAt o p v ∧ k = joinFrom pfx p := by
  induction o with
  | nil =>
    intro out pfx k
    simp only [recFlatten]
    constructor
    · exact Or.inl
    · rintro (h | ⟨p, v, h, -⟩)
      · exact h
      · cases h
  | leaf k0 v0 rest ih =>
    intro out pfx k
    simp only [recFlatten, ih, GoMap.mem_keys_set]
    constructor
    · rintro ((rfl | h) | ⟨p, v, h, rfl⟩)
      · exact Or.inr ⟨[k0], v0, .here _ _ _, rfl⟩
      · exact Or.inl h
      · exact Or.inr ⟨p, v, .skipLeaf _ _ _ _ _ h, rfl⟩
    · rintro (h | ⟨p, v, h, rfl⟩)
      · exact Or.inl (Or.inr h)
      · cases h with
        | here => exact Or.inl (Or.inl rfl)
        | skipLeaf _ _ _ _ _ h => exact Or.inr ⟨p, v, h, rfl⟩
  | sub k0 o rest iho ihr =>
    intro out pfx k
    simp only [recFlatten, ihr, iho]
    constructor
    · rintro ((h | ⟨p, v, h, rfl⟩) | ⟨p, v, h, rfl⟩)
      · exact Or.inl h
      · exact Or.inr ⟨k0 :: p, v, .into _ _ _ _ _ h, rfl⟩
      · exact Or.inr ⟨p, v, .skipSub _ _ _ _ _ h, rfl⟩
    · rintro (h | ⟨p, v, h, rfl⟩)
      · exact Or.inl (Or.inl h)
      · cases h with
        | into _ _ _ p _ h => exact Or.inl (Or.inr ⟨p, v, h, rfl⟩)
        | skipSub _ _ _ _ _ h => exact Or.inr ⟨p, v, h, rfl⟩

/-- values of the output come from the old output or from a leaf with that joined path. -/
private theorem get_rec (o : JObj A) : ∀ (out : GoMap String A) (pfx k : String) (v : A),
    (recFlatten o out pfx).get? k = some v → out.get? k = some v ∨ ∃ p, LeafAt o p v ∧ k = joinFrom pfx p := by
  induction o with
  | nil => intro out pfx k v h; exact Or.inl h
  | leaf k0 v0 rest ih =>
    intro out pfx k v h
    rcases ih _ _ _ _ h with h | ⟨p, hp, rfl⟩
    · rw [GoMap.get?_set] at h
      split at h
      · rename_i e
        simp only [Option.some.injEq] at h; subst h; subst e
        exact Or.inr ⟨[k0], .here _ _ _, rfl⟩
      · exact Or.inl h
    · exact Or.inr ⟨p, .skipLeaf _ _ _ _ _ hp, rfl⟩
  | sub k0 o rest iho ihr =>
    intro out pfx k v h
    rcases ihr _ _ _ _ h with h | ⟨p, hp, rfl⟩
    · rcases iho _ _ _ _ h with h | ⟨p, hp, rfl⟩
      · exact Or.inl h
      · exact Or.inr ⟨k0 :: p, .into _ _ _ _ _ hp, rfl⟩
    · exact Or.inr ⟨p, .skipSub _ _ _ _ _ hp, rfl⟩

/-- **C10, partial** for every object: the key set of `Flatten(obj)` is exactly the set of joined leaf paths, and every value
is one of the leaves with that joined path. Missing: which leaf, when several leaves share a joined path (refuted below). -/
theorem c10_flatten_keys_partial (o : JObj A) (k : String) :
    (k ∈ (flatten o).keys ↔ ∃ p v, LeafAt o p v ∧ k = joinKey p) ∧
    (∀ v, (flatten o).get? k = some v → ∃ p, LeafAt o p v ∧ k = joinKey p) := by
  constructor
  · have := mem_keys_rec o [] "" k
    simpa [flatten, joinKey_eq] using this
  · intro v h
    have := get_rec o [] "" k v h
    simpa [joinKey_eq] using this

/-- **C10, refuted**: `{"a": {"b": 1}, "a.b": 2}` flattens to `a.b = 1` or `a.b = 2` depending on the iteration order of the
same map. -/
theorem c10_flatten_deterministic_refuted : ∃ o o' : JObj Nat, o.WF ∧ o'.WF ∧ (∀ p v, LeafAt o p v ↔ LeafAt o' p v) ∧
    ∃ k, (flatten o).get? k ≠ (flatten o').get? k := by
  let o : JObj Nat := .sub "a" (.leaf "b" 1 .nil) (.leaf "a.b" 2 .nil)
  let o' : JObj Nat := .leaf "a.b" 2 (.sub "a" (.leaf "b" 1 .nil) .nil)
  refine ⟨o, o', by simp [o, JObj.WF, topKeys], by simp [o', JObj.WF, topKeys], ?_, "a.b", by decide⟩
  intro p v
  constructor
  · intro h
    simp only [o] at h
    cases h with
    | into _ _ _ p _ h => exact .skipLeaf _ _ _ _ _ (.into _ _ _ _ _ h)
    | skipSub _ _ _ _ _ h =>
      cases h with
      | here => exact .here _ _ _
      | skipLeaf _ _ _ _ _ h => cases h
  · intro h
    simp only [o'] at h
    cases h with
    | here => exact .skipSub _ _ _ _ _ (.here _ _ _)
    | skipLeaf _ _ _ _ _ h =>
      cases h with
      | into _ _ _ p _ h => exact .into _ _ _ _ _ h
      | skipSub _ _ _ _ _ h => cases h

/-! ### C09 -/

private theorem leafAt_plain {o : JObj A} (hp : PlainKeys o) {p : List String} {v : A} (h : LeafAt o p v) :
    p ≠ [] ∧ ∀ k ∈ p, k ≠ "" ∧ '.' ∉ k.toList := by
  induction h with
  | here k v rest => simp only [PlainKeys] at hp; simp [hp.1]
  | into k o rest p v _ ih =>
    simp only [PlainKeys] at hp
    refine ⟨by simp, fun x hx => ?_⟩
    rcases List.mem_cons.1 hx with rfl | hx
    · exact hp.1
    · exact (ih hp.2.1).2 x hx
  | skipLeaf _ _ _ _ _ _ ih => simp only [PlainKeys] at hp; exact ih hp.2
  | skipSub _ _ _ _ _ _ ih => simp only [PlainKeys] at hp; exact ih hp.2.2

private theorem joinFrom_plain (p : List String) : ∀ pfx, pfx ≠ "" → p ≠ [] → (∀ k ∈ p, k ≠ "" ∧ '.' ∉ k.toList) →
    joinFrom pfx p = pfx ++ "." ++ dotted p := by
  induction p with
  | nil => intro _ _ h; exact absurd rfl h
  | cons k p ih =>
    intro pfx hpfx _ hk
    cases p with
    | nil => simp [joinFrom, goKey, hpfx, dotted]
    | cons l p =>
      have h1 : goKey pfx k = pfx ++ "." ++ k := by simp [goKey, hpfx]
      have h2 : pfx ++ "." ++ k ≠ "" := by
        intro e
        have := congrArg String.toList e
        simp at this
      show joinFrom (goKey pfx k) (l :: p) = _
      rw [h1, ih _ h2 (by simp) (fun x hx => hk x (List.mem_cons_of_mem _ hx))]
      simp [dotted, String.append_assoc]

private theorem joinKey_plain (p : List String) (hne : p ≠ []) (hk : ∀ k ∈ p, k ≠ "" ∧ '.' ∉ k.toList) :
    joinKey p = dotted p := by
  rw [joinKey_eq]
  cases p with
  | nil => exact absurd rfl hne
  | cons k p =>
    have h0 : goKey "" k = k := by simp [goKey]
    show joinFrom (goKey "" k) p = _
    rw [h0]
    cases p with
    | nil => rfl
    | cons l p =>
      rw [joinFrom_plain _ _ (hk k (by simp)).1 (by simp) (fun x hx => hk x (List.mem_cons_of_mem _ hx))]
      rfl

private theorem split_dot {a b c d : List Char} (ha : '.' ∉ a) (hb : '.' ∉ b) (h : a ++ '.' :: c = b ++ '.' :: d) :
    a = b ∧ c = d := by
  induction a generalizing b with
  | nil =>
    cases b with
    | nil => simpa using h
    | cons x b => simp at h; simp only [List.mem_cons, not_or] at hb; exact absurd h.1 hb.1
  | cons x a ih =>
    cases b with
    | nil => simp at h; simp only [List.mem_cons, not_or] at ha; exact absurd h.1.symm ha.1
    | cons y b =>
      simp only [List.cons_append, List.cons.injEq] at h
      simp only [List.mem_cons, not_or] at ha hb
      obtain ⟨e1, e2⟩ := ih ha.2 hb.2 h.2
      simp [h.1, e1, e2]

private theorem dotted_inj : ∀ (p q : List String), p ≠ [] → q ≠ [] → (∀ k ∈ p, '.' ∉ k.toList) →
    (∀ k ∈ q, '.' ∉ k.toList) → dotted p = dotted q → p = q := by
  intro p
  induction p with
  | nil => intro q h; exact absurd rfl h
  | cons k p ih =>
    intro q _ hq hp' hq' he
    cases q with
    | nil => exact absurd rfl hq
    | cons l q =>
      have hk := hp' k (by simp)
      have hl := hq' l (by simp)
      cases p with
      | nil =>
        cases q with
        | nil => simpa [dotted] using he
        | cons m q =>
          simp only [dotted] at he
          exfalso; apply hk; rw [he]; simp
      | cons m p =>
        cases q with
        | nil => simp only [dotted] at he; exfalso; apply hl; rw [← he]; simp
        | cons n q =>
          simp only [dotted] at he
          have he' := congrArg String.toList he
          simp only [String.toList_append] at he'
          have hdot : ".".toList = ['.'] := by decide
          rw [hdot] at he'
          simp only [List.append_assoc, List.singleton_append] at he'
          obtain ⟨e1, e2⟩ := split_dot hk hl he'
          have e1' := String.toList_inj.1 e1
          have e2' := String.toList_inj.1 e2
          have := ih (n :: q) (by simp) (by simp) (fun x hx => hp' x (List.mem_cons_of_mem _ hx))
            (fun x hx => hq' x (List.mem_cons_of_mem _ hx)) e2'
          rw [e1', this]

private theorem leaf_head {o : JObj A} {p : List String} {v : A} (h : LeafAt o p v) :
    ∃ k q, p = k :: q ∧ k ∈ topKeys o := by
  induction h with
  | here k v rest => exact ⟨k, [], rfl, by simp [topKeys]⟩
  | into k o rest p v _ _ => exact ⟨k, p, rfl, by simp [topKeys]⟩
  | skipLeaf _ _ _ _ _ _ ih => obtain ⟨k, q, e, hm⟩ := ih; exact ⟨k, q, e, by simp [topKeys, hm]⟩
  | skipSub _ _ _ _ _ _ ih => obtain ⟨k, q, e, hm⟩ := ih; exact ⟨k, q, e, by simp [topKeys, hm]⟩

private theorem leaf_unique {o : JObj A} (wf : o.WF) {p : List String} {v w : A} (h : LeafAt o p v) (h' : LeafAt o p w) :
    v = w := by
  induction h with
  | here k v rest =>
    cases h' with
    | here => rfl
    | skipLeaf _ _ _ _ _ h' =>
      obtain ⟨k', q, e, hm⟩ := leaf_head h'
      simp only [List.cons.injEq] at e; exact absurd (e.1 ▸ hm) wf.1
  | into k o rest p v h ih =>
    cases h' with
    | into _ _ _ _ _ h' => exact ih wf.2.1 h'
    | skipSub _ _ _ _ _ h' =>
      obtain ⟨k', q, e, hm⟩ := leaf_head h'
      simp only [List.cons.injEq] at e; exact absurd (e.1 ▸ hm) wf.1
  | skipLeaf k w' rest p v h ih =>
    cases h' with
    | here =>
      obtain ⟨k', q, e, hm⟩ := leaf_head h
      simp only [List.cons.injEq] at e; exact absurd (e.1 ▸ hm) wf.1
    | skipLeaf _ _ _ _ _ h' => exact ih wf.2 h'
  | skipSub k o rest p v h ih =>
    cases h' with
    | into _ _ _ _ _ h' =>
      obtain ⟨k', q, e, hm⟩ := leaf_head h
      simp only [List.cons.injEq] at e; exact absurd (e.1 ▸ hm) wf.1
    | skipSub _ _ _ _ _ h' => exact ih wf.2.2 h'

/-- **C09** For objects whose keys are non-empty and dot-free: `Flatten(obj)[k] = v` iff `v` is the leaf at the path whose
components joined with dots are `k`. The right-hand side does not mention iteration order. -/
theorem c09_flatten_exact (o : JObj A) (wf : o.WF) (plain : PlainKeys o) (k : String) (v : A) :
    (flatten o).get? k = some v ↔ ∃ p, LeafAt o p v ∧ k = dotted p := by
  have hk : ∀ p v, LeafAt o p v → joinKey p = dotted p := fun p v h =>
    joinKey_plain p (leafAt_plain plain h).1 (leafAt_plain plain h).2
  constructor
  · intro h
    obtain ⟨p, hp, rfl⟩ := (c10_flatten_keys_partial o k).2 v h
    exact ⟨p, hp, hk p v hp⟩
  · rintro ⟨p, hp, rfl⟩
    have hm : dotted p ∈ (flatten o).keys := (c10_flatten_keys_partial o _).1.2 ⟨p, v, hp, (hk p v hp).symm⟩
    obtain ⟨w, hw⟩ := (GoMap.mem_keys_iff _ _).1 hm
    obtain ⟨q, hq, e⟩ := (c10_flatten_keys_partial o _).2 w hw
    rw [hk q w hq] at e
    have := dotted_inj p q (leafAt_plain plain hp).1 (leafAt_plain plain hq).1
      (fun x hx => ((leafAt_plain plain hp).2 x hx).2) (fun x hx => ((leafAt_plain plain hq).2 x hx).2) e
    subst this
    rw [hw, leaf_unique wf hp hq]

/-- C09: with such keys no two leaves have the same dotted path. -/
theorem c09_path_unique {o : JObj A} (wf : o.WF) (plain : PlainKeys o) {p q : List String} {v w : A} (hp : LeafAt o p v) (hq : LeafAt o q w)
    (h : dotted p = dotted q) : p = q ∧ v = w := by
  have := dotted_inj p q (leafAt_plain plain hp).1 (leafAt_plain plain hq).1
    (fun x hx => ((leafAt_plain plain hp).2 x hx).2) (fun x hx => ((leafAt_plain plain hq).2 x hx).2) h
  subst this
  exact ⟨rfl, leaf_unique wf hp hq⟩

/-- C09: a dotted path without a dot is a key at the top level. -/
theorem c09_top_level {o : JObj A} (plain : PlainKeys o) {p : List String} {v : A} {k : String} (hp : LeafAt o p v) (hk : '.' ∉ k.toList)
    (h : k = dotted p) : p = [k] :=
  dotted_inj p [k] (leafAt_plain plain hp).1 (by simp) (fun x hx => ((leafAt_plain plain hp).2 x hx).2) (by simpa using hk) h.symm

/-- C09: iteration order does not matter. -/
theorem c09_flatten_order_independent (o o' : JObj A) (wf : o.WF) (wf' : o'.WF) (plain : PlainKeys o) (plain' : PlainKeys o')
    (same : ∀ p v, LeafAt o p v ↔ LeafAt o' p v) (k : String) : (flatten o).get? k = (flatten o').get? k := by
  ext v
  rw [c09_flatten_exact o wf plain, c09_flatten_exact o' wf' plain']
  simp only [same]

private def demoObj : JObj Nat :=
  .leaf "Id" 7 (.sub "author" (.leaf "name" 1 (.sub "address" (.leaf "zip" 2 .nil) .nil)) .nil)

example : demoObj.WF ∧ PlainKeys demoObj ∧ (flatten demoObj).get? "author.address.zip" = some 2 ∧
    LeafAt demoObj ["author", "address", "zip"] 2 := by
  refine ⟨by simp [demoObj, JObj.WF, topKeys], by simp [demoObj, PlainKeys], by decide, ?_⟩
  exact .skipLeaf _ _ _ _ _ (.into _ _ _ _ _ (.skipLeaf _ _ _ _ _ (.into _ _ _ _ _ (.here _ _ _))))

/-! ### C11 -/

/-- **C11** `GetID` formats the value stored under `Id`; it is empty exactly when there is no such key or that value formats
to the empty string; it does not depend on the iteration order. -/
theorem c11_getID (fmtS : A → String) (m : GoMap String A) :
    (∀ v, m.get? "Id" = some v → getID fmtS m = fmtS v) ∧
    (getID fmtS m = "" ↔ m.get? "Id" = none ∨ ∃ v, m.get? "Id" = some v ∧ fmtS v = "") ∧
    (m.WF → ∀ m' : GoMap String A, m.Perm m' → getID fmtS m' = getID fmtS m) := by
  have h : ∀ m : GoMap String A, getID fmtS m = match m.get? "Id" with | some v => fmtS v | none => "" := by
    intro m
    induction m with
    | nil => rfl
    | cons p m ih =>
      obtain ⟨k, v⟩ := p
      simp only [getID, GoMap.get?]
      split
      · rfl
      · exact ih
  refine ⟨fun v hv => by rw [h, hv], ?_, fun wf m' hp => ?_⟩
  · rw [h]; cases m.get? "Id" <;> simp
  · rw [h, h, GoMap.get?_perm wf hp]

/-- C11 through Flatten: with plain keys, the id is the top-level `Id` value. -/
theorem c11_getID_flatten (fmtS : A → String) (o : JObj A) (wf : o.WF) (plain : PlainKeys o) (v : A)
    (h : LeafAt o ["Id"] v) : getID fmtS (flatten o) = fmtS v :=
  (c11_getID fmtS _).1 v ((c09_flatten_exact o wf plain "Id" v).2 ⟨["Id"], h, rfl⟩)

example : LeafAt demoObj ["Id"] 7 := .here _ _ _

end Goir
