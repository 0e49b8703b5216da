import Verif.Model.Types
/-!
# C12: `model.Set` is a set
-/
namespace Goir

/-- a mutating call on a set. -/
inductive SetOp where
  | add (e : String)
  | remove (e : String)
deriving DecidableEq

/-- run one call. -/
def GoSet.applyOp (s : GoSet) : SetOp → GoSet
  | .add e => s.add e
  | .remove e => s.remove e

/-- the element is in the set according to the last call that mentions it. -/
def Spec.inAfter (ops : List SetOp) (x : String) : Prop :=
  ∃ l r, ops = l ++ SetOp.add x :: r ∧ SetOp.remove x ∉ r

private theorem inAfter_snoc (ops : List SetOp) (op : SetOp) (x : String) :
    Spec.inAfter (ops ++ [op]) x ↔ op = .add x ∨ (Spec.inAfter ops x ∧ op ≠ .remove x) := by
  constructor
  · rintro ⟨l, r, h, hr⟩
    rcases List.eq_nil_or_concat r with rfl | ⟨r', y, rfl⟩
    · have := List.append_inj' h (by simp)
      simp only [List.cons.injEq, and_true] at this
      exact Or.inl this.2
    · have h' : ops ++ [op] = (l ++ SetOp.add x :: r') ++ [y] := by simpa using h
      have := List.append_inj' h' (by simp)
      simp only [List.cons.injEq, and_true] at this
      obtain ⟨h1, rfl⟩ := this
      refine Or.inr ⟨⟨l, r', h1, fun hm => hr (by simp [hm])⟩, fun e => hr (by simp [e])⟩
  · rintro (rfl | ⟨⟨l, r, rfl, hr⟩, hn⟩)
    · exact ⟨ops, [], rfl, by simp⟩
    · exact ⟨l, r ++ [op], by simp, by simp [hr, Ne.symm hn]⟩

/-- **C12** after any sequence of `Add`/`Remove` on a new set: membership is decided by the last operation on the element,
`GetData` maps exactly the members to `true`, and `Size` is the number of members. -/
theorem c12_set_semantics (ops : List SetOp) :
    let s := ops.foldl GoSet.applyOp GoSet.new
    (∀ x, s.contains x = true ↔ Spec.inAfter ops x) ∧
    (∀ x b, (GoSet.getData s).get? x = some b ↔ b = true ∧ Spec.inAfter ops x) ∧
    (∃ members : List String, members.Nodup ∧ (∀ x, x ∈ members ↔ Spec.inAfter ops x) ∧ s.size = members.length) := by
  intro s
  -- run the operations from the front, as snoc-lists
  have key : ∀ ops : List SetOp,
      let s := ops.foldl GoSet.applyOp GoSet.new
      GoMap.WF s ∧ ∀ x, GoMap.get? s x = some true ∧ Spec.inAfter ops x ∨ GoMap.get? s x = none ∧ ¬ Spec.inAfter ops x := by
    intro ops
    generalize hr : ops.reverse = rops
    induction rops generalizing ops with
    | nil =>
      have : ops = [] := by simpa using hr
      subst this
      refine ⟨by simp [GoSet.new], fun x => Or.inr ⟨rfl, ?_⟩⟩
      rintro ⟨l, r, h, -⟩; simp at h
    | cons op rops ih =>
      have e : ops = rops.reverse ++ [op] := by
        rw [← List.reverse_reverse ops, hr, List.reverse_cons]
      subst e
      obtain ⟨wf, h⟩ := ih rops.reverse (by simp)
      simp only [List.foldl_append, List.foldl_cons, List.foldl_nil]
      cases op with
      | add e =>
        refine ⟨wf.set _ _, fun x => ?_⟩
        simp only [inAfter_snoc, GoSet.applyOp, GoSet.add, GoMap.get?_set]
        by_cases hx : e = x
        · subst hx; simp
        · simpa [hx] using h x
      | remove e =>
        refine ⟨wf.del _, fun x => ?_⟩
        simp only [inAfter_snoc, GoSet.applyOp, GoSet.remove, GoMap.get?_del]
        by_cases hx : e = x
        · subst hx; simp
        · simpa [hx] using h x
  obtain ⟨wf, h⟩ := key ops
  have hc : ∀ x, s.contains x = true ↔ Spec.inAfter ops x := by
    intro x
    rcases h x with ⟨a, b⟩ | ⟨a, b⟩
    · simp only [GoSet.contains, s, a, b]; simp
    · simp only [GoSet.contains, s, a, b]; simp
  refine ⟨hc, ?_, GoMap.keys s, wf, fun x => by rw [← hc, GoSet.contains_iff_mem_keys], by simp [GoSet.size, GoMap.keys]⟩
  intro x b
  rcases h x with ⟨a1, a2⟩ | ⟨a1, a2⟩
  · simp only [GoSet.getData, s, a1, a2]; simp [eq_comm]
  · simp only [GoSet.getData, s, a1, a2]; simp

example : Spec.inAfter [.add "a", .remove "a", .add "b", .add "a"] "a" ∧
    ¬ Spec.inAfter [.add "a", .remove "a"] "a" := by
  refine ⟨⟨[.add "a", .remove "a", .add "b"], [], rfl, by simp⟩, ?_⟩
  rw [← (c12_set_semantics _).1]; decide

end Goir
