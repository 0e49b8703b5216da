import Verif.Model.LRU
import Mathlib.Data.List.Perm.Subperm
/-! # State lemmas about the LRU cache -/
namespace Goir.LRU
open GoMap
variable {T : Type}

/-- well-formed cache: map, list and elements agree. -/
structure Ok (l : LRU T) : Prop where
  nodup : l.pages.Nodup
  cacheWF : l.cache.WF
  link : ∀ k e, l.cache.get? k = some e ↔ e ∈ l.pages ∧ ∃ v, l.elems.get? e = some (k, v)
  pageOk : ∀ e ∈ l.pages, ∃ p, l.elems.get? e = some p
  fresh : ∀ e ∈ l.pages, e < l.fresh

/-- what the cache holds for a key. -/
def val (l : LRU T) (k : String) : Option T := (l.get k).2

theorem val_eq (l : LRU T) (k : String) : l.val k = (l.cache.get? k).bind fun e => (l.elems.get? e).map Prod.snd := by
  unfold val get
  cases h : l.cache.get? k <;> rfl

theorem ok_new (n : Int) : Ok (new n : LRU T) := by constructor <;> simp [new]

theorem val_new (n : Int) (k : String) : (new n : LRU T).val k = none := by simp [val_eq, new]

theorem mem_mtf {pages : List Nat} {e : Nat} (he : e ∈ pages) (x : Nat) : x ∈ moveToFront pages e ↔ x ∈ pages := by
  simp only [moveToFront, List.mem_cons, List.mem_filter, decide_not, Bool.not_eq_true', decide_eq_false_iff_not, ne_eq]
  by_cases h : x = e
  · subst h; simp [he]
  · simp [h]

theorem nodup_mtf {pages : List Nat} {e : Nat} (h : pages.Nodup) : (moveToFront pages e).Nodup := by
  simp only [moveToFront, List.nodup_cons]
  exact ⟨by simp, h.filter _⟩

theorem length_mtf {pages : List Nat} {e : Nat} (h : pages.Nodup) (he : e ∈ pages) :
    (moveToFront pages e).length = pages.length :=
  ((List.perm_ext_iff_of_nodup (nodup_mtf h) h).2 fun x => mem_mtf he x).length_eq

/-- `Get` changes only the order. -/
theorem get_spec {l : LRU T} (h : Ok l) (k : String) :
    Ok (l.get k).1 ∧ (∀ j, (l.get k).1.val j = l.val j) ∧ (l.get k).1.capacity = l.capacity ∧
      (l.get k).1.pages.length = l.pages.length := by
  unfold get
  cases hc : l.cache.get? k with
  | none => exact ⟨h, fun _ => rfl, rfl, rfl⟩
  | some e =>
    have he := ((h.link k e).1 hc).1
    refine ⟨⟨nodup_mtf h.nodup, h.cacheWF, fun j x => ?_, fun x hx => ?_, fun x hx => ?_⟩, fun j => ?_, rfl, length_mtf h.nodup he⟩
    · show l.cache.get? j = some x ↔ x ∈ moveToFront l.pages e ∧ _
      rw [mem_mtf he]; exact h.link j x
    · exact h.pageOk x ((mem_mtf he x).1 hx)
    · exact h.fresh x ((mem_mtf he x).1 hx)
    · simp [val_eq]

theorem val_isSome {l : LRU T} (h : Ok l) (k : String) : (∃ v, l.val k = some v) ↔ ∃ e, l.cache.get? k = some e := by
  rw [val_eq]
  constructor
  · rintro ⟨v, hv⟩
    cases hc : l.cache.get? k with
    | none => simp [hc] at hv
    | some e => exact ⟨e, rfl⟩
  · rintro ⟨e, he⟩
    obtain ⟨-, v, hv⟩ := (h.link k e).1 he
    exact ⟨v, by simp [he, hv]⟩

theorem val_none {l : LRU T} (h : Ok l) (k : String) : l.val k = none ↔ l.cache.get? k = none := by
  have := val_isSome h k
  rcases hv : l.val k with _ | v <;> rcases hc : l.cache.get? k with _ | e <;> simp [hv, hc] at this ⊢

/-- what `push` of a new key does. -/
theorem push_spec {l : LRU T} (h : Ok l) {k : String} (hk : l.cache.get? k = none) (v : T) :
    Ok (l.push k v) ∧ (l.push k v).val k = some v ∧ (∀ j, j ≠ k → (l.push k v).val j = l.val j) := by
  have hf : l.fresh ∉ l.pages := fun h' => absurd (h.fresh _ h') (by omega)
  have hne : ∀ x ∈ l.pages, ¬ l.fresh = x := fun x hx e => hf (e ▸ hx)
  refine ⟨⟨?_, h.cacheWF.set _ _, ?_, ?_, ?_⟩, ?_, ?_⟩
  · simp only [push, List.nodup_cons]; exact ⟨hf, h.nodup⟩
  · intro k' e
    simp only [push, GoMap.get?_set, List.mem_cons]
    by_cases hkk : k = k'
    · subst hkk
      simp only [if_true, Option.some.injEq]
      constructor
      · rintro rfl; exact ⟨Or.inl rfl, v, by simp⟩
      · rintro ⟨h1 | h1, v', h2⟩
        · exact h1.symm
        · rw [if_neg (hne e h1)] at h2
          have := (h.link k e).2 ⟨h1, v', h2⟩
          rw [hk] at this; simp at this
    · simp only [hkk, if_false]
      rw [h.link]
      constructor
      · rintro ⟨h1, v', h2⟩
        exact ⟨Or.inr h1, v', by rw [if_neg (hne e h1)]; exact h2⟩
      · rintro ⟨h1 | h1, v', h2⟩
        · subst h1; simp [hkk] at h2
        · rw [if_neg (hne e h1)] at h2; exact ⟨h1, v', h2⟩
  · intro e he
    simp only [push, List.mem_cons] at he
    simp only [push, GoMap.get?_set]
    rcases he with rfl | he
    · exact ⟨(k, v), by simp⟩
    · rw [if_neg (hne e he)]; exact h.pageOk e he
  · intro e he
    simp only [push, List.mem_cons] at he ⊢
    rcases he with rfl | he
    · omega
    · have := h.fresh e he; omega
  · simp [val_eq, push]
  · intro j hj
    simp only [val_eq, push, GoMap.get?_set]
    rw [if_neg (Ne.symm hj)]
    cases hc : l.cache.get? j with
    | none => rfl
    | some e => simp only [Option.bind_some]; rw [if_neg (hne e ((h.link j e).1 hc).1)]

/-- what evicting does: the oldest key goes. -/
theorem evict_spec {l l' : LRU T} (h : Ok l) (he : l.evict = some l') :
    Ok l' ∧ l'.capacity = l.capacity ∧ ∃ k v, l.val k = some v ∧ l'.val k = none ∧ ∀ j, j ≠ k → l'.val j = l.val j := by
  unfold evict at he
  split at he
  · cases he
  · rename_i back hb
    split at he
    · cases he
    · rename_i page hp
      cases he
      obtain ⟨k, v⟩ := page
      obtain ⟨init, hi⟩ := List.getLast?_eq_some_iff.1 hb
      have hdl : l.pages.dropLast = init := by rw [hi]; simp
      have hmem : ∀ x, x ∈ l.pages ↔ x ∈ init ∨ x = back := by intro x; rw [hi]; simp
      have hnd := h.nodup
      rw [hi] at hnd
      have hbi : back ∉ init := by
        intro hx
        exact (List.nodup_append.1 hnd).2.2 back hx back (by simp) rfl
      have hkb : l.cache.get? k = some back := (h.link k back).2 ⟨(hmem back).2 (.inr rfl), v, hp⟩
      have hok : Ok ({ l with cache := l.cache.del k, pages := l.pages.dropLast, elems := l.elems.del back } : LRU T) := by
        refine ⟨?_, h.cacheWF.del _, ?_, ?_, ?_⟩
        · show l.pages.dropLast.Nodup
          rw [hdl]; exact (List.nodup_append.1 hnd).1
        · intro j e
          show (l.cache.del k).get? j = some e ↔ e ∈ l.pages.dropLast ∧ ∃ v, (l.elems.del back).get? e = some (j, v)
          rw [hdl, get?_del]
          simp only [get?_del]
          by_cases hj : k = j
          · subst hj
            simp only [if_true]
            constructor
            · intro hx; cases hx
            · rintro ⟨h1, w, h2⟩
              split at h2
              · cases h2
              · have := (h.link k e).2 ⟨(hmem e).2 (.inl h1), w, h2⟩
                rw [hkb] at this
                rename_i hn
                exact absurd (Option.some.inj this) hn
          · simp only [hj, if_false]
            rw [h.link j e, hmem]
            constructor
            · rintro ⟨h1 | h1, w, h2⟩
              · have : ¬ back = e := by rintro rfl; exact hbi h1
                exact ⟨h1, w, by rw [if_neg this]; exact h2⟩
              · subst h1
                rw [hp] at h2
                exact absurd (congrArg Prod.fst (Option.some.inj h2)) hj
            · rintro ⟨h1, w, h2⟩
              split at h2
              · cases h2
              · exact ⟨.inl h1, w, h2⟩
        · intro e he
          have he : e ∈ l.pages.dropLast := he
          rw [hdl] at he
          have : ¬ back = e := by rintro rfl; exact hbi he
          show ∃ p, (l.elems.del back).get? e = some p
          rw [get?_del, if_neg this]
          exact h.pageOk e ((hmem e).2 (.inl he))
        · intro e he
          have he : e ∈ l.pages.dropLast := he
          rw [hdl] at he
          exact h.fresh e ((hmem e).2 (.inl he))
      refine ⟨hok, rfl, k, v, by simp [val_eq, hkb, hp], ?_, ?_⟩
      · rw [val_none hok]; show (l.cache.del k).get? k = none; simp [get?_del]
      · intro j hj
        simp only [val_eq, get?_del]
        rw [if_neg (Ne.symm hj)]
        cases hc : l.cache.get? j with
        | none => rfl
        | some e =>
          simp only [Option.bind_some]
          have : ¬ back = e := by
            rintro rfl
            obtain ⟨-, w, hw⟩ := (h.link j back).1 hc
            rw [hp] at hw
            exact hj (congrArg Prod.fst (Option.some.inj hw)).symm
          rw [if_neg this]

/-- what `Put` does: one other key at most disappears, and only when the cache is full and the key is new. -/
theorem put_spec {l l' : LRU T} (h : Ok l) {k : String} {v : T} (hp : l.put k v = some l') :
    Ok l' ∧ l'.capacity = l.capacity ∧ l'.val k = some v ∧
      ((∀ j, j ≠ k → l'.val j = l.val j) ∨
       (l.val k = none ∧ (l.pages.length : Int) ≥ l.capacity ∧ ∃ e w, e ≠ k ∧ l.val e = some w ∧ l'.val e = none ∧
          ∀ j, j ≠ k → j ≠ e → l'.val j = l.val j)) := by
  unfold put at hp
  split at hp
  · rename_i elem hc
    cases hp
    obtain ⟨he, w, hw⟩ := (h.link k elem).1 hc
    have hne : ∀ j e, j ≠ k → l.cache.get? j = some e → ¬ elem = e := by
      rintro j e hj hce rfl
      obtain ⟨-, w', hw'⟩ := (h.link j elem).1 hce
      rw [hw] at hw'
      exact hj (congrArg Prod.fst (Option.some.inj hw')).symm
    refine ⟨⟨nodup_mtf h.nodup, h.cacheWF, fun j e => ?_, fun e hx => ?_, fun e hx => ?_⟩, rfl, ?_, .inl fun j hj => ?_⟩
    · show l.cache.get? j = some e ↔ e ∈ moveToFront l.pages elem ∧ ∃ v', (l.elems.set elem (k, v)).get? e = some (j, v')
      rw [mem_mtf he, h.link j e]
      simp only [get?_set]
      by_cases hx : elem = e
      · subst hx
        simp only [if_true, Option.some.injEq, Prod.mk.injEq]
        constructor
        · rintro ⟨h1, w', h2⟩
          rw [hw] at h2
          exact ⟨h1, v, (congrArg Prod.fst (Option.some.inj h2)), rfl⟩
        · rintro ⟨h1, w', h2, h3⟩
          subst h2
          exact ⟨h1, w, hw⟩
      · simp [hx]
    · have hx := (mem_mtf he e).1 hx
      show ∃ p, (l.elems.set elem (k, v)).get? e = some p
      rw [get?_set]; split
      · exact ⟨_, rfl⟩
      · exact h.pageOk e hx
    · exact h.fresh e ((mem_mtf he e).1 hx)
    · simp [val_eq, hc]
    · simp only [val_eq, get?_set]
      cases hcj : l.cache.get? j with
      | none => rfl
      | some e => simp only [Option.bind_some]; rw [if_neg (hne j e hj hcj)]
  · rename_i hc
    have hvk : l.val k = none := (val_none h k).2 hc
    split at hp
    · rename_i hfull
      cases hev : l.evict with
      | none => rw [hev] at hp; cases hp
      | some l1 =>
        rw [hev] at hp; cases hp
        obtain ⟨h1, h2, e, w, h3, h4, h5⟩ := evict_spec h hev
        have hek : e ≠ k := by rintro rfl; rw [hvk] at h3; cases h3
        have hk1 : l1.cache.get? k = none := by rw [← val_none h1, h5 k (Ne.symm hek)]; exact hvk
        obtain ⟨g1, g2, g3⟩ := push_spec h1 hk1 v
        refine ⟨g1, h2, g2, .inr ⟨hvk, hfull, e, w, hek, h3, ?_, ?_⟩⟩
        · rw [g3 e hek]; exact h4
        · intro j hj hje; rw [g3 j hj, h5 j hje]
    · cases hp
      obtain ⟨g1, g2, g3⟩ := push_spec h hc v
      exact ⟨g1, rfl, g2, .inl g3⟩

/-- `Put` can only fail on a full empty cache, i.e. with capacity 0 or less. -/
theorem put_some {l : LRU T} (h : Ok l) (hc : 1 ≤ l.capacity) (k : String) (v : T) : ∃ l', l.put k v = some l' := by
  unfold put
  split
  · exact ⟨_, rfl⟩
  · split
    · rename_i hfull
      have hne : l.pages ≠ [] := by
        intro e; rw [e] at hfull; simp at hfull; omega
      obtain ⟨p, hp⟩ := h.pageOk _ (List.getLast_mem hne)
      have hg : l.pages.getLast? = some (l.pages.getLast hne) := List.getLast?_eq_some_getLast hne
      have : ∃ l1, l.evict = some l1 := by unfold evict; rw [hg]; simp only [hp]; exact ⟨_, rfl⟩
      obtain ⟨l1, h1⟩ := this
      exact ⟨_, by rw [h1]; rfl⟩
    · exact ⟨_, rfl⟩

/-- the number of pages is the number of cached keys: it is at most the size of any list containing all of them. -/
theorem pages_le {l : LRU T} (h : Ok l) (ks : List String) (hk : ∀ k v, l.val k = some v → k ∈ ks) :
    l.pages.length ≤ ks.length := by
  let key := fun e => ((l.elems.get? e).map Prod.fst).getD ""
  have hkey : ∀ e ∈ l.pages, l.cache.get? (key e) = some e := by
    intro e he
    obtain ⟨⟨k, v⟩, hp⟩ := h.pageOk e he
    have : key e = k := by simp [key, hp]
    rw [this]; exact (h.link k e).2 ⟨he, v, hp⟩
  have hnd : (l.pages.map key).Nodup := by
    rw [List.nodup_iff_pairwise_ne, List.pairwise_map]
    refine List.Pairwise.imp_of_mem ?_ (List.nodup_iff_pairwise_ne.1 h.nodup)
    intro a b ha hb hab e
    have h1 := hkey a ha
    rw [e, hkey b hb] at h1
    exact hab (Option.some.inj h1).symm
  have hsub : ∀ x ∈ l.pages.map key, x ∈ ks := by
    intro x hx
    obtain ⟨e, he, rfl⟩ := List.mem_map.1 hx
    obtain ⟨v, hv⟩ := (val_isSome h (key e)).2 ⟨e, hkey e he⟩
    exact hk _ v hv
  have := (List.subperm_of_subset hnd hsub).length_le
  simpa using this

end Goir.LRU
