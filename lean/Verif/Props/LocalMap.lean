import Verif.Spec.LocalMap
import Mathlib.Data.List.Induction
/-!
# C133: what the pointers of a LocalMap show
-/
namespace Goir
open Spec

namespace LHeap
variable {T α : Type}

theorem snoc_split {E : Type} {h a b : List E} {e x : E} : h ++ [e] = a ++ x :: b ↔ (b = [] ∧ a = h ∧ x = e) ∨ ∃ b', b = b' ++ [e] ∧ h = a ++ x :: b' := by
  constructor
  · intro H
    rcases List.eq_nil_or_concat b with rfl | ⟨b', y, rfl⟩
    · have := List.append_inj' H rfl
      exact .inl ⟨rfl, this.1.symm, by simpa using this.2.symm⟩
    · rw [List.concat_eq_append, ← List.cons_append, ← List.append_assoc] at H
      have := List.append_inj' H rfl
      have e1 : e = y := by simpa using this.2
      subst e1
      exact .inr ⟨b', by simp, this.1⟩
  · rintro (⟨rfl, rfl, rfl⟩ | ⟨b', rfl, rfl⟩)
    · rfl
    · simp

theorem lastOf_snoc {P : List (LEv T) → LEv T → α → Prop} {h : List (LEv T)} {e : LEv T} {x : α} :
    LastOf P (h ++ [e]) x ↔ P h e x ∨ (LastOf P h x ∧ ∀ y, ¬ P h e y) := by
  constructor
  · rintro ⟨a, e', b, H, hp, hn⟩
    rcases snoc_split.1 H with ⟨rfl, rfl, rfl⟩ | ⟨b', rfl, rfl⟩
    · exact .inl hp
    · refine .inr ⟨⟨a, e', b', rfl, hp, ?_⟩, fun y => hn b' e [] y rfl⟩
      intro b₁ e'' b₂ y hb
      exact hn b₁ e'' (b₂ ++ [e]) y (by rw [hb]; simp)
  · rintro (hp | ⟨⟨a, e', b, rfl, hp, hn⟩, hne⟩)
    · exact ⟨h, e, [], rfl, hp, fun b₁ e' b₂ y hb => by simp at hb⟩
    · refine ⟨a, e', b ++ [e], by simp, hp, ?_⟩
      intro b₁ e'' b₂ y hb
      rcases snoc_split.1 hb with ⟨-, rfl, rfl⟩ | ⟨b', -, rfl⟩
      · exact hne y
      · exact hn b₁ e'' b' y rfl

theorem lastOf_nil {P : List (LEv T) → LEv T → α → Prop} {x : α} : ¬ LastOf P [] x := by
  rintro ⟨a, e, b, H, -⟩
  simp at H

theorem got_snoc {h : List (LEv T)} {e : LEv T} {n j : Nat} : Got (h ++ [e]) n j ↔ Got h n j ∨ ∃ k, e = .get k ∧ gets h = n ∧ LastSet h k j := by
  constructor
  · rintro ⟨a, k, b, H, hp, hl⟩
    rcases snoc_split.1 H with ⟨rfl, rfl, rfl⟩ | ⟨b', rfl, rfl⟩
    · exact .inr ⟨k, rfl, hp, hl⟩
    · exact .inl ⟨a, k, b', rfl, hp, hl⟩
  · rintro (⟨a, k, b, rfl, hp, hl⟩ | ⟨k, rfl, hp, hl⟩)
    · exact ⟨a, k, b ++ [e], by simp, hp, hl⟩
    · exact ⟨h, k, [], rfl, hp, hl⟩

/-- the state of the map and the history. -/
structure Inv (h : List (LEv T)) (s : LHeap T) : Prop where
  cells : s.cells.length = sets h
  held : s.held.length = gets h
  store : ∀ k j, s.store.get? k = some j ↔ LastSet h k j
  got : ∀ n j, s.held[n]? = some (some j) ↔ Got h n j
  holds : ∀ j v, s.cells[j]? = some v ↔ Holds h j v

theorem inv_init : Inv ([] : List (LEv T)) {} := by
  refine ⟨rfl, rfl, fun k j => ?_, fun n j => ?_, fun j v => ?_⟩
  · exact ⟨fun e => (by cases e), fun e => absurd e lastOf_nil⟩
  · refine ⟨fun e => (by simp at e), ?_⟩
    rintro ⟨a, k, b, H, -⟩
    simp at H
  · exact ⟨fun e => (by simp at e), fun e => absurd e lastOf_nil⟩

theorem got_lt {h : List (LEv T)} {s : LHeap T} (i : Inv h s) {n j : Nat} (g : Got h n j) : n < gets h := by
  have := (i.got n j).2 g
  have := (List.getElem?_eq_some_iff.1 this).1
  rwa [i.held] at this

theorem lastSet_lt {h : List (LEv T)} : ∀ {k : String} {j : Nat}, LastSet h k j → j < sets h := by
  rintro k j ⟨a, e, b, rfl, ⟨⟨v, rfl⟩, rfl⟩, -⟩
  simp [sets, List.countP_append]

theorem inv_step {h : List (LEv T)} {s s' : LHeap T} {e : LEv T} (i : Inv h s) (he : s.exec e = some s') : Inv (h ++ [e]) s' := by
  cases e with
  | set k v =>
    simp only [exec, Option.some.injEq] at he
    subst he
    refine ⟨by simp [i.cells, sets], by simp [i.held, gets], ?_, ?_, ?_⟩
    · intro k' j
      simp only [LastSet, lastOf_snoc, GoMap.get?_set]
      by_cases hk : k = k'
      · subst hk
        simp [i.cells, eq_comm]
      · have := i.store k' j
        simp only [LastSet] at this
        simp [hk, this]
    · intro n j
      rw [got_snoc, i.got]
      simp
    · intro j w
      simp only [Holds, lastOf_snoc]
      have := i.holds j w
      simp only [Holds] at this
      rw [← this]
      simp only [Puts, LEv.set.injEq, reduceCtorEq, false_and, exists_false, or_false]
      by_cases hj : j = s.cells.length
      · subst hj
        simp [i.cells]
      · have h2 : (s.cells ++ [v])[j]? = s.cells[j]? := by
          rcases Nat.lt_or_gt_of_ne hj with hl | hl
          · rw [List.getElem?_append_left hl]
          · rw [List.getElem?_eq_none (by simp; omega), List.getElem?_eq_none (by omega)]
        rw [h2]
        have h3 : sets h ≠ j := by rw [← i.cells]; exact Ne.symm hj
        simp [h3]
  | get k =>
    simp only [exec, Option.some.injEq] at he
    subst he
    refine ⟨by simp [i.cells, sets], by simp [i.held, gets], ?_, ?_, ?_⟩
    · intro k' j
      simp only [LastSet, lastOf_snoc]
      have := i.store k' j
      simp only [LastSet] at this
      simp [this]
    · intro n j
      rw [got_snoc, ← i.got]
      by_cases hj : n = s.held.length
      · subst hj
        simp [i.held, ← i.store]
      · have h2 : (s.held ++ [s.store.get? k])[n]? = s.held[n]? := by
          rcases Nat.lt_or_gt_of_ne hj with hl | hl
          · rw [List.getElem?_append_left hl]
          · rw [List.getElem?_eq_none (by simp; omega), List.getElem?_eq_none (by omega)]
        have h3 : gets h ≠ n := by rw [← i.held]; exact Ne.symm hj
        simp [h2, h3]
    · intro j w
      simp only [Holds, lastOf_snoc]
      have := i.holds j w
      simp only [Holds] at this
      simp [this, Puts]
  | write n v =>
    simp only [exec] at he
    split at he
    · rename_i p hp
      cases he
      have hg := (i.got n p).1 hp
      refine ⟨by simp [i.cells, sets], by simp [i.held, gets], ?_, ?_, ?_⟩
      · intro k' j
        simp only [LastSet, lastOf_snoc]
        have := i.store k' j
        simp only [LastSet] at this
        simp [this]
      · intro m j
        rw [got_snoc, i.got]
        simp
      · intro j w
        simp only [Holds, lastOf_snoc]
        have := i.holds j w
        simp only [Holds] at this
        rw [← this]
        simp only [Puts, reduceCtorEq, exists_false, false_and, false_or, LEv.write.injEq]
        have hb : p < s.cells.length := by
          rw [i.cells]
          obtain ⟨a, k, b, rfl, -, hl⟩ := hg
          have := lastSet_lt hl
          simp only [sets, List.countP_append] at this ⊢
          omega
        by_cases hj : p = j
        · subst hj
          simp only [List.getElem?_set_self hb, Option.some.injEq]
          constructor
          · rintro rfl; exact .inl ⟨n, ⟨rfl, rfl⟩, hg⟩
          · rintro (⟨m, ⟨rfl, rfl⟩, -⟩ | ⟨-, hne⟩)
            · rfl
            · exact absurd ⟨n, ⟨rfl, rfl⟩, hg⟩ (hne v)
        · rw [List.getElem?_set_ne hj]
          have hno : ∀ w', ¬ ∃ m, (n = m ∧ v = w') ∧ Got h m j := by
            rintro w' ⟨m, ⟨rfl, -⟩, g⟩
            have := (i.got n j).2 g
            rw [hp] at this
            cases this
            exact hj rfl
          constructor
          · intro e; exact .inr ⟨e, hno⟩
          · rintro (e | ⟨e, -⟩)
            · exact absurd e (hno w)
            · exact e
    · cases he

theorem run_snoc {h : List (LEv T)} {e : LEv T} : run (h ++ [e]) = (run h).bind fun s => s.exec e := by
  simp only [run, List.foldlM_append, List.foldlM_cons, List.foldlM_nil]
  cases List.foldlM exec ({} : LHeap T) h with
  | none => rfl
  | some s => exact bind_pure (s.exec e)

theorem inv_run (h : List (LEv T)) : ∀ {s : LHeap T}, run h = some s → Inv h s := by
  induction h using List.reverseRecOn with
  | nil => intro s e; cases e; exact inv_init
  | append_singleton h e ih =>
    intro s hr
    rw [run_snoc] at hr
    cases hs : run h with
    | none => rw [hs] at hr; cases hr
    | some s₁ => rw [hs] at hr; exact inv_step (ih hs) hr

/-- **C133, what a pointer shows.** After every history of calls of `Set` and `Get` and of writes through pointers: the pointer that call number `n` of `Get` has returned shows `v` exactly if its key had been set
before that call, and `v` is what was put last into the variable that the last of these `Set`s made, by this `Set` or through any pointer to it. -/
theorem c133_pointer {h : List (LEv T)} {s : LHeap T} (hr : run h = some s) (n : Nat) (v : T) : s.deref n = some v ↔ ∃ j, Got h n j ∧ Holds h j v := by
  have i := inv_run h hr
  simp only [← i.got, ← i.holds, deref]
  split
  · rename_i p hp
    rw [hp]
    exact ⟨fun e => ⟨p, rfl, e⟩, fun ⟨j, e, e'⟩ => (by cases e; exact e')⟩
  · rename_i hno
    exact ⟨fun e => (by cases e), fun ⟨j, e, _⟩ => absurd e (hno j)⟩

/-- **C133, what Get returns**: the variable of the last `Set` of the key, with what was put into it last; nil exactly if the key was never set. -/
theorem c133_get {h : List (LEv T)} {s : LHeap T} (hr : run h = some s) (k : String) :
    (∀ v, s.value k = some v ↔ ∃ j, LastSet h k j ∧ Holds h j v) ∧ (s.value k = none ↔ ∀ v, LEv.set k v ∉ h) := by
  have i := inv_run h hr
  have h1 : ∀ v, s.value k = some v ↔ ∃ j, LastSet h k j ∧ Holds h j v := by
    intro v
    simp only [← i.store, ← i.holds, value]
    split
    · rename_i p hp
      rw [hp]
      exact ⟨fun e => ⟨p, rfl, e⟩, fun ⟨j, e, e'⟩ => (by cases e; exact e')⟩
    · rename_i hno
      rw [hno]
      exact ⟨fun e => (by cases e), fun ⟨j, e, _⟩ => (by cases e)⟩
  refine ⟨h1, ?_⟩
  have h2 : ∀ h' : List (LEv T), (∀ v, LEv.set k v ∉ h') ↔ ∀ j, ¬ LastSet h' k j := by
    intro h'
    induction h' using List.reverseRecOn with
    | nil => exact ⟨fun _ _ => lastOf_nil, fun _ _ => by simp⟩
    | append_singleton h' e ih =>
      simp only [LastSet, lastOf_snoc, List.mem_append, List.mem_singleton, not_or]
      constructor
      · intro H j
        refine ⟨fun ⟨⟨v, e'⟩, _⟩ => (H v).2 e'.symm, fun ⟨g, _⟩ => (ih.1 fun v => (H v).1) j g⟩
      · intro H v
        have hne : ∀ v, LEv.set k v ≠ e := fun v e' => (H (sets h')).1 ⟨⟨v, e'.symm⟩, rfl⟩
        refine ⟨ih.2 (fun j g => (H j).2 ⟨g, ?_⟩) v, hne v⟩
        rintro y ⟨⟨v', e'⟩, -⟩
        exact hne v' e'.symm
  rw [h2]
  simp only [← i.store, value]
  cases hg : s.store.get? k with
  | none => simp
  | some p =>
    have hb : p < s.cells.length := by rw [i.cells]; exact lastSet_lt ((i.store k p).1 hg)
    simp [List.getElem?_eq_getElem hb]

/-- **C133, which programs panic**: exactly those that write through a pointer of a `Get` that found nothing. (Or that use a pointer before they have it, which no Go program can.) -/
theorem c133_panics (h : List (LEv T)) : (run h).isSome = true ↔ ∀ a n v b, h = a ++ .write n v :: b → ∃ j, Got a n j := by
  induction h using List.reverseRecOn with
  | nil => exact ⟨fun _ a n v b e => (by simp at e), fun _ => rfl⟩
  | append_singleton h e ih =>
    rw [run_snoc]
    cases hs : run h with
    | none =>
      rw [hs] at ih
      simp only [Option.bind_none, Option.isSome_none, Bool.false_eq_true, false_iff] at ih ⊢
      intro H
      exact ih fun a n v b e' => H a n v (b ++ [e]) (by rw [e']; simp)
    | some s =>
      rw [hs] at ih
      have i := inv_run h hs
      have ok := ih.1 rfl
      rw [Option.bind_some]
      constructor
      · intro hx a n v b H
        rcases snoc_split.1 H with ⟨rfl, rfl, rfl⟩ | ⟨b', rfl, rfl⟩
        · simp only [exec] at hx
          split at hx
          · rename_i p hp
            exact ⟨p, (i.got n p).1 hp⟩
          · cases hx
        · exact ok a n v b' rfl
      · intro H
        cases e with
        | set k v => rfl
        | get k => rfl
        | write n v =>
          obtain ⟨j, g⟩ := H h n v [] rfl
          simp only [exec, (i.got n j).2 g, Option.isSome_some]

/-- **C133, Set leaves pointers alone**: whatever is set or asked for later, also under the same key, a pointer that was returned shows what it showed, as long as nobody writes through a pointer. -/
theorem c133_kept {h more : List (LEv T)} {s s' : LHeap T} (hr : run h = some s) (hr' : run (h ++ more) = some s') (hw : ∀ n v, LEv.write n v ∉ more) {n : Nat} {v : T} (hv : s.deref n = some v) :
    s'.deref n = some v := by
  induction more using List.reverseRecOn generalizing s' with
  | nil => rw [List.append_nil, hr] at hr'; cases hr'; exact hv
  | append_singleton more e ih =>
    rw [← List.append_assoc] at hr'
    have hr'' := hr'
    rw [run_snoc] at hr'
    cases hs : run (h ++ more) with
    | none => rw [hs] at hr'; cases hr'
    | some s₁ =>
      have hv' := ih hs (fun n v hm => hw n v (List.mem_append_left _ hm))
      rw [c133_pointer hs] at hv'
      rw [c133_pointer hr'']
      obtain ⟨j, g, l⟩ := hv'
      refine ⟨j, got_snoc.2 (.inl g), lastOf_snoc.2 (.inr ⟨l, ?_⟩)⟩
      rintro y (⟨-, e'⟩ | ⟨m, rfl, -⟩)
      · obtain ⟨a, k, b, hm, -, hl⟩ := g
        have := lastSet_lt hl
        rw [hm] at e'
        simp only [sets, List.countP_append] at this e'
        omega
      · exact hw m y (by simp)

theorem lastSet_unique {h : List (LEv T)} {k k' : String} {j : Nat} (g : LastSet h k j) (g' : LastSet h k' j) : k = k' := by
  induction h using List.reverseRecOn with
  | nil => exact absurd g lastOf_nil
  | append_singleton h e ih =>
    rcases lastOf_snoc.1 g with ⟨⟨v, e1⟩, e2⟩ | ⟨g1, -⟩ <;> rcases lastOf_snoc.1 g' with ⟨⟨v', e3⟩, e4⟩ | ⟨g2, -⟩
    · rw [e1] at e3; cases e3; rfl
    · exact absurd (lastSet_lt g2) (by omega)
    · exact absurd (lastSet_lt g1) (by omega)
    · exact ih g1 g2

/-- **C133, keys do not share**: a write through a pointer that a `Get` of one key has returned does not change what `Get` of another key shows. -/
theorem c133_other_keys {a b : List (LEv T)} {k k' : String} {v : T} {s s' : LHeap T} (hk : k ≠ k') (hr : run (a ++ .get k :: b) = some s) (hr' : run ((a ++ .get k :: b) ++ [.write (gets a) v]) = some s') :
    s'.value k' = s.value k' := by
  have i := inv_run _ hr
  have hx := hr'
  rw [run_snoc, hr, Option.bind_some] at hx
  simp only [exec] at hx
  split at hx
  · rename_i p hp
    cases hx
    simp only [value]
    cases hs : s.store.get? k' with
    | none => rfl
    | some q =>
      dsimp only
      refine List.getElem?_set_ne ?_
      rintro rfl
      obtain ⟨a', k₁, b', H, hg, hl⟩ := (i.got _ _).1 hp
      -- the two splits are the same
      have key : k₁ = k := by
        rcases List.append_eq_append_iff.1 H with ⟨c, e1, e2⟩ | ⟨c, e1, e2⟩
        · cases c with
          | nil => simp at e2; exact e2.1.symm
          | cons x c =>
            simp only [List.cons_append, List.cons.injEq] at e2
            rw [e1, ← e2.1] at hg
            simp [gets, List.countP_append] at hg
        · cases c with
          | nil => simp at e2; exact e2.1
          | cons x c =>
            simp only [List.cons_append, List.cons.injEq] at e2
            rw [e1, ← e2.1] at hg
            simp [gets, List.countP_append] at hg
      subst key
      have hl' := (i.store k' p).1 hs
      -- variable p was made by a Set of k', and by one of k
      have mk : ∀ {h : List (LEv T)} {k j}, LastSet h k j → ∃ a v b, h = a ++ .set k v :: b ∧ sets a = j := by
        rintro h k j ⟨a, e, b, rfl, ⟨⟨v, rfl⟩, hj⟩, -⟩
        exact ⟨a, v, b, rfl, hj⟩
      obtain ⟨x, w, y, e1, e2⟩ := mk hl
      obtain ⟨x', w', y', e1', e2'⟩ := mk hl'
      rw [H, e1, List.append_assoc, List.cons_append] at e1'
      rcases List.append_eq_append_iff.1 e1' with ⟨c, f1, f2⟩ | ⟨c, f1, f2⟩
      · cases c with
        | nil => simp at f2; exact hk f2.1.1
        | cons z c =>
          simp only [List.cons_append, List.cons.injEq] at f2
          rw [f1, ← f2.1] at e2'
          simp [sets, List.countP_append] at e2' e2
          omega
      · cases c with
        | nil => simp at f2; exact hk f2.1.1.symm
        | cons z c =>
          simp only [List.cons_append, List.cons.injEq] at f2
          rw [f1, ← f2.1] at e2
          simp [sets, List.countP_append] at e2' e2
          omega
  · cases hx

/-- **C133, the limit that the statement names**: an update made through a pointer is lost if somebody has set the key since the pointer was returned, whatever the history. -/
theorem c133_update_lost_refuted (h : List (LEv T)) (k : String) (u v : T) {s s' : LHeap T} (hr : run (h ++ [.get k, .set k u]) = some s) (hr' : run (h ++ [.get k, .set k u] ++ [.write (gets h) v]) = some s') :
    s'.value k = some u := by
  have split : h ++ [LEv.get k, .set k u] = (h ++ [.get k]) ++ [.set k u] := by simp
  have hl : LastSet (h ++ [.get k, .set k u]) k (sets (h ++ [.get k])) := by
    rw [split]; exact lastOf_snoc.2 (.inl ⟨⟨u, rfl⟩, rfl⟩)
  have hh : Holds (h ++ [.get k, .set k u]) (sets (h ++ [.get k])) u := by
    rw [split]; exact lastOf_snoc.2 (.inl (.inl ⟨⟨k, rfl⟩, rfl⟩))
  have i := inv_run _ hr
  refine ((c133_get hr' k).1 u).2 ⟨_, lastOf_snoc.2 (.inr ⟨hl, ?_⟩), lastOf_snoc.2 (.inr ⟨hh, ?_⟩)⟩
  · rintro y ⟨⟨w, e⟩, -⟩; cases e
  · rintro y (⟨⟨w, e⟩, -⟩ | ⟨m, e, g⟩)
    · cases e
    · cases e
      have g1 := got_snoc.1 (split ▸ g)
      rcases g1 with g1 | ⟨_, e, -⟩
      · obtain ⟨a, k', b, H, hg, hl'⟩ := g1
        have := lastSet_lt hl'
        have e2 : sets (h ++ [LEv.get k]) = sets a + sets (LEv.get k' :: b) := by rw [H]; simp [sets, List.countP_append]
        omega
      · cases e

/-- **C133, GetData hands out the map itself**: whoever called it at any time finds in it now exactly the keys that have been set until now, and under each the address that `Get` returns now. -/
theorem c133_live {h : List (LEv T)} {s s' : LHeap T} (hr : run h = some s) (k : String) (he : s.exec (.get k) = some s') :
    ((s.getData.get? k).isSome = true ↔ ∃ v, LEv.set k v ∈ h) ∧ s'.held[gets h]? = some (s.getData.get? k) := by
  have i := inv_run h hr
  constructor
  · have h1 := (c133_get hr k).2
    have h2 : s.value k = none ↔ s.store.get? k = none := by
      simp only [value]
      cases hg : s.store.get? k with
      | none => simp
      | some p =>
        have hb : p < s.cells.length := by rw [i.cells]; exact lastSet_lt ((i.store k p).1 hg)
        simp [List.getElem?_eq_getElem hb]
    rw [h2] at h1
    rw [getData, ← not_iff_not]
    simpa using h1
  · simp only [exec, Option.some.injEq] at he
    subst he
    simp [getData, ← i.held]

end LHeap

/-- a key that is set, asked for, set again and written through the old pointer; another key that is written through its pointer. -/
def pointerRun : List (LEv Nat) := [.set "z" 0, .set "a" 1, .get "a", .set "b" 5, .get "b", .set "a" 2, .write 0 7, .write 1 6, .get "a", .get "c"]

example : ∃ s, LHeap.run pointerRun = some s ∧ s.value "a" = some 2 ∧ s.value "b" = some 6 ∧ s.value "c" = none ∧ s.deref 0 = some 7 ∧ s.deref 1 = some 6 ∧ s.deref 2 = some 2 ∧ s.deref 3 = none ∧
    (s.exec (.write 3 1)).isSome = false :=
  ⟨_, rfl, by decide, by decide, by decide, by decide, by decide, by decide, by decide, by decide⟩

end Goir
