import Verif.Spec.Ring
/-!
# C49, C50: the linked list under the LRU cache
-/
namespace Goir
open Spec
namespace PList

private theorem linked_congr {h h' : PList} : ∀ (L : List Nat), (∀ a ∈ L.dropLast, h'.next a = h.next a) →
    (∀ b ∈ L.tail, h'.prev b = h.prev b) → Linked h L → Linked h' L := by
  intro L
  induction L with
  | nil => simp [Linked]
  | cons a L ih =>
    cases L with
    | nil => simp [Linked]
    | cons b r =>
      intro hn hp hl
      simp only [Linked] at hl ⊢
      refine ⟨by rw [hn a (by simp)]; exact hl.1, by rw [hp b (by simp)]; exact hl.2.1, ih ?_ ?_ hl.2.2⟩
      · intro x hx; exact hn x (by simp only [List.dropLast_cons₂, List.mem_cons]; exact Or.inr hx)
      · intro x hx; exact hp x (by simp only [List.tail_cons] at hx ⊢; exact List.mem_cons_of_mem _ hx)

private theorem linked_append (h : PList) (a : Nat) : ∀ (X Y : List Nat),
    Linked h (X ++ a :: Y) ↔ Linked h (X ++ [a]) ∧ Linked h (a :: Y) := by
  intro X
  induction X with
  | nil => intro Y; simp [Linked]
  | cons x X ih =>
    intro Y
    cases X with
    | nil => simp [Linked, and_assoc]
    | cons y X =>
      have := ih Y
      simp only [List.cons_append] at this ⊢
      simp only [Linked, this, and_assoc]

/-- unlinking `e` between `p` and `n`. -/
private theorem linked_unlink {h : PList} {X Y : List Nat} {p e n : Nat}
    (hl : Linked h (X ++ p :: e :: n :: Y))
    (hpX : p ∉ X) (hpY : p ∉ (n :: Y).dropLast) (hnX : n ∉ (X ++ [p]).tail) (hnY : n ∉ Y) :
    Linked { h with next := upd h.next p (some n), prev := upd h.prev n (some p) } (X ++ p :: n :: Y) := by
  rw [linked_append] at hl ⊢
  obtain ⟨h1, h2⟩ := hl
  simp only [Linked] at h2
  constructor
  · refine linked_congr _ ?_ ?_ h1
    · intro a ha; simp only [List.dropLast_concat] at ha
      simp only [upd]; rw [if_neg]; rintro rfl; exact hpX ha
    · intro b hb
      simp only [upd]; rw [if_neg]; rintro rfl; exact hnX hb
  · simp only [Linked, upd, if_true, true_and]
    refine linked_congr _ ?_ ?_ h2.2.2.2.2
    · intro a ha; simp only [upd]; rw [if_neg]; rintro rfl; exact hpY ha
    · intro b hb; simp only [List.tail_cons] at hb; simp only [upd]; rw [if_neg]; rintro rfl; exact hnY hb

/-- linking `e` after the root. -/
private theorem linked_insert {h h' : PList} {f e : Nat} {Z : List Nat} (hl : Linked h (0 :: f :: Z))
    (hn : ∀ a, a ≠ e → a ≠ 0 → h'.next a = h.next a) (hp : ∀ b, b ≠ e → b ≠ f → h'.prev b = h.prev b)
    (h1 : h'.next 0 = some e) (h2 : h'.prev e = some 0) (h3 : h'.next e = some f) (h4 : h'.prev f = some e)
    (he : e ∉ f :: Z) (h0 : 0 ∉ (f :: Z).dropLast) (hf : f ∉ Z) : Linked h' (0 :: e :: f :: Z) := by
  simp only [Linked] at hl ⊢
  refine ⟨h1, h2, h3, h4, linked_congr _ ?_ ?_ hl.2.2⟩
  · intro a ha
    have hm : a ∈ f :: Z := (List.dropLast_sublist _).mem ha
    exact hn a (by rintro rfl; exact he hm) (by rintro rfl; exact h0 ha)
  · intro b hb
    simp only [List.tail_cons] at hb
    exact hp b (by rintro rfl; exact he (List.mem_cons_of_mem _ hb)) (by rintro rfl; exact hf hb)

private theorem dropLast_snoc (l : List Nat) : (l ++ [0]).dropLast = l := by simp

private theorem next_root {h : PList} {l : List Nat} (r : Ring h l) : h.next 0 = some (l.headD 0) := by
  have := r.linked
  cases l with
  | nil => simp only [List.nil_append, Linked] at this; simp [this.1]
  | cons a l => simp only [List.cons_append, Linked] at this; simp [this.1]

/-- an element of the ring with its neighbours. -/
private theorem neighbours {h : PList} {l1 l2 : List Nat} {e : Nat} (r : Ring h (l1 ++ e :: l2)) :
    ∃ X p n Y, 0 :: (l1 ++ e :: l2) ++ [0] = X ++ p :: e :: n :: Y ∧ X ++ [p] = 0 :: l1 ∧ n :: Y = l2 ++ [0] ∧
      h.prev e = some p ∧ h.next e = some n := by
  obtain ⟨n, Y, hY⟩ : ∃ n Y, l2 ++ [0] = n :: Y := by cases l2 <;> simp
  obtain ⟨X, p, hX⟩ : ∃ X p, 0 :: l1 = X ++ [p] := ⟨(0 :: l1).dropLast, (0 :: l1).getLast (by simp),
    (List.dropLast_concat_getLast (by simp)).symm⟩
  have e1 : 0 :: (l1 ++ e :: l2) ++ [0] = X ++ p :: e :: n :: Y := by
    have : 0 :: (l1 ++ e :: l2) ++ [0] = (0 :: l1) ++ e :: (l2 ++ [0]) := by simp
    rw [this, hX, hY]; simp
  have hl := r.linked
  rw [← List.cons_append, e1, linked_append] at hl
  simp only [Linked] at hl
  exact ⟨X, p, n, Y, e1, hX.symm, hY.symm, hl.2.2.1, hl.2.2.2.1⟩

private theorem unlink_side {l1 l2 X Y : List Nat} {p e n : Nat} (nd : (l1 ++ e :: l2).Nodup) (h0 : 0 ∉ l1 ++ e :: l2)
    (hX : X ++ [p] = 0 :: l1) (hY : n :: Y = l2 ++ [0]) :
    p ∉ X ∧ p ∉ (n :: Y).dropLast ∧ n ∉ (X ++ [p]).tail ∧ n ∉ Y ∧ p ≠ e ∧ n ≠ e := by
  simp only [List.nodup_append, List.nodup_cons, List.mem_cons] at nd
  obtain ⟨nd1, ⟨he2, nd2⟩, hd⟩ := nd
  simp only [List.mem_append, List.mem_cons, not_or] at h0
  have ndX : (X ++ [p]).Nodup := by rw [hX]; simp [h0.1, nd1]
  have ndY : (n :: Y).Nodup := by
    rw [hY, List.nodup_append]; refine ⟨nd2, by simp, ?_⟩
    intro a ha b hb; simp only [List.mem_singleton] at hb; subst hb; rintro rfl; exact h0.2.2 ha
  have hp : p = 0 ∨ p ∈ l1 := by
    have : p ∈ 0 :: l1 := by rw [← hX]; simp
    simpa using this
  have hn : n = 0 ∨ n ∈ l2 := by
    have : n ∈ l2 ++ [0] := by rw [← hY]; simp
    simp only [List.mem_append, List.mem_singleton] at this; exact this.symm
  refine ⟨?_, ?_, ?_, (List.nodup_cons.1 ndY).1, ?_, ?_⟩
  · intro hm; rw [List.nodup_append] at ndX; exact ndX.2.2 p hm p (by simp) rfl
  · rw [hY, dropLast_snoc]
    rcases hp with rfl | hp
    · exact h0.2.2
    · intro hm; exact hd p hp p (Or.inr hm) rfl
  · rw [hX]; simp only [List.tail_cons]
    rcases hn with rfl | hn
    · exact h0.1
    · intro hm; exact hd n hm n (Or.inr hn) rfl
  · rcases hp with rfl | hp
    · exact h0.2.1
    · rintro rfl; exact hd p hp p (Or.inl rfl) rfl
  · rcases hn with rfl | hn
    · exact h0.2.1
    · rintro rfl; exact he2 hn

/-- **C49 (MoveToFront)** moves the element to the front of the sequence and changes nothing else. -/
theorem c49_moveToFront (h : PList) (l1 l2 : List Nat) (e : Nat) (r : Ring h (l1 ++ e :: l2)) :
    ∃ h', h.moveToFront e = some h' ∧ Ring h' (e :: (l1 ++ l2)) := by
  have he0 : e ≠ 0 := by rintro rfl; exact r.noRoot (by simp)
  have hown : h.owned e = true := (r.owned e he0).2 (by simp)
  cases l1 with
  | nil =>
    have := next_root r
    simp only [List.nil_append, List.headD_cons] at this
    exact ⟨h, by simp [moveToFront, moveSkips, this], by simpa using r⟩
  | cons f l1 =>
    have hroot := next_root r
    simp only [List.cons_append, List.headD_cons] at hroot
    have hfe : f ≠ e := by
      rintro rfl
      have := r.nodup
      simp at this
    have hskip : h.moveSkips e = false := by simp [moveSkips, hown, hroot, hfe]
    obtain ⟨X, p, n, Y, e1, hX, hY, hprev, hnext⟩ := neighbours r
    obtain ⟨s1, s2, s3, s4, hpe, hne⟩ := unlink_side r.nodup r.noRoot hX hY
    have hp0 : p ≠ 0 := by
      rintro rfl
      cases X with
      | nil => simp at hX
      | cons x X => simp only [List.cons_append, List.cons.injEq] at hX; exact s1 (by simp [hX.1])
    -- after the first two assignments
    let g : PList := { h with next := upd h.next p (some n), prev := upd h.prev n (some p) }
    have hg : Linked g (0 :: ((f :: l1) ++ l2 ++ [0])) := by
      have := linked_unlink (h := h) (X := X) (Y := Y) (p := p) (e := e) (n := n)
        (by rw [← e1]; simpa using r.linked) s1 s2 s3 s4
      have e2 : X ++ p :: n :: Y = 0 :: ((f :: l1) ++ l2 ++ [0]) := by
        have : X ++ p :: n :: Y = (X ++ [p]) ++ (n :: Y) := by simp
        rw [this, hX, hY]; simp
      rw [e2] at this; exact this
    have hmove : h.moveToFront e = some { g with
        next := upd (upd g.next e (some f)) 0 (some e),
        prev := upd (upd g.prev e (some 0)) f (some e) } := by
      simp only [moveToFront, hskip, Bool.false_eq_true, if_false, move, moveLine, setNext, setPrev, hprev, hnext,
        Option.map_some, bind, Option.bind]
      simp only [upd, if_true]
      have h1 : ¬ e = p := fun e' => hpe e'.symm
      have h2 : ¬ (0 : Nat) = p := fun e' => hp0 e'.symm
      simp only [h1, h2, if_false, hroot, hnext, Option.map_some]
      have h3 : upd h.next p (some n) 0 = some f := by simp [upd, h2, hroot]
      simp only [h3, g]
      have h4 : upd (upd (upd h.next p (some n)) e (some f)) 0 (some e) e = some f := by simp [upd, he0]
      rw [h4]; rfl
    refine ⟨_, hmove, ?_, ?_, ?_, ?_, ?_⟩
    · have hnd := r.nodup
      have hnr := r.noRoot
      simp only [List.cons_append, List.nodup_cons, List.mem_append, List.mem_cons, not_or, List.nodup_append] at hnd hnr
      have := linked_insert (h := g) (h' := { g with
        next := upd (upd g.next e (some f)) 0 (some e),
        prev := upd (upd g.prev e (some 0)) f (some e) }) (f := f) (e := e) (Z := l1 ++ l2 ++ [0])
        (by simpa using hg) (by intro a ha h0; simp [upd, ha, h0]) (by intro a ha h0; simp [upd, ha, h0])
        (by simp [upd]) (by simp [upd, Ne.symm hfe]) (by simp [upd, he0]) (by simp [upd])
        (by simp only [List.mem_cons, List.mem_append, not_or]
            refine ⟨Ne.symm hfe, ⟨?_, ?_⟩, he0, by simp⟩
            · intro hm; exact hnd.2.2.2 e hm e (Or.inl rfl) rfl
            · exact hnd.2.2.1.1)
        (by rw [← List.cons_append, dropLast_snoc]
            simp only [List.mem_cons, List.mem_append, not_or]
            exact ⟨hnr.1, hnr.2.1, hnr.2.2.2⟩)
        (by simp only [List.mem_append, List.mem_singleton, not_or]
            exact ⟨⟨hnd.1.1, hnd.1.2.2⟩, fun e' => hnr.1 e'.symm⟩)
      simpa using this
    · have := r.nodup
      have hp : ((f :: l1) ++ e :: l2).Perm (e :: ((f :: l1) ++ l2)) := List.perm_middle
      exact hp.nodup_iff.1 this
    · have := r.noRoot; simp at this ⊢; refine ⟨fun h => he0 h.symm, this.1, this.2.1, this.2.2.2⟩
    · have := r.len; simp at this ⊢; exact this.trans (by omega)
    · intro x hx
      have := r.owned x hx
      show h.owned x = true ↔ _
      rw [this]; simp only [List.cons_append, List.mem_cons, List.mem_append]
      constructor
      · rintro (h | h | h | h) <;> simp [h]
      · rintro (h | h | h | h) <;> simp [h]

/-- **C49 (PushFront)** of an element not in the list puts it at the front. -/
theorem c49_pushFront (h : PList) (l : List Nat) (e : Nat) (r : Ring h l) (he : e ∉ l) (he0 : e ≠ 0) :
    ∃ h', h.pushFront e = some h' ∧ Ring h' (e :: l) := by
  have hroot := next_root r
  have h0e : ¬ (0 : Nat) = e := fun x => he0 x.symm
  have hfe : ¬ e = l.headD 0 := by
    cases l with
    | nil => simpa using he0
    | cons a l => simp at he; simpa using he.1
  have hpush : h.pushFront e = some (PList.mk (upd (upd h.next e (some (l.headD 0))) 0 (some e))
      (upd (upd h.prev e (some 0)) (l.headD 0) (some e)) (upd h.owned e true) (h.len + 1)) := by
    simp only [pushFront, setNext, setPrev, Option.map_some, bind, Option.bind, pure]
    simp only [upd, if_true, he0, if_false, hroot, Option.map_some]
  refine ⟨_, hpush, ?_, ?_, ?_, ?_, ?_⟩
  · obtain ⟨f, Z, hZ⟩ : ∃ f Z, l ++ [0] = f :: Z := by cases l <;> simp
    have hf : l.headD 0 = f := by cases l <;> simp at hZ ⊢ <;> exact hZ.1
    have hnd : (f :: Z).Nodup := by
      rw [← hZ, List.nodup_append]; refine ⟨r.nodup, by simp, ?_⟩
      intro a ha b hb; simp only [List.mem_singleton] at hb; subst hb; rintro rfl; exact r.noRoot ha
    have hl := r.linked
    rw [hZ] at hl
    simp only [List.cons_append]
    rw [hZ, hf]
    refine linked_insert hl (by intro a ha h0; simp [upd, ha, h0]) (by intro a ha h0; simp [upd, ha, h0])
        (by simp [upd]) (by simp [upd, hf ▸ hfe]) (by simp [upd, he0]) (by simp [upd]) ?_ ?_ (List.nodup_cons.1 hnd).1
    · rw [← hZ]; simp [he, he0]
    · rw [← hZ, dropLast_snoc]; exact r.noRoot
  · simp only [List.nodup_cons]; exact ⟨he, r.nodup⟩
  · simp only [List.mem_cons, not_or]; exact ⟨fun h => he0 h.symm, r.noRoot⟩
  · simp [r.len]
  · intro x hx
    simp only [upd, List.mem_cons]
    by_cases hxe : x = e
    · simp [hxe]
    · simp [hxe, r.owned x hx]

/-- **C49 (Remove)** takes the element out of the sequence. -/
theorem c49_remove (h : PList) (l1 l2 : List Nat) (e : Nat) (r : Ring h (l1 ++ e :: l2)) :
    ∃ h', h.remove e = some h' ∧ Ring h' (l1 ++ l2) := by
  have he0 : e ≠ 0 := by rintro rfl; exact r.noRoot (by simp)
  have hown : h.owned e = true := (r.owned e he0).2 (by simp)
  obtain ⟨X, p, n, Y, e1, hX, hY, hprev, hnext⟩ := neighbours r
  obtain ⟨s1, s2, s3, s4, hpe, hne⟩ := unlink_side r.nodup r.noRoot hX hY
  have hep : ¬ e = p := fun x => hpe x.symm
  have hen : ¬ e = n := fun x => hne x.symm
  have hrem : h.remove e = some (PList.mk (upd (upd h.next p (some n)) e none)
      (upd (upd h.prev n (some p)) e none) (upd h.owned e false) (h.len - 1)) := by
    simp only [remove, hown, if_true, setNext, setPrev, hprev, hnext, Option.map_some, bind, Option.bind, pure]
    simp only [upd, hep, if_false, hnext, Option.map_some, hprev]
  refine ⟨_, hrem, ?_, ?_, ?_, ?_, ?_⟩
  · have := linked_unlink (h := h) (X := X) (Y := Y) (p := p) (e := e) (n := n)
      (by rw [← e1]; simpa using r.linked) s1 s2 s3 s4
    have e2 : X ++ p :: n :: Y = 0 :: (l1 ++ l2 ++ [0]) := by
      have : X ++ p :: n :: Y = (X ++ [p]) ++ (n :: Y) := by simp
      rw [this, hX, hY]; simp
    rw [e2] at this
    have hem : e ∉ 0 :: (l1 ++ l2 ++ [0]) := by
      have hnd := r.nodup
      simp only [List.nodup_append, List.nodup_cons, List.mem_cons] at hnd
      simp only [List.mem_cons, List.mem_append, not_or]
      exact ⟨he0, ⟨fun hm => hnd.2.2 e hm e (Or.inl rfl) rfl, hnd.2.1.1⟩, he0, by simp⟩
    refine linked_congr _ ?_ ?_ this
    · intro a ha
      have : a ≠ e := by rintro rfl; exact hem ((List.dropLast_sublist _).mem ha)
      simp [upd, this]
    · intro a ha
      have : a ≠ e := by rintro rfl; exact hem ((List.tail_sublist _).mem ha)
      simp [upd, this]
  · have := List.perm_middle.nodup_iff.1 r.nodup
    exact (List.nodup_cons.1 this).2
  · have := r.noRoot; simp at this ⊢; exact ⟨this.1, this.2.2⟩
  · have := r.len; simp only [List.length_append, List.length_cons] at this ⊢; omega
  · intro x hx
    have hnd := List.nodup_cons.1 (List.perm_middle.nodup_iff.1 r.nodup)
    simp only [upd]
    by_cases hxe : x = e
    · subst hxe; simp only [if_true]; constructor
      · intro h; simp at h
      · intro h; exact absurd h hnd.1
    · simp only [hxe, if_false]; rw [r.owned x hx]; simp [hxe]

/-- **C49 (Back, Len, New)** `Back` is the last element (nil if none), `Len` the number of elements, `New` the empty list. -/
theorem c49_back_len_new : Ring PList.new [] ∧
    ∀ (h : PList) (l : List Nat), Ring h l → h.back = l.getLast? ∧ h.len = l.length := by
  refine ⟨⟨by simp [Linked, new], by simp, by simp, rfl, by simp [new]⟩, fun h l r => ⟨?_, r.len⟩⟩
  rcases List.eq_nil_or_concat l with rfl | ⟨l', b, rfl⟩
  · have := r.len; simp at this; simp [back, this]
  · rw [List.concat_eq_append] at r ⊢
    have hl := r.linked
    have e : 0 :: (l' ++ [b] ++ [0]) = (0 :: l') ++ b :: [0] := by simp
    rw [e, linked_append] at hl
    simp only [Linked] at hl
    have hlen := r.len
    have : h.len ≠ 0 := by rw [hlen]; simp
    simp [back, this, hl.2.2.1]

/-- three elements pushed and one moved: pointers as expected. -/
example : (do let h ← PList.new.pushFront 1; let h ← h.pushFront 2; let h ← h.pushFront 3; h.moveToFront 1).map
    (fun h : PList => (h.next 0, h.next 1, h.next 3, h.next 2, h.back)) = some (some 1, some 3, some 2, some 0, some 2) := by decide

/-! ### C50 -/

/-- a two-element list `[1, 2]`. -/
def two : PList :=
  ⟨fun a => if a = 0 then some 1 else if a = 1 then some 2 else if a = 2 then some 0 else none,
   fun a => if a = 0 then some 2 else if a = 1 then some 0 else if a = 2 then some 1 else none,
   fun a => a == 1 || a == 2, 2⟩

theorem two_ring : Ring two [1, 2] := by
  refine ⟨by simp [Linked, two], by simp, by simp, rfl, fun e he => ?_⟩
  simp [two]

/-- **C50, refuted**: two concurrent `Get`s of the same key (both holding the read lock) finish, and afterwards the pointers
describe no list at all: element 2 is its own successor, so element 1 is lost and walking the list never ends. -/
theorem c50_concurrent_gets_refuted : ∃ (schedule : List Nat) (h : PList) (rs : List Reader),
    runReaders (two, [⟨2, 0⟩, ⟨2, 0⟩]) schedule = some (h, rs) ∧ (∀ r ∈ rs, r.pc = 7) ∧
    h.next 0 = some 2 ∧ h.next 2 = some 2 ∧ ∀ l, ¬ Ring h l := by
  let sch := [0, 0, 0, 0, 0, 1, 1, 0, 0, 1, 1, 1, 1, 1]
  cases hr : runReaders (two, [⟨2, 0⟩, ⟨2, 0⟩]) sch with
  | none => exact absurd (congrArg Option.isSome hr) (by decide)
  | some s =>
    obtain ⟨h, rs⟩ := s
    have h1 : (runReaders (two, [⟨2, 0⟩, ⟨2, 0⟩]) sch).map (fun s => s.2.map Reader.pc) = some [7, 7] := by decide
    have h2 : (runReaders (two, [⟨2, 0⟩, ⟨2, 0⟩]) sch).map (fun s => (s.1.next 0, s.1.next 2)) = some (some 2, some 2) := by
      decide
    rw [hr] at h1 h2
    simp only [Option.map_some, Option.some.injEq, Prod.mk.injEq] at h1 h2
    refine ⟨sch, h, rs, hr, ?_, h2.1, h2.2, ?_⟩
    · intro r hrm
      have : r.pc ∈ rs.map Reader.pc := List.mem_map_of_mem hrm
      rw [h1] at this; simpa using this
    · intro l rg
      have hl := rg.linked
      have hroot := next_root rg
      rw [h2.1] at hroot
      cases l with
      | nil => simp at hroot
      | cons a l =>
        simp only [List.headD_cons, Option.some.injEq] at hroot; subst hroot
        cases l with
        | nil => simp only [List.cons_append, List.nil_append, Linked] at hl; rw [h2.2] at hl; simp at hl
        | cons b l =>
          simp only [List.cons_append, Linked] at hl
          rw [h2.2] at hl
          have hb : b = 2 := by simpa using hl.2.2.1.symm
          subst hb
          have := rg.nodup; simp at this

/-- one reader running alone through its whole `MoveToFront`. -/
private theorem run_alone (h h' : PList) (e : Nat) (hm : h.moveToFront e = some h') :
    ∃ n, runReaders (h, [⟨e, 0⟩]) (List.replicate n 0) = some (h', [⟨e, 7⟩]) := by
  by_cases hs : h.moveSkips e = true
  · refine ⟨1, ?_⟩
    simp [moveToFront, hs] at hm
    subst hm
    simp [runReaders, readersStep, readerStep, hs]
  · refine ⟨7, ?_⟩
    simp only [Bool.not_eq_true] at hs
    simp only [moveToFront, hs, Bool.false_eq_true, if_false, move, Option.bind_eq_bind, Option.bind_eq_some_iff] at hm
    obtain ⟨h1, e1, h2, e2, h3, e3, h4, e4, h5, e5, e6⟩ := hm
    simp [List.replicate, runReaders, readersStep, readerStep, hs, e1, e2, e3, e4, e5, e6]

/-- **C50, partial**: a `Get` that runs alone, and any number of concurrent `Get`s that all hit the front element, leave the
list well formed. Missing: concurrent `Get`s in general (refuted above). -/
theorem c50_gets_safe_partial :
    (∀ (h : PList) (l1 l2 : List Nat) (e : Nat), Ring h (l1 ++ e :: l2) →
      ∃ n h', runReaders (h, [⟨e, 0⟩]) (List.replicate n 0) = some (h', [⟨e, 7⟩]) ∧ Ring h' (e :: (l1 ++ l2))) ∧
    (∀ (h : PList) (e : Nat) (l : List Nat) (k : Nat), Ring h (e :: l) →
      ∀ schedule h' rs, runReaders (h, List.replicate k ⟨e, 0⟩) schedule = some (h', rs) → h' = h) := by
  constructor
  · intro h l1 l2 e r
    obtain ⟨h', hm, r'⟩ := c49_moveToFront h l1 l2 e r
    obtain ⟨n, hn⟩ := run_alone h h' e hm
    exact ⟨n, h', hn, r'⟩
  · intro h e l k r schedule
    have hskip : h.moveSkips e = true := by
      have := next_root r
      simp at this; simp [moveSkips, this]
    have : ∀ (schedule : List Nat) (rs : List Reader), (∀ x ∈ rs, x.elem = e ∧ (x.pc = 0 ∨ x.pc = 7)) →
        ∀ h' rs', runReaders (h, rs) schedule = some (h', rs') → h' = h := by
      intro schedule
      induction schedule with
      | nil => intro rs _ h' rs' hr; simp [runReaders] at hr; exact hr.1.symm
      | cons i schedule ih =>
        intro rs hrs h' rs' hr
        simp only [runReaders, List.foldlM_cons] at hr
        cases hri : rs[i]? with
        | none => simp [readersStep, hri] at hr
        | some x =>
          have hx := hrs x (List.mem_of_getElem? hri)
          rcases hx.2 with h0 | h7
          · simp [readersStep, hri, readerStep, h0, hx.1, hskip] at hr
            refine ih (rs.set i { elem := e, pc := 7 }) ?_ h' rs' hr
            intro y hy
            rcases List.mem_or_eq_of_mem_set hy with hy | rfl
            · exact hrs y hy
            · simp
          · simp [readersStep, hri, readerStep, h7] at hr
    intro h' rs hr
    exact this schedule _ (by intro x hx; simp [List.mem_replicate] at hx; simp [hx.2]) h' rs hr

end PList
end Goir
