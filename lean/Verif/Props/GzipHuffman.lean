import Verif.Model.Gzip
import Verif.Spec.Gzip
import Mathlib.Tactic.Ring
import Mathlib.Tactic.Linarith
/-!
# Huffman codes: what Go's decoder reads is the code of RFC 1951
-/
namespace Goir
namespace Gzip
open Spec.Gz

theorem value_eq (w : List Bool) : value w = number w := by
  induction w with
  | nil => rfl
  | cons b r ih => cases b <;> simp [value, number, ih]

theorem byteBits_eq (b : UInt8) : byteBits b = (List.range 8).map b.toNat.testBit := by
  have : ∀ b : Fin 256, byteBits (UInt8.ofFin b) = (List.range 8).map (UInt8.ofFin b).toNat.testBit := by decide +kernel
  exact this b.toFin

theorem bits_eq (bs : List UInt8) : bits bs = bitsOf bs := by
  unfold bits bitsOf
  congr 1; funext b; exact byteBits_eq b

theorem readBits_iff {n : Nat} {bs : List Bool} {v : Nat} {r : List Bool} :
    readBits n bs = some (v, r) ↔ ∃ x, x.length = n ∧ v = number x ∧ bs = x ++ r := by
  unfold readBits
  constructor
  · intro h
    split at h
    · rename_i hn
      simp only [Option.some.injEq, Prod.mk.injEq] at h
      exact ⟨bs.take n, by simp [hn], by rw [← value_eq]; exact h.1.symm, by rw [← h.2]; exact (List.take_append_drop n bs).symm⟩
    · cases h
  · rintro ⟨x, rfl, rfl, rfl⟩
    simp [value_eq]

/-! ### arithmetic of codes -/

/-- the space taken by the words shorter than `n`. -/
def low (ls : List Nat) (n : Nat) : Nat := (ls.map fun e => if e ≠ 0 ∧ e < n then 2 ^ (15 - e) else 0).sum

theorem low_succ (ls : List Nat) (n : Nat) : low ls (n + 1) = low ls n + (if n = 0 then 0 else ls.count n) * 2 ^ (15 - n) := by
  unfold low
  induction ls with
  | nil => simp
  | cons e ls ih =>
    simp only [List.map_cons, List.sum_cons, ih, List.count_cons]
    by_cases hn : n = 0
    · subst hn
      have : ¬ (e ≠ 0 ∧ e < 0 + 1) := by omega
      have h2 : ¬ (e ≠ 0 ∧ e < 0) := by omega
      rw [if_neg this, if_neg h2]; simp
    · rw [if_neg hn, if_neg hn]
      rcases Nat.lt_trichotomy e n with h | h | h
      · have e1 : (e ≠ 0 ∧ e < n + 1) ↔ (e ≠ 0 ∧ e < n) := by omega
        have e2 : (e == n) = false := by simp; omega
        rw [e2]; simp only [e1]; simp; ring
      · subst h
        have e1 : (e ≠ 0 ∧ e < e + 1) := by omega
        have e2 : ¬ (e ≠ 0 ∧ e < e) := by omega
        rw [if_pos e1, if_neg e2]; simp; ring
      · have e1 : ¬ (e ≠ 0 ∧ e < n + 1) := by omega
        have e2 : ¬ (e ≠ 0 ∧ e < n) := by omega
        have e3 : (e == n) = false := by simp; omega
        rw [if_neg e1, if_neg e2, e3]; simp

theorem nextcode_low (ls : List Nat) (n : Nat) (hn : n ≤ 15) : nextcode ls n * 2 ^ (15 - n) = low ls n := by
  induction n with
  | zero =>
    have : low ls 0 = 0 := by unfold low; induction ls with
      | nil => rfl
      | cons e ls ih => rw [List.map_cons, List.sum_cons, ih, if_neg (by omega)]
    simp [nextcode, this]
  | succ n ih =>
    rw [low_succ, ← ih (by omega), nextcode]
    have : 15 - n = (15 - (n + 1)) + 1 := by omega
    rw [this, pow_succ]; ring

theorem low_mono (ls : List Nat) {n m : Nat} (h : n ≤ m) : low ls n ≤ low ls m := by
  induction h with
  | refl => exact le_rfl
  | step _ ih => rw [low_succ]; omega

theorem before_aux (n s : Nat) (hn : n ≠ 0) (ls : List Nat) : ∀ k,
    ((ls.zipIdx k).map fun e => if e.1 ≠ 0 ∧ (e.1 < n ∨ (e.1 = n ∧ e.2 < s)) then 2 ^ (15 - e.1) else 0).sum = low ls n + (ls.take (s - k)).count n * 2 ^ (15 - n) := by
  induction ls with
  | nil => intro k; simp [low]
  | cons e ls ih =>
    intro k
    simp only [List.zipIdx_cons, List.map_cons, List.sum_cons, ih (k + 1)]
    have hl : low (e :: ls) n = (if e ≠ 0 ∧ e < n then 2 ^ (15 - e) else 0) + low ls n := by simp [low]
    rw [hl]
    by_cases hk : k < s
    · obtain ⟨m, hm⟩ : ∃ m, s - k = m + 1 := ⟨s - k - 1, by omega⟩
      have hm' : s - (k + 1) = m := by omega
      rw [hm, hm', List.take_succ_cons, List.count_cons]
      rcases Nat.lt_trichotomy e n with h | h | h
      · have e1 : (e ≠ 0 ∧ (e < n ∨ e = n ∧ k < s)) ↔ (e ≠ 0 ∧ e < n) := by omega
        have e2 : (e == n) = false := by simp; omega
        rw [e2]; simp only [e1]; simp; ring
      · subst h
        have e1 : (e ≠ 0 ∧ (e < e ∨ e = e ∧ k < s)) := by omega
        have e2 : ¬ (e ≠ 0 ∧ e < e) := by omega
        rw [if_pos e1, if_neg e2]; simp; ring
      · have e1 : ¬ (e ≠ 0 ∧ (e < n ∨ e = n ∧ k < s)) := by omega
        have e2 : ¬ (e ≠ 0 ∧ e < n) := by omega
        have e3 : (e == n) = false := by simp; omega
        rw [if_neg e1, if_neg e2, e3]; simp
    · have h1 : s - k = 0 := by omega
      have h2 : s - (k + 1) = 0 := by omega
      rw [h1, h2]
      have e1 : (e ≠ 0 ∧ (e < n ∨ e = n ∧ k < s)) ↔ (e ≠ 0 ∧ e < n) := by omega
      simp only [e1]; simp

theorem before_eq {ls : List Nat} {s n : Nat} (hs : ls[s]? = some n) (hn : n ≠ 0) : before ls s = low ls n + (ls.take s).count n * 2 ^ (15 - n) := by
  have hd : ls.getD s 0 = n := by simp [List.getD, hs]
  unfold before
  rw [hd]
  exact before_aux n s hn ls 0

theorem count_take_succ {ls : List Nat} {s n : Nat} (hs : ls[s]? = some n) : (ls.take (s + 1)).count n = (ls.take s).count n + 1 := by
  rw [List.take_add_one, hs]; simp

/-- the words of two symbols take different parts of the space. -/
theorem before_lt {ls : List Nat} {s t n m : Nat} (hs : ls[s]? = some n) (hn : n ≠ 0) (ht : ls[t]? = some m) (hm : m ≠ 0)
    (h : n < m ∨ n = m ∧ s < t) : before ls s + 2 ^ (15 - n) ≤ before ls t := by
  rw [before_eq hs hn, before_eq ht hm]
  have key : (ls.take s).count n + 1 ≤ ls.count n := by
    rw [← count_take_succ hs]; exact (List.take_sublist _ _).count_le n
  rcases h with h | ⟨rfl, h⟩
  · have h1 := low_mono ls (show n + 1 ≤ m from h)
    rw [low_succ, if_neg hn] at h1
    have h2 := Nat.mul_le_mul_right (2 ^ (15 - n)) key
    rw [Nat.add_mul, Nat.one_mul] at h2
    omega
  · have : (ls.take (s + 1)).count n ≤ (ls.take t).count n := by
      refine List.Sublist.count_le n ?_
      exact List.take_sublist_take_left h
    rw [count_take_succ hs] at this
    have h2 := Nat.mul_le_mul_right (2 ^ (15 - n)) this
    rw [Nat.add_mul, Nat.one_mul] at h2
    omega

theorem number_append (x y : List Bool) : number (x ++ y) = number x + 2 ^ x.length * number y := by
  induction x with
  | nil => simp [number]
  | cons b x ih => simp only [List.cons_append, number, ih, List.length_cons, pow_succ]; ring

theorem number_lt (x : List Bool) : number x < 2 ^ x.length := by
  induction x with
  | nil => simp [number]
  | cons b x ih => simp only [number, List.length_cons, pow_succ]; split <;> omega

theorem number_inj : ∀ {x y : List Bool}, x.length = y.length → number x = number y → x = y := by
  intro x
  induction x with
  | nil => intro y h _; exact (List.length_eq_zero_iff.1 h.symm).symm
  | cons b x ih =>
    intro y h e
    cases y with
    | nil => cases h
    | cons c y =>
      simp only [number] at e
      have h1 : number x = number y := by split at e <;> split at e <;> omega
      have h2 : b = c := by cases b <;> cases c <;> simp at e ⊢ <;> omega
      rw [h2, ih (by simpa using h) h1]

/-- codes are prefix free. -/
theorem word_prefix {ls : List Nat} (hl : ∀ n ∈ ls, n ≤ 15) {s t : Nat} {w x : List Bool} (h1 : Word ls s w) (h2 : Word ls t (w ++ x)) : s = t ∧ x = [] := by
  obtain ⟨a1, a2, a3⟩ := h1
  obtain ⟨b1, b2, b3⟩ := h2
  have hw : w.length ≠ 0 := by simpa using a2
  have hm : (w ++ x).length ≠ 0 := by simp; intro h; simp [h] at hw
  have h15 : (w ++ x).length ≤ 15 := hl _ (List.mem_of_getElem? b1)
  have hxl : w.length + x.length ≤ 15 := by simpa using h15
  rw [List.reverse_append, number_append, List.length_reverse] at b3
  have hpow : 2 ^ (15 - w.length) = 2 ^ x.length * 2 ^ (15 - (w ++ x).length) := by
    rw [← pow_add]; congr 1; simp; omega
  have hx := number_lt x.reverse
  rw [List.length_reverse] at hx
  have hpos : 0 < 2 ^ (15 - (w ++ x).length) := by positivity
  have up : before ls t < before ls s + 2 ^ (15 - w.length) := by
    rw [← b3, ← a3, hpow]
    nlinarith
  have lowb : before ls s ≤ before ls t := by
    rw [← b3, ← a3, hpow]
    nlinarith [Nat.zero_le (number x.reverse)]
  have hst : s = t := by
    by_contra hne
    have : (w.length < (w ++ x).length ∨ w.length = (w ++ x).length ∧ s < t) ∨ ((w ++ x).length < w.length ∨ (w ++ x).length = w.length ∧ t < s) := by rw [List.length_append]; omega
    rcases this with h | h
    · have := before_lt a1 hw b1 hm h; omega
    · have := before_lt b1 hm a1 hw h
      omega
  refine ⟨hst, ?_⟩
  subst hst
  rw [a1] at b1
  have := Option.some.inj b1
  simpa using this

/-! ### the decoder's table -/

theorem mem_assign (ls : List Nat) : ∀ (next : Nat → Nat) (i n c s : Nat), (n, c, s) ∈ assign next i ls ↔ ∃ k, s = i + k ∧ ls[k]? = some n ∧ n ≠ 0 ∧ c = next n + (ls.take k).count n := by
  induction ls with
  | nil => intro next i n c s; simp [assign]
  | cons e ls ih =>
    intro next i n c s
    unfold assign
    split
    · rename_i he
      rw [ih]
      constructor
      · rintro ⟨k, h1, h2, h3, h4⟩
        refine ⟨k + 1, by omega, by simpa using h2, h3, ?_⟩
        rw [List.take_succ_cons, List.count_cons_of_ne (by omega)]; exact h4
      · rintro ⟨k, h1, h2, h3, h4⟩
        cases k with
        | zero => simp at h2; omega
        | succ k =>
          refine ⟨k, by omega, by simpa using h2, h3, ?_⟩
          rw [List.take_succ_cons, List.count_cons_of_ne (by omega)] at h4; exact h4
    · rename_i he
      rw [List.mem_cons, ih]
      constructor
      · rintro (h | ⟨k, h1, h2, h3, h4⟩)
        · cases h
          exact ⟨0, rfl, rfl, he, by simp⟩
        · refine ⟨k + 1, by omega, by simpa using h2, h3, ?_⟩
          rw [List.take_succ_cons, List.count_cons, h4]
          by_cases hne : n = e
          · subst hne; simp; omega
          · rw [if_neg hne]; simp; omega
      · rintro ⟨k, h1, h2, h3, h4⟩
        cases k with
        | zero =>
          simp at h2 h4 h1
          left; subst h1 h2 h4; rfl
        | succ k =>
          right
          refine ⟨k, by omega, by simpa using h2, h3, ?_⟩
          rw [List.take_succ_cons, List.count_cons] at h4
          rw [h4]
          by_cases hne : n = e
          · subst hne; simp; omega
          · rw [if_neg hne]; have : ¬ e = n := fun h => hne h.symm
            simp [this]

/-- an entry of the table is a word. -/
theorem mem_table {ls : List Nat} (hl : ∀ n ∈ ls, n ≤ 15) {s : Nat} {w : List Bool} (hw : w ≠ []) : (w.length, number w.reverse, s) ∈ table ls ↔ Word ls s w := by
  unfold table
  rw [mem_assign]
  simp only [Nat.zero_add]
  constructor
  · rintro ⟨k, rfl, h2, h3, h4⟩
    refine ⟨h2, hw, ?_⟩
    have h15 := hl _ (List.mem_of_getElem? h2)
    rw [before_eq h2 h3, h4, Nat.add_mul, nextcode_low ls _ h15]
  · rintro ⟨h2, -, h4⟩
    have h3 : w.length ≠ 0 := by simpa using hw
    have h15 := hl _ (List.mem_of_getElem? h2)
    refine ⟨s, rfl, h2, h3, ?_⟩
    rw [before_eq h2 h3, ← nextcode_low ls _ h15, ← Nat.add_mul] at h4
    exact Nat.eq_of_mul_eq_mul_right (by positivity) h4

theorem huffSym_aux {ls : List Nat} (hl : ∀ n ∈ ls, n ≤ 15) (s : Nat) (r : List Bool) : ∀ (bs p : List Bool),
    huffSym (table ls) p.length (number p.reverse) bs = some (s, r) ↔ ∃ x, x ≠ [] ∧ Word ls s (p ++ x) ∧ bs = x ++ r ∧ ∀ y z t, x = y ++ z → y ≠ [] → z ≠ [] → ¬ Word ls t (p ++ y) := by
  intro bs
  induction bs with
  | nil =>
    intro p
    simp only [huffSym]
    constructor
    · intro h; cases h
    · rintro ⟨x, h1, -, h2, -⟩
      have := congrArg List.length h2
      simp at this
      exact absurd (List.length_eq_zero_iff.1 (by omega)) h1
  | cons b bs ih =>
    intro p
    have hlen : p.length + 1 = (p ++ [b]).length := by simp
    have hval : 2 * number p.reverse + b.toNat = number (p ++ [b]).reverse := by
      cases b <;> (simp [number]; try omega)
    unfold huffSym
    rw [hlen, hval]
    split
    · rename_i e he
      have hm := List.mem_of_find?_eq_some he
      have hp := List.find?_some he
      simp only [decide_eq_true_eq] at hp
      have hw : Word ls e.2.2 (p ++ [b]) := by
        rw [← mem_table hl (by simp), ← hp.1, ← hp.2]; exact hm
      constructor
      · intro h
        simp only [Option.some.injEq, Prod.mk.injEq] at h
        refine ⟨[b], by simp, h.1 ▸ hw, by rw [h.2]; rfl, ?_⟩
        intro y z t e1 e2 e3
        have := congrArg List.length e1
        have h1 : 0 < y.length := List.length_pos_iff.2 e2
        have h2 : 0 < z.length := List.length_pos_iff.2 e3
        simp at this; omega
      · rintro ⟨x, h1, h2, h3, h4⟩
        cases x with
        | nil => exact absurd rfl h1
        | cons c x =>
          simp only [List.cons_append, List.cons.injEq] at h3
          obtain ⟨rfl, rfl⟩ := h3
          have h2' : Word ls s ((p ++ [b]) ++ x) := by simpa using h2
          obtain ⟨e1, e2⟩ := word_prefix hl hw h2'
          subst e2; rw [e1]; rfl
    · rename_i he
      have hno : ∀ t, ¬ Word ls t (p ++ [b]) := by
        intro t hw
        rw [← mem_table hl (by simp)] at hw
        have := List.find?_eq_none.1 he _ hw
        simp at this
      rw [ih]
      constructor
      · rintro ⟨x, h1, h2, h3, h4⟩
        refine ⟨b :: x, by simp, by simpa using h2, by rw [h3]; rfl, ?_⟩
        intro y z t e1 e2 e3
        cases y with
        | nil => exact absurd rfl e2
        | cons c y =>
          simp only [List.cons_append, List.cons.injEq] at e1
          obtain ⟨rfl, e1⟩ := e1
          cases y with
          | nil => exact hno t
          | cons d y => have := h4 (d :: y) z t e1 (by simp) e3; simpa using this
      · rintro ⟨x, h1, h2, h3, h4⟩
        cases x with
        | nil => exact absurd rfl h1
        | cons c x =>
          simp only [List.cons_append, List.cons.injEq] at h3
          obtain ⟨rfl, rfl⟩ := h3
          refine ⟨x, ?_, by simpa using h2, rfl, ?_⟩
          · rintro rfl; exact hno s h2
          · intro y z t e1 e2 e3
            have := h4 (b :: y) z t (by rw [e1]; rfl) (by simp) e3
            simpa using this

/-- `huffSym` reads the word of a symbol, and nothing else. -/
theorem huffSym_iff {ls : List Nat} (hl : ∀ n ∈ ls, n ≤ 15) {s : Nat} {bs r : List Bool} : huffSym (table ls) 0 0 bs = some (s, r) ↔ ∃ w, Word ls s w ∧ bs = w ++ r := by
  have := huffSym_aux hl s r bs []
  simp only [List.length_nil, List.reverse_nil, List.nil_append] at this
  rw [show number [] = 0 from rfl] at this
  rw [this]
  constructor
  · rintro ⟨x, -, h2, h3, -⟩; exact ⟨x, h2, h3⟩
  · rintro ⟨w, h2, h3⟩
    refine ⟨w, h2.2.1, h2, h3, ?_⟩
    rintro y z t rfl e2 e3 hw
    exact e3 (word_prefix hl hw h2).2

/-! ### the check of a code -/

theorem maxLen_aux (ls : List Nat) : ∀ a, (∀ n ∈ ls, n ≤ ls.foldl Nat.max a) ∧ a ≤ ls.foldl Nat.max a ∧ (ls.foldl Nat.max a = a ∨ ls.foldl Nat.max a ∈ ls) := by
  induction ls with
  | nil => intro a; simp
  | cons e ls ih =>
    intro a
    obtain ⟨h1, h2, h3⟩ := ih (Nat.max a e)
    have ha : a ≤ Nat.max a e := Nat.le_max_left _ _
    have he : e ≤ Nat.max a e := Nat.le_max_right _ _
    refine ⟨?_, le_trans ha h2, ?_⟩
    · intro n hn
      rcases List.mem_cons.1 hn with rfl | hn
      · exact le_trans he h2
      · exact h1 n hn
    · rcases h3 with h3 | h3
      · have : Nat.max a e = a ∨ Nat.max a e = e := by
          rcases Nat.le_total a e with h | h
          · exact Or.inr (Nat.max_eq_right h)
          · exact Or.inl (Nat.max_eq_left h)
        rcases this with h | h
        · left; rw [List.foldl_cons, h3, h]
        · right; rw [List.foldl_cons, h3, h]; simp
      · right; rw [List.foldl_cons]; exact List.mem_cons_of_mem _ h3

theorem le_maxLen {ls : List Nat} {n : Nat} (h : n ∈ ls) : n ≤ maxLen ls := (maxLen_aux ls 0).1 n h

theorem maxLen_mem {ls : List Nat} (h : maxLen ls ≠ 0) : maxLen ls ∈ ls := (maxLen_aux ls 0).2.2.resolve_left h

theorem low_all {ls : List Nat} {n : Nat} (h : ∀ e ∈ ls, e < n) : low ls n = (ls.map fun e => if e = 0 then 0 else 2 ^ (15 - e)).sum := by
  unfold low
  congr 1
  apply List.map_congr_left
  intro e he
  have := h e he
  by_cases h0 : e = 0
  · simp [h0]
  · simp [h0, this]

theorem initOk_iff {ls : List Nat} (hl : ∀ n ∈ ls, n ≤ 15) : initOk ls = true ↔ Usable ls := by
  unfold initOk Usable
  simp only [Bool.or_eq_true, Bool.and_eq_true, beq_iff_eq]
  by_cases h0 : maxLen ls = 0
  · have : ∀ n ∈ ls, n = 0 := fun n hn => Nat.le_zero.1 (h0 ▸ le_maxLen hn)
    exact ⟨fun _ => Or.inr (Or.inr this), fun _ => Or.inl (Or.inl h0)⟩
  have hmem := maxLen_mem h0
  have h15 := hl _ hmem
  have hsum : (nextcode ls (maxLen ls) + ls.count (maxLen ls)) * 2 ^ (15 - maxLen ls) = (ls.map fun e => if e = 0 then 0 else 2 ^ (15 - e)).sum := by
    rw [Nat.add_mul, nextcode_low ls _ h15, ← low_all (n := maxLen ls + 1) fun e he => Nat.lt_succ_of_le (le_maxLen he), low_succ, if_neg h0]
  have hnz : ¬ ∀ n ∈ ls, n = 0 := fun h => h0 (h _ hmem)
  have hfull : nextcode ls (maxLen ls) + ls.count (maxLen ls) = 2 ^ maxLen ls ↔ (ls.map fun e => if e = 0 then 0 else 2 ^ (15 - e)).sum = 2 ^ 15 := by
    rw [← hsum]
    have : 2 ^ 15 = 2 ^ maxLen ls * 2 ^ (15 - maxLen ls) := by rw [← pow_add]; congr 1; omega
    rw [this]
    exact (Nat.mul_left_inj (by positivity)).symm
  have hone : (nextcode ls (maxLen ls) + ls.count (maxLen ls) = 1 ∧ maxLen ls = 1) ↔ (ls.count 1 = 1 ∧ ∀ n ∈ ls, n ≤ 1) := by
    constructor
    · rintro ⟨h1, h2⟩
      rw [h2] at h1
      refine ⟨by simpa [nextcode] using h1, fun n hn => h2 ▸ le_maxLen hn⟩
    · rintro ⟨h1, h2⟩
      have : maxLen ls = 1 := by have := h2 _ hmem; omega
      rw [this]
      exact ⟨by simpa [nextcode] using h1, rfl⟩
  rw [hfull, hone]
  constructor
  · rintro ((h | h) | h)
    · exact absurd h h0
    · exact Or.inl h
    · exact Or.inr (Or.inl h)
  · rintro (h | h | h)
    · exact Or.inl (Or.inr h)
    · exact Or.inr h
    · exact absurd h hnz

end Gzip
end Goir
