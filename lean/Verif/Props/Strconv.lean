import Verif.Lemmas.Shortest
import Verif.Props.HttpBytes
import Verif.Props.HttpServed
import Verif.Props.Lines
/-!
# C120, C121: numbers as text

C120: the similarities that GET /nir writes are the scores, exactly.  C121: what becomes of the numbers of an indexed document.
-/
namespace Goir
namespace Strconv
open Spec Json

set_option exponentiation.threshold 2000

variable {L : MathLog}

/-- the number that a literal with this sign stands for. -/
def withSign (neg : Bool) (q : ℚ) : ℝ := if neg then -(q : ℝ) else q

theorem denotes_neg {lit : List Char} {q : ℚ} (h : Denotes lit false q) : Denotes ('-' :: lit) true q := by
  obtain ⟨i, f, e, fq, k, rfl, hi, hf, he, rfl⟩ := h
  exact ⟨i, f, e, fq, k, by simp, hi, hf, he, rfl⟩

theorem denotes_number {lit : List Char} {neg : Bool} {q : ℚ} (h : Denotes lit neg q) : IsNumber lit := by
  obtain ⟨i, f, e, fq, k, rfl, hi, hf, he, rfl⟩ := h
  refine ⟨_, i, f, e, ?_, hi, ?_, ?_, rfl⟩
  · cases neg <;> simp
  · rcases hf with ⟨rfl, -⟩ | ⟨ds, h1, h2, -⟩
    · exact .inl rfl
    · exact .inr ⟨ds, h1, h2⟩
  · rcases he with ⟨rfl, -⟩ | ⟨c, sg, ds, h1, h2, h3, h4⟩
    · exact .inl rfl
    · refine .inr ⟨c, sg, ds, h1, ?_, h2, h3⟩
      rcases h4 with ⟨rfl | rfl, -⟩ | ⟨rfl, -⟩ <;> simp

theorem denotes_nonneg {lit : List Char} {neg : Bool} {q : ℚ} (h : Denotes lit neg q) : 0 ≤ q := by
  obtain ⟨i, f, e, fq, k, rfl, hi, hf, he, rfl⟩ := h
  have : 0 ≤ fq := by
    rcases hf with ⟨-, rfl⟩ | ⟨ds, -, -, rfl⟩
    · exact le_rfl
    · positivity
  positivity

theorem denotes_json (D : Digits) {x : ℝ} (hx : IsF64 x) (h0 : 0 < x) : Denotes (D.jsonText x) false (D.digits x * 10 ^ D.exp x) := by
  unfold Digits.jsonText Digits.decimal
  split
  · exact denotes_clean (D.pos hx h0) _
  · exact denotes_fmtF (D.pos hx h0) _

theorem denotes_fmt (D : Digits) {x : ℝ} (hx : IsF64 x) (h0 : 0 < x) : Denotes (D.fmtText x) false (D.digits x * 10 ^ D.exp x) := by
  unfold Digits.fmtText Digits.decimal
  split
  · exact denotes_fmtE (D.pos hx h0) _
  · exact denotes_fmtF (D.pos hx h0) _

/-- a finite number that is printed with its sign stands for a number that is rounded to it. -/
theorem denotes_signed {text : ℝ → List Char} (ht : ∀ x, IsF64 x → 0 < x → ∃ q : ℚ, Denotes (text x) false q ∧ rnd64 (q : ℝ) = x) {x : F64 L} {v : ℝ} (hv : x.toReal = some v) :
    ∃ (neg : Bool) (q : ℚ), Denotes (signed text x) neg q ∧ rnd64 (withSign neg q) = v ∧ (neg = true ↔ x = .zero true ∨ v < 0) := by
  cases x with
  | nan => cases hv
  | inf s => cases hv
  | zero s =>
    cases hv
    have h0 : Denotes ['0'] false 0 := ⟨['0'], [], [], 0, 0, rfl, .inl rfl, .inl ⟨rfl, rfl⟩, .inl ⟨rfl, rfl⟩, by norm_num [digitsVal]⟩
    cases s with
    | true => exact ⟨true, 0, denotes_neg h0, by simp [withSign], by simp⟩
    | false => exact ⟨false, 0, h0, by simp [withSign], by simp⟩
  | fin y hy hy0 =>
    obtain rfl : y = v := Option.some.inj hv
    unfold signed
    by_cases h : y < 0
    · obtain ⟨q, h1, h2⟩ := ht (-y) (isF64_neg hy) (by linarith)
      simp only [if_pos h]
      exact ⟨true, q, denotes_neg h1, by simp [withSign, rnd64_neg, h2], by simp [h]⟩
    · have hp : 0 < y := lt_of_le_of_ne (not_lt.1 h) (Ne.symm hy0)
      obtain ⟨q, h1, h2⟩ := ht y hy hp
      simp only [if_neg h]
      exact ⟨false, q, h1, by simp [withSign, h2], by simp [h]⟩

theorem rounds_back (D : Digits) {x : ℝ} (hx : IsF64 x) (h0 : 0 < x) : rnd64 (((D.digits x * 10 ^ D.exp x : ℚ)) : ℝ) = x := by
  have := (D.short x hx h0).1
  push_cast
  exact this

/-! ### reading -/

theorem round_inf {q : ℝ} (h : (2:ℝ)^1024 ≤ rnd64 q) : ∃ s, F64.round (L := L) false q = .inf s := by
  have h0 : (0:ℝ) < 2^1024 := by positivity
  have h1 : ¬ |rnd64 q| < (2:ℝ)^(1024:ℤ) := by
    have : (2:ℝ)^(1024:ℤ) = 2^1024 := by exact_mod_cast rfl
    rw [this]; exact not_lt.2 (h.trans (le_abs_self _))
  unfold F64.round
  rw [dif_neg (by linarith), dif_neg h1]
  exact ⟨_, rfl⟩

theorem round_zero {q : ℝ} (h0 : 0 ≤ q) (h : rnd64 q = 0) : F64.round (L := L) false q = .zero false := by
  unfold F64.round
  rw [dif_pos h]
  have : F64.sgn q = false := by simp [F64.sgn, h0]
  split <;> simp [this]

/-- `strconv.ParseFloat` rounds the number that the literal stands for, unless the literal is very long. -/
theorem parseFloat_spec {lit : List Char} {neg : Bool} {q : ℚ} (h : Denotes lit neg q) (hl : lit.length ≤ 9000) :
    parseFloat (L := L) lit = inRange neg (F64.round (L := L) false (q : ℝ)) := by
  obtain ⟨m, f, k, k', h1, h2, h3, h4, h5⟩ := readFloat_spec h
  have key : (∃ s s', F64.round (L := L) false (q : ℝ) = .inf s ∧ F64.round (L := L) false (((m : ℚ) * 10 ^ (k' - f) : ℚ) : ℝ) = .inf s') ∨
      F64.round (L := L) false (q : ℝ) = F64.round (L := L) false (((m : ℚ) * 10 ^ (k' - f) : ℚ) : ℝ) := by
    rcases h5 with rfl | ⟨h5, h6⟩ | ⟨h5, h6⟩
    · right; rw [h1]
    · rcases Nat.eq_zero_or_pos m with rfl | hm
      · right; rw [h1]; simp
      · left
        have hm' : (1:ℝ) ≤ m := by exact_mod_cast hm
        have big : ∀ j : Int, 10000 ≤ j → (10:ℝ)^(1000:ℤ) ≤ m * (10:ℝ)^(j - f) := fun j hj =>
          calc (10:ℝ)^(1000:ℤ) ≤ (10:ℝ)^(j - f) := zpow_le_zpow_right₀ (by norm_num) (by omega)
            _ ≤ _ := le_mul_of_one_le_left (by positivity) hm'
        obtain ⟨s, hs⟩ := round_inf (L := L) (rnd64_huge (big k (by omega)))
        obtain ⟨s', hs'⟩ := round_inf (L := L) (rnd64_huge (big k' h5))
        exact ⟨s, s', by rw [h1]; push_cast; exact hs, by push_cast; exact hs'⟩
    · right
      have small : ∀ j : Int, j ≤ -10000 → rnd64 (m * (10:ℝ)^(j - f)) = 0 := fun j hj => by
        have hm : (m:ℝ) ≤ (10:ℝ)^(9000:ℤ) := by
          have a : m ≤ 10 ^ 9000 := h3.le.trans (Nat.pow_le_pow_right (by norm_num) hl)
          have b : (10:ℝ)^(9000:ℤ) = (10:ℝ)^(9000:ℕ) := by exact_mod_cast rfl
          rw [b]
          have c : ((10 ^ 9000 : ℕ) : ℝ) = (10:ℝ)^(9000:ℕ) := Nat.cast_pow 10 9000
          rw [← c]
          exact Nat.cast_le.2 a
        apply rnd64_tiny (by positivity)
        calc (m:ℝ) * (10:ℝ)^(j - f) ≤ (10:ℝ)^(9000:ℤ) * (10:ℝ)^(-10000:ℤ) :=
              mul_le_mul hm (zpow_le_zpow_right₀ (by norm_num) (by omega)) (by positivity) (by positivity)
          _ = (10:ℝ)^(-1000:ℤ) := by rw [← zpow_add₀ (by norm_num)]; norm_num
          _ ≤ (10:ℝ)^(-900:ℤ) := zpow_le_zpow_right₀ (by norm_num) (by norm_num)
          _ < _ := pow10_small
      rw [h1]; push_cast
      rw [round_zero (by positivity) (small k (by omega)), round_zero (by positivity) (small k' h5)]
  unfold parseFloat
  simp only [h2]
  rcases key with ⟨s, s', e1, e2⟩ | e
  · rw [e1, e2]; rfl
  · rw [e]

/-- reading a printed number. -/
theorem parse_signed {text : ℝ → List Char} (ht : ∀ x, IsF64 x → 0 < x → (text x).length ≤ 8000 ∧ ∃ q : ℚ, Denotes (text x) false q ∧ rnd64 (q : ℝ) = x) {x : F64 L} {v : ℝ}
    (hv : x.toReal = some v) : parseFloat (signed text x) = some x := by
  obtain ⟨neg, q, h1, h2, h3⟩ := denotes_signed (fun x h1 h2 => (ht x h1 h2).2) hv
  have hl : (signed text x).length ≤ 9000 := by
    cases x with
    | nan => cases hv
    | inf s => cases hv
    | zero s => cases s <;> simp [signed]
    | fin y hy hy0 =>
      unfold signed
      by_cases h : y < 0
      · have := (ht (-y) (isF64_neg hy) (by linarith)).1
        simp only [if_pos h, List.length_cons]; omega
      · have := (ht y hy (lt_of_le_of_ne (not_lt.1 h) (Ne.symm hy0))).1
        simp only [if_neg h]; omega
  have q0 : (0:ℝ) ≤ q := by exact_mod_cast denotes_nonneg h1
  rw [parseFloat_spec h1 hl]
  cases x with
  | nan => cases hv
  | inf s => cases hv
  | zero s =>
    cases hv
    have hq : rnd64 (q:ℝ) = 0 := by
      cases neg with
      | true => simpa [withSign, rnd64_neg] using h2
      | false => simpa [withSign] using h2
    rw [round_zero q0 hq]
    cases neg with
    | true => simp at h3; subst h3; rfl
    | false => simp at h3; subst h3; rfl
  | fin y hy hy0 =>
    obtain rfl : y = v := Option.some.inj hv
    have b := isF64_lt hy
    have habs : |y| < (2:ℝ)^(1024:ℤ) := by
      have : (2:ℝ)^(1024:ℤ) = 2^1024 := by exact_mod_cast rfl
      rw [this]
      have p : (0:ℝ) < 2^971 := by positivity
      linarith
    cases neg with
    | true =>
      have hq : rnd64 (q:ℝ) = -y := by
        have : -rnd64 (q:ℝ) = y := by simpa [withSign, rnd64_neg] using h2
        linarith
      unfold F64.round
      simp only [hq, abs_neg, habs, neg_eq_zero, hy0, dite_true, dite_false]
      simp [F64.neg, inRange]
    | false =>
      have hq : rnd64 (q:ℝ) = y := by simpa [withSign] using h2
      unfold F64.round
      simp only [hq, habs, hy0, dite_true, dite_false]
      simp [inRange]

/-! ### C120 -/

/-- **C120, a score is printed exactly**: what json.Marshal writes for a finite float64 is a JSON number, and the float64 next to the number it stands for is the one that was printed; a minus sign is
written exactly for negative numbers and for `-0`. -/
theorem c120_exact (D : Digits) {x : F64 L} {v : ℝ} (hv : x.toReal = some v) :
    ∃ (neg : Bool) (q : ℚ), Denotes ((D.printer L).text x) neg q ∧ rnd64 (withSign neg q) = v ∧ (neg = true ↔ x = .zero true ∨ v < 0) :=
  denotes_signed (fun x h1 h2 => ⟨_, denotes_json D h1 h2, rounds_back D h1 h2⟩) hv

/-- **C120, a Go client reads the score** that was computed, bit by bit. -/
theorem c120_read_back (D : Digits) {x : F64 L} {v : ℝ} (hv : x.toReal = some v) : parseFloat ((D.printer L).text x) = some x :=
  parse_signed (fun x h1 h2 => ⟨D.length_json h1 h2, _, denotes_json D h1 h2, rounds_back D h1 h2⟩) hv

theorem best_of_isF64 {x : ℝ} (hx : IsF64 x) (y : ℝ) : |y - rnd64 y| ≤ |y - x| := by
  obtain ⟨m, e, h1, h2, -, h4⟩ := hx
  rw [h4]; exact rnd64_best y m e h1 h2

theorem toReal_isF64 {x : F64 L} {v : ℝ} (hv : x.toReal = some v) : IsF64 v := by
  cases x with
  | nan => cases hv
  | inf s => cases hv
  | zero s => cases hv; exact isF64_zero
  | fin y hy hy0 => obtain rfl : y = v := Option.some.inj hv; exact hy

/-- **C120, the printed scores are in the order of the scores**: a client that compares the printed numbers, however exactly, orders the documents as the search did. -/
theorem c120_order (D : Digits) {x y : F64 L} {v w : ℝ} (hv : x.toReal = some v) (hw : y.toReal = some w) {neg neg' : Bool} {q q' : ℚ}
    (h : Denotes ((D.printer L).text x) neg q) (h' : Denotes ((D.printer L).text y) neg' q') : v < w ↔ withSign neg q < withSign neg' q' := by
  obtain ⟨n1, q1, h1, h2, h3⟩ := c120_exact D hv
  obtain ⟨n2, q2, h1', h2', h3'⟩ := c120_exact D hw
  obtain ⟨e1, e2⟩ := denotes_unique h h1
  obtain ⟨e3, e4⟩ := denotes_unique h' h1'
  rw [← e1, ← e2] at h2
  rw [← e3, ← e4] at h2'
  have lt : ∀ {a b v w : ℝ}, IsF64 v → IsF64 w → rnd64 a = v → rnd64 b = w → v < w → a < b := by
    intro a b v w fv fw ha hb hvw
    have b1 := best_of_isF64 fw a
    have b2 := best_of_isF64 fv b
    rw [ha] at b1; rw [hb] at b2
    by_contra hc
    push Not at hc
    have a1 : a ≤ (v + w) / 2 := by
      by_contra h; push Not at h
      rw [abs_of_nonneg (by linarith)] at b1
      rcases le_total a w with h4 | h4
      · rw [abs_of_nonpos (by linarith)] at b1; linarith
      · rw [abs_of_nonneg (by linarith)] at b1; linarith
    have a2 : (v + w) / 2 ≤ b := by
      by_contra h; push Not at h
      rw [abs_of_nonpos (by linarith : b - w ≤ 0)] at b2
      rcases le_total b v with h4 | h4
      · rw [abs_of_nonpos (by linarith)] at b2; linarith
      · rw [abs_of_nonneg (by linarith)] at b2; linarith
    have : a = b := by linarith
    subst this
    rw [ha] at hb; linarith
  constructor
  · exact lt (toReal_isF64 hv) (toReal_isF64 hw) h2 h2'
  · intro hlt
    by_contra hc
    push Not at hc
    rcases hc.eq_or_lt with e | e
    · -- equal scores have equal texts, up to the sign of zero
      have hs : withSign neg' q' = withSign neg q := by
        cases x with
        | nan => cases hv
        | inf s => cases hv
        | zero s =>
          cases hv
          cases y with
          | nan => cases hw
          | inf s => cases hw
          | zero s' =>
            have z : ∀ (s n : Bool) (q : ℚ), Denotes ((D.printer L).text (F64.zero s : F64 L)) n q → withSign n q = 0 := by
              intro s n q hd
              have h0 : Denotes ['0'] false 0 := ⟨['0'], [], [], 0, 0, rfl, .inl rfl, .inl ⟨rfl, rfl⟩, .inl ⟨rfl, rfl⟩, by norm_num [digitsVal]⟩
              cases s with
              | true => obtain ⟨rfl, rfl⟩ := denotes_unique hd (denotes_neg h0); simp [withSign]
              | false => obtain ⟨rfl, rfl⟩ := denotes_unique hd h0; simp [withSign]
            rw [z _ _ _ h, z _ _ _ h']
          | fin b hb hb0 => exact absurd (Option.some.inj hw) (by rw [e]; exact hb0)
        | fin a ha ha0 =>
          obtain rfl : a = v := Option.some.inj hv
          cases y with
          | nan => cases hw
          | inf s => cases hw
          | zero s => cases hw; exact absurd e.symm ha0
          | fin b hb hb0 =>
            obtain rfl : b = w := Option.some.inj hw
            subst e
            obtain ⟨rfl, rfl⟩ := denotes_unique h h'
            rfl
      rw [hs] at hlt; exact lt_irrefl _ hlt
    · exact lt_asymm hlt (lt (toReal_isF64 hw) (toReal_isF64 hv) h2' h2 e)

/-- json.Marshal's printer is one that C114 to C119 are about. -/
theorem printer_ok (D : Digits) : (D.printer L).Ok := by
  intro x hx
  have : ∃ v, x.toReal = some v := by
    cases x with
    | nan => cases hx
    | inf s => cases hx
    | zero s => exact ⟨_, rfl⟩
    | fin y hy hy0 => exact ⟨_, rfl⟩
  obtain ⟨v, hv⟩ := this
  obtain ⟨neg, q, h, -⟩ := c120_exact D hv
  exact denotes_number h

/-- **C120, the answer of GET /nir**: if the search returns ten documents or more, and the scores of the first ten are finite, the body lists these ten in order, and the number next to each, read as a float64, is
its score. -/
theorem c120_answer (D : Digits) (env : TextEnv) (st : Reads) (cpus : Nat) (raw : List UInt8) {out : Option (Nat × List UInt8)} (h : Http.GetsBytes env (D.printer L) st cpus raw out) :
    ∃ rs : Scores (F64 L), SState.Returns st (Http.queries (termsOf env (Http.queryText raw))) cpus rs ∧
      (10 ≤ rs.length → (∀ x ∈ rs.take 10, x.2.toReal ≠ none) → ∃ body texts, out = some (200, body) ∧ Tells body 10 "BM25" (some texts) ∧
        List.Forall₂ (fun x t => t.1 = x.1 ∧ ∃ (neg : Bool) (q : ℚ) (v : ℝ), Denotes t.2 neg q ∧ x.2.toReal = some v ∧ rnd64 (withSign neg q) = v ∧ parseFloat t.2 = some x.2) (rs.take 10) texts) := by
  obtain ⟨rs, h1, -, h3, -⟩ := Http.c114_answer env (printer_ok D) st cpus raw h
  refine ⟨rs, h1, fun hl hf => ?_⟩
  obtain ⟨body, h4, h5⟩ := h3 hl (fun x hx => by
    have := hf x hx
    obtain ⟨d, x⟩ := x
    cases x with
    | nan => exact absurd rfl this
    | inf s => exact absurd rfl this
    | zero s => rfl
    | fin y hy hy0 => rfl)
  refine ⟨body, _, h4, h5, ?_⟩
  rw [List.forall₂_map_right_iff]
  refine List.forall₂_same.2 fun x hx => ⟨rfl, ?_⟩
  obtain ⟨v, hv⟩ := Option.ne_none_iff_exists'.1 (hf x hx)
  obtain ⟨neg, q, h6, h7, -⟩ := c120_exact D hv
  exact ⟨neg, q, v, h6, hv, h7, c120_read_back D hv⟩

/-! ### C121 -/

theorem round_isSome {q : ℝ} (h0 : 0 ≤ q) (neg : Bool) : (inRange neg (F64.round (L := L) false q)).isSome = true ↔ q < 2^1024 - 2^970 := by
  have hiff := overflow_iff h0
  have hn := rnd64_nonneg h0
  have e : (2:ℝ)^(1024:ℤ) = 2^1024 := by exact_mod_cast rfl
  constructor
  · intro h
    by_contra hc
    push Not at hc
    obtain ⟨s, hs⟩ := round_inf (L := L) (hiff.2 hc)
    rw [hs] at h; cases h
  · intro h
    have hlt : rnd64 q < 2^1024 := by
      by_contra hc; push Not at hc
      have := hiff.1 hc; linarith
    have : |rnd64 q| < (2:ℝ)^(1024:ℤ) := by rw [e, abs_of_nonneg hn]; exact hlt
    unfold F64.round
    split
    · rfl
    · rfl

/-- **C121, which numbers are accepted**: json.Unmarshal accepts a number exactly if its absolute value is less than `2^1024 - 2^970`, the middle between the largest float64 and the next power of two. -/
theorem c121_accepted {lit : List Char} {neg : Bool} {q : ℚ} (h : Denotes lit neg q) (hl : lit.length ≤ 9000) : numOk L lit = true ↔ (q : ℝ) < 2^1024 - 2^970 := by
  unfold numOk
  rw [parseFloat_spec h hl]
  exact round_isSome (by exact_mod_cast denotes_nonneg h) neg

theorem inRange_finite {neg : Bool} {y x : F64 L} (h : inRange neg y = some x) (hy : ∃ v, y.toReal = some v) : ∃ v, x.toReal = some v := by
  obtain ⟨v, hv⟩ := hy
  cases y with
  | nan => cases hv
  | inf s => cases h
  | zero s => cases neg <;> (cases h; exact ⟨_, rfl⟩)
  | fin a ha ha0 => cases neg <;> (cases h; exact ⟨_, rfl⟩)

/-- the float64 of an accepted number. -/
theorem parse_value {lit : List Char} {neg : Bool} {q : ℚ} (h : Denotes lit neg q) (hl : lit.length ≤ 9000) (hq : (q : ℝ) < 2^1024 - 2^970) :
    ∃ x : F64 L, parseFloat lit = some x ∧ x.toReal = some (rnd64 (withSign neg q)) ∧ (x = .zero true ↔ neg = true ∧ rnd64 (q : ℝ) = 0) := by
  have q0 : (0:ℝ) ≤ q := by exact_mod_cast denotes_nonneg h
  rw [parseFloat_spec h hl]
  have hiff := overflow_iff q0
  have hn := rnd64_nonneg q0
  have e : (2:ℝ)^(1024:ℤ) = 2^1024 := by exact_mod_cast rfl
  have hlt : rnd64 (q:ℝ) < 2^1024 := by
    by_contra hc; push Not at hc
    have := hiff.1 hc; linarith
  have habs : |rnd64 (q:ℝ)| < (2:ℝ)^(1024:ℤ) := by rw [e, abs_of_nonneg hn]; exact hlt
  by_cases hz : rnd64 (q:ℝ) = 0
  · rw [round_zero q0 hz]
    cases neg with
    | true => exact ⟨_, rfl, by simp [withSign, rnd64_neg, hz, F64.toReal, F64.neg], by simp [F64.neg, hz]⟩
    | false => exact ⟨_, rfl, by simp [withSign, hz, F64.toReal], by simp⟩
  · have hr : F64.round (L := L) false (q:ℝ) = .fin (rnd64 q) (isF64_rnd64 habs) hz := by
      unfold F64.round; rw [dif_neg hz, dif_pos habs]
    rw [hr]
    cases neg with
    | true => exact ⟨_, rfl, by simp [withSign, rnd64_neg, F64.toReal, F64.neg], by simp [F64.neg, hz]⟩
    | false => exact ⟨_, rfl, by simp [withSign, F64.toReal], by simp⟩

/-- **C121, what is indexed for a number**: the text stands for a number that has the same nearest float64 as the one in the document. -/
theorem c121_printed (D : Digits) {lit : List Char} {neg : Bool} {q : ℚ} (h : Denotes lit neg q) (hl : lit.length ≤ 9000) (hq : (q : ℝ) < 2^1024 - 2^970) :
    ∃ (s : List Char) (q' : ℚ), D.fmtNum L lit = String.ofList s ∧ Denotes s neg q' ∧ rnd64 (q' : ℝ) = rnd64 (q : ℝ) := by
  obtain ⟨x, h1, h2, h3⟩ := parse_value (L := L) h hl hq
  obtain ⟨n, q', h4, h5, h6⟩ := denotes_signed (text := D.fmtText) (fun x h1 h2 => ⟨_, denotes_fmt D h1 h2, rounds_back D h1 h2⟩) h2
  have q0 : (0:ℝ) ≤ q := by exact_mod_cast denotes_nonneg h
  have hr := rnd64_nonneg q0
  have hn : n = neg := by
    have : n = true ↔ neg = true := by
      rw [h6, h3]
      cases neg with
      | true =>
        simp only [withSign, if_true, rnd64_neg, true_and, iff_true]
        rcases hr.eq_or_lt with e | e
        · exact .inl e.symm
        · exact .inr (by linarith)
      | false => simp only [withSign, Bool.false_eq_true, if_false, false_and, false_or, iff_false]; linarith
    exact Bool.eq_iff_iff.2 this
  subst hn
  refine ⟨_, q', by unfold Digits.fmtNum; rw [h1], h4, ?_⟩
  cases n with
  | true => simpa [withSign, rnd64_neg] using h5
  | false => simpa [withSign] using h5

/-- **C121, when two numbers are indexed alike**: exactly if they have the same sign and the same nearest float64. -/
theorem c121_same (D : Digits) {lit lit' : List Char} {neg neg' : Bool} {q q' : ℚ} (h : Denotes lit neg q) (hl : lit.length ≤ 9000) (hq : (q : ℝ) < 2^1024 - 2^970)
    (h' : Denotes lit' neg' q') (hl' : lit'.length ≤ 9000) (hq' : (q' : ℝ) < 2^1024 - 2^970) :
    D.fmtNum L lit = D.fmtNum L lit' ↔ neg = neg' ∧ rnd64 (q : ℝ) = rnd64 (q' : ℝ) := by
  constructor
  · intro e
    obtain ⟨s, r, h1, h2, h3⟩ := c121_printed (L := L) D h hl hq
    obtain ⟨s', r', h1', h2', h3'⟩ := c121_printed (L := L) D h' hl' hq'
    rw [h1, h1'] at e
    obtain rfl : s = s' := by simpa using congrArg String.toList e
    obtain ⟨rfl, rfl⟩ := denotes_unique h2 h2'
    exact ⟨rfl, h3.symm.trans h3'⟩
  · rintro ⟨rfl, e⟩
    have q0 : (0:ℝ) ≤ q := by exact_mod_cast denotes_nonneg h
    have q0' : (0:ℝ) ≤ q' := by exact_mod_cast denotes_nonneg h'
    unfold Digits.fmtNum
    rw [parseFloat_spec h hl, parseFloat_spec h' hl']
    have : F64.round (L := L) false (q:ℝ) = F64.round false (q':ℝ) := by
      by_cases hz : rnd64 (q:ℝ) = 0
      · rw [round_zero q0 hz, round_zero q0' (e ▸ hz)]
      · have hz' : rnd64 (q':ℝ) ≠ 0 := e ▸ hz
        unfold F64.round
        rw [dif_neg hz, dif_neg hz']
        by_cases hb : |rnd64 (q:ℝ)| < (2:ℝ)^(1024:ℤ)
        · have hb' : |rnd64 (q':ℝ)| < (2:ℝ)^(1024:ℤ) := e ▸ hb
          rw [dif_pos hb, dif_pos hb']
          simp only [e]
        · have hb' : ¬ |rnd64 (q':ℝ)| < (2:ℝ)^(1024:ℤ) := e ▸ hb
          rw [dif_neg hb, dif_neg hb']
          have s1 : F64.sgn (q:ℝ) = false := by simpa [F64.sgn] using q0
          have s2 : F64.sgn (q':ℝ) = false := by simpa [F64.sgn] using q0'
          rw [s1, s2]
    rw [this]

/-! ### whole numbers -/

theorem pow_le_of_length {n : Nat} (h : 0 < n) : 10 ^ ((Nat.toDigits 10 n).length - 1) ≤ n := by
  by_contra hc
  push Not at hc
  rcases Nat.eq_zero_or_pos ((Nat.toDigits 10 n).length - 1) with e | e
  · rw [e] at hc; simp at hc; omega
  · have := length_le_of_lt e hc; omega

theorem toDigits_shift {d : Nat} (h : 0 < d) (k : Nat) : Nat.toDigits 10 (d * 10 ^ k) = Nat.toDigits 10 d ++ List.replicate k '0' := by
  induction k with
  | zero => simp
  | succ k ih =>
    have hp : 0 < d * 10 ^ k := Nat.mul_pos h (Nat.pow_pos (by norm_num))
    have e1 : d * 10 ^ (k + 1) = (d * 10 ^ k) * 10 := by rw [pow_succ]; ring
    rw [e1, toDigits_step (by omega), Nat.mul_div_cancel _ (by norm_num), Nat.mul_mod_left, ih, List.append_assoc]
    congr 1
    rw [List.replicate_succ']; rfl

theorem isF64_nat {n : Nat} (h : n < 2^53) : IsF64 (n : ℝ) := ⟨n, 0, by rw [abs_of_nonneg (by positivity)]; exact_mod_cast h, by norm_num, by norm_num, by simp⟩

/-- what is rounded to a small whole number is close to it. -/
theorem near_nat {n : Nat} (hn : n ≤ 10^6) {y : ℝ} (h : rnd64 y = n) : |y - n| ≤ 1/2^33 := by
  have up := rnd64_best y (n * 2^32 + 1) (-32) (by rw [abs_of_nonneg (by positivity)]; omega) (by norm_num)
  have dn := rnd64_best y (n * 2^32 - 1) (-32) (by rw [abs_lt]; constructor <;> omega) (by norm_num)
  have e : (2:ℝ)^(-32:ℤ) = 1/2^32 := by rw [zpow_neg]; norm_num
  rw [h, e] at up dn
  push_cast at up dn
  have e1 : (((n:ℝ) * 4294967296 + 1) * (1/2^32)) = n + 1/2^32 := by ring
  have e2 : (((n:ℝ) * 4294967296 - 1) * (1/2^32)) = n - 1/2^32 := by ring
  rw [e1] at up; rw [e2] at dn
  rw [abs_le]
  have c : (1:ℝ)/2^32 = 1/2^33 + 1/2^33 := by norm_num
  have c0 : (0:ℝ) < 1/2^33 := by positivity
  constructor
  · by_contra hc
    push Not at hc
    rw [abs_of_nonpos (by linarith)] at dn
    rcases le_total y (n - 1/2^32) with h4 | h4
    · rw [abs_of_nonpos (by linarith)] at dn; linarith
    · rw [abs_of_nonneg (by linarith)] at dn; linarith
  · by_contra hc
    push Not at hc
    rw [abs_of_nonneg (by linarith)] at up
    rcases le_total y (n + 1/2^32) with h4 | h4
    · rw [abs_of_nonpos (by linarith)] at up; linarith
    · rw [abs_of_nonneg (by linarith)] at up; linarith

/-- the shortest digits of a small whole number are its own. -/
theorem shortest_nat {n d : Nat} {e : Int} (h0 : 0 < n) (hn : n ≤ 10^6) (h : Shortest (n:ℝ) d e) : 0 ≤ e ∧ d * 10 ^ e.toNat = n := by
  obtain ⟨h1, h2⟩ := h
  have hc := near_nat hn h1
  have hlen := h2 n 0 (by simpa using rnd64_of_isF64 (isF64_nat (by omega)))
  have hd := lt_pow_length d
  have hln : (Nat.toDigits 10 n).length ≤ 7 := length_le_of_lt (by norm_num) (by omega)
  rcases le_or_gt 0 e with he | he
  · refine ⟨he, ?_⟩
    obtain ⟨k, rfl⟩ := Int.eq_ofNat_of_zero_le he
    simp only [Int.ofNat_eq_natCast, zpow_natCast, Int.toNat_natCast] at hc ⊢
    have a := abs_le.1 hc
    have b1 : ((d * 10 ^ k : Nat) : ℝ) < (n:ℝ) + 1 := by push_cast; linarith [show (1:ℝ)/2^33 < 1 by norm_num]
    have b2 : (n:ℝ) < ((d * 10 ^ k : Nat) : ℝ) + 1 := by push_cast; linarith [show (1:ℝ)/2^33 < 1 by norm_num]
    have b1' : d * 10 ^ k < n + 1 := by exact_mod_cast b1
    have b2' : n < d * 10 ^ k + 1 := by exact_mod_cast b2
    omega
  · exfalso
    obtain ⟨j, hj⟩ : ∃ j : Nat, e = -j := ⟨(-e).toNat, by omega⟩
    have hj0 : 0 < j := by omega
    subst hj
    rw [zpow_neg, zpow_natCast] at hc
    have p : (0:ℝ) < 10^j := by positivity
    have hc' : |(d:ℝ) - n * 10^j| ≤ 10^j / 2^33 := by
      have e1 : (d:ℝ) - n * 10^j = (d * (10^j)⁻¹ - n) * 10^j := by field_simp
      rw [e1, abs_mul, abs_of_pos p]
      calc _ ≤ 1/2^33 * (10:ℝ)^j := by gcongr
        _ = _ := by ring
    by_cases hdn : d = n * 10 ^ j
    · have a := pow_le_of_length h0
      have b : 10 ^ (Nat.toDigits 10 n).length ≤ d := by
        have l := length_toDigits_pos n
        calc 10 ^ (Nat.toDigits 10 n).length = 10 ^ ((Nat.toDigits 10 n).length - 1) * 10 := by rw [← pow_succ]; congr 1; omega
          _ ≤ n * 10 ^ j := Nat.mul_le_mul a (by calc 10 = 10 ^ 1 := rfl
                                                    _ ≤ 10 ^ j := Nat.pow_le_pow_right (by norm_num) hj0)
          _ = d := hdn.symm
      have := Nat.pow_le_pow_right (n := 10) (by norm_num) hlen
      omega
    · have one : (1:ℝ) ≤ |(d:ℝ) - n * 10^j| := by
        have : (d:ℤ) - n * 10^j ≠ 0 := by
          intro hz; apply hdn; have : (d:ℤ) = n * 10^j := by linarith
          exact_mod_cast this
        have := Int.one_le_abs this
        exact_mod_cast this
      have big : (2:ℝ)^33 ≤ 10^j := by
        have := one.trans hc'
        rw [le_div_iff₀ (by positivity)] at this; linarith
      have hd7 : (d:ℝ) < 10^7 := by
        have : d < 10^7 := lt_of_lt_of_le hd (Nat.pow_le_pow_right (by norm_num) (hlen.trans hln))
        exact_mod_cast this
      have hn1 : (1:ℝ) ≤ n := by exact_mod_cast h0
      have a := abs_le.1 hc'
      have : (10:ℝ)^j / 2^33 ≤ 10^j / 2 := by gcongr; norm_num
      have : (10:ℝ)^j ≤ n * 10^j := le_mul_of_one_le_left p.le hn1
      norm_num at big
      linarith

theorem denotes_nat (n : Nat) : Denotes (Nat.toDigits 10 n) false n :=
  ⟨_, [], [], 0, 0, by simp, isInt_toDigits n, .inl ⟨rfl, rfl⟩, .inl ⟨rfl, rfl⟩, by rw [digitsVal_toDigits]; simp⟩

/-- what is printed for a whole number, from its shortest digits. -/
theorem fmtNum_nat (D : Digits) {n : Nat} (h0 : 0 < n) (hn : n ≤ 10^6) : D.fmtNum L (Nat.toDigits 10 n) = String.ofList (D.fmtText n) := by
  have hl : (Nat.toDigits 10 n).length ≤ 7 := length_le_of_lt (by norm_num) (by omega)
  have hf := isF64_nat (n := n) (by omega)
  have hq : (((n : ℚ)) : ℝ) < 2^1024 - 2^970 := by
    have a : (n:ℝ) ≤ 10^6 := by exact_mod_cast hn
    push_cast
    refine lt_of_le_of_lt a ?_
    norm_num
  obtain ⟨x, h1, h2, h3⟩ := parse_value (L := L) (denotes_nat n) (by omega) hq
  unfold Digits.fmtNum
  rw [h1]
  have hv : rnd64 (withSign false (n : ℚ)) = n := by simp only [withSign, Bool.false_eq_true, if_false]; push_cast; exact rnd64_of_isF64 hf
  rw [hv] at h2
  have hp : (0:ℝ) < n := by exact_mod_cast h0
  cases x with
  | nan => cases h2
  | inf s => cases h2
  | zero s => exact absurd (Option.some.inj h2) hp.ne
  | fin y hy hy0 =>
    obtain rfl : y = n := Option.some.inj h2
    simp only [signed, if_neg (not_lt.2 hp.le)]

/-- **C121, whole numbers below a million** are printed as they are written, so they are indexed under their digits. -/
theorem c121_integers (D : Digits) {n : Nat} (hn : n < 10^6) : D.fmtNum L (Nat.toDigits 10 n) = String.ofList (Nat.toDigits 10 n) := by
  rcases Nat.eq_zero_or_pos n with rfl | h0
  · have h := denotes_nat 0
    obtain ⟨x, h1, h2, h3⟩ := parse_value (L := L) h (by decide) (by norm_num)
    unfold Digits.fmtNum
    rw [h1]
    have hv : rnd64 (withSign false ((0 : Nat) : ℚ)) = 0 := by simp [withSign]
    rw [hv] at h2
    cases x with
    | nan => cases h2
    | inf s => cases h2
    | zero s =>
      cases s with
      | true => have := (h3.1 rfl).1; cases this
      | false => rfl
    | fin y hy hy0 => exact absurd (Option.some.inj h2) hy0
  · rw [fmtNum_nat D h0 hn.le]
    congr 1
    have hp : (0:ℝ) < n := by exact_mod_cast h0
    have hs := D.short n (isF64_nat (by omega)) hp
    obtain ⟨s1, s2⟩ := shortest_nat h0 hn.le hs
    have hd := D.pos (isF64_nat (n := n) (by omega)) hp
    have hdig : Nat.toDigits 10 n = Nat.toDigits 10 (D.digits n) ++ List.replicate (D.exp n).toNat '0' := by rw [← toDigits_shift hd, s2]
    have hl : (Nat.toDigits 10 n).length ≤ 6 := length_le_of_lt (by norm_num) hn
    have hlen := congrArg List.length hdig
    simp only [List.length_append, List.length_replicate] at hlen
    have l1 := length_toDigits_pos (D.digits n)
    unfold Digits.fmtText Digits.decimal fmtF
    simp only
    rw [if_neg (by omega), if_neg (by omega), if_pos (by omega), hdig]
    congr 2
    omega

/-- **C121 refuted for larger ones**: 1000000 is printed as `1e+06`. -/
theorem c121_million_refuted (D : Digits) : D.fmtNum L (Nat.toDigits 10 1000000) = "1e+06" := by
  rw [fmtNum_nat D (by norm_num) (by norm_num)]
  have hp : (0:ℝ) < (1000000 : Nat) := by norm_num
  have hf := isF64_nat (n := 1000000) (by norm_num)
  have hs := D.short _ hf hp
  obtain ⟨s1, s2⟩ := shortest_nat (n := 1000000) (by norm_num) (by norm_num) hs
  have hlen := hs.2 1 6 (by
    have : ((1:Nat):ℝ) * (10:ℝ)^(6:ℤ) = ((1000000 : Nat) : ℝ) := by norm_num
    rw [this]; exact rnd64_of_isF64 hf)
  have h10 : D.digits (1000000 : Nat) < 10 := by
    have := lt_pow_length (D.digits (1000000 : Nat))
    have h1 : (Nat.toDigits 10 1).length = 1 := by decide
    rw [h1] at hlen
    have := Nat.pow_le_pow_right (n := 10) (by norm_num) hlen
    omega
  have hd : D.digits (1000000 : Nat) = 1 ∧ (D.exp (1000000 : Nat)).toNat = 6 := by
    generalize D.digits (1000000 : Nat) = d at *
    generalize (D.exp (1000000 : Nat)).toNat = k at *
    have hk : k ≤ 6 := by
      by_contra hk
      have : 10 ^ 7 ≤ 10 ^ k := Nat.pow_le_pow_right (by norm_num) (by omega)
      have : d ≠ 0 := by rintro rfl; simp at s2
      have : 10 ^ k ≤ d * 10 ^ k := Nat.le_mul_of_pos_left _ (by omega)
      omega
    interval_cases k <;> omega
  have he : D.exp (1000000 : Nat) = 6 := by omega
  unfold Digits.fmtText Digits.decimal
  rw [hd.1, he]
  have h1 : Nat.toDigits 10 1 = ['1'] := by decide
  rw [h1]
  have : ((['1'].length : Int) + 6) = 7 := by decide
  rw [this]
  rw [if_pos (by norm_num)]
  decide

theorem rnd64_tie : rnd64 ((9007199254740993 : Nat) : ℝ) = ((9007199254740992 : Nat) : ℝ) := by
  have hp : (0:ℝ) < ((9007199254740993 : Nat) : ℝ) := by norm_num
  rw [rnd64_of_pos hp]
  have hlog : Int.log 2 ((9007199254740993 : Nat) : ℝ) = 53 := by
    rw [Int.log_natCast]
    have : Nat.log 2 9007199254740993 = 53 := Nat.log_eq_of_pow_le_of_lt_pow (by norm_num) (by norm_num)
    rw [this]; rfl
  have hu : ulp64 ((9007199254740993 : Nat) : ℝ) = 2 := by
    unfold ulp64
    rw [abs_of_pos hp, hlog]; norm_num
  have fl : ⌊((9007199254740993 : Nat) : ℝ) / 2⌋ = 2^52 := by
    rw [Int.floor_eq_iff]; constructor <;> norm_num
  have : R53.nearest (((9007199254740993 : Nat) : ℝ) / 2) = 2^52 := by
    unfold R53.nearest
    have fr : Int.fract (((9007199254740993 : Nat) : ℝ) / 2) = 1/2 := by
      rw [← Int.self_sub_floor, fl]; norm_num
    rw [fr, fl, if_neg (by norm_num), if_neg (by norm_num), if_pos (by decide)]
  rw [hu, this]; norm_num

/-- **C121 refuted for ids**: the numbers 9007199254740993 and 9007199254740992, as ids of two documents, are one id. -/
theorem c121_ids_clash_refuted (D : Digits) : D.fmtNum L (Nat.toDigits 10 9007199254740993) = D.fmtNum L (Nat.toDigits 10 9007199254740992) := by
  refine (c121_same D (denotes_nat _) (by decide) ?_ (denotes_nat _) (by decide) ?_).2 ⟨rfl, ?_⟩
  · push_cast; norm_num
  · push_cast; norm_num
  · rw [Rat.cast_natCast, Rat.cast_natCast, rnd64_tie, rnd64_of_isF64 ⟨2^52, 1, by norm_num, by norm_num, by norm_num, by norm_num⟩]

/-- **C121 refuted for very long literals**: one that stands for 1 is indexed as 0, because strconv stops reading an exponent after 10000. -/
theorem c121_long_refuted (D : Digits) : ∃ lit : List Char, Denotes lit false 1 ∧ D.fmtNum L lit = "0" := by
  obtain ⟨N, hN⟩ : ∃ N : Nat, N = 100000 := ⟨_, rfl⟩
  refine ⟨'0' :: '.' :: ((List.replicate N '0' ++ ['1']) ++ ['e', '1', '0', '0', '0', '0', '1']), ?_, ?_⟩
  · refine ⟨['0'], '.' :: (List.replicate N '0' ++ ['1']), ['e', '1', '0', '0', '0', '0', '1'], 1 / 10 ^ (N + 1), (N : Int) + 1, by simp, .inl rfl, .inr ⟨_, ?_, rfl, ?_⟩, .inr ⟨'e', [], ['1', '0', '0', '0', '0', '1'], .inl rfl, ⟨by simp, by decide⟩, rfl, .inl ⟨.inl rfl, ?_⟩⟩, ?_⟩
    · exact ⟨by simp, fun c hc => (List.mem_append.1 hc).elim (zeros_digits _ c) (fun h => by rw [List.mem_singleton.1 h]; decide)⟩
    · rw [digitsVal_append, digitsVal_zeros, List.length_append, List.length_replicate]; simp [digitsVal]
    · have : digitsVal ['1', '0', '0', '0', '0', '1'] = 100001 := by decide
      rw [this, hN]; norm_num
    · have e2 : digitsVal ['0'] = 0 := by decide
      have : (10:ℚ) ^ ((N:Int) + 1) = 10 ^ (N + 1) := by exact_mod_cast zpow_natCast (10:ℚ) (N + 1)
      rw [e2, this]
      have : (10:ℚ) ^ (N + 1) ≠ 0 := by positivity
      field_simp
      simp
  · have hm : mantissa ('0' :: '.' :: ((List.replicate N '0' ++ ['1']) ++ ['e', '1', '0', '0', '0', '0', '1'])) false 0 0 = (1, N + 1, ['e', '1', '0', '0', '0', '0', '1']) := by
      rw [mantissa, if_pos (by decide), mantissa, if_neg (by decide), if_pos (by decide), mantissa_digits (fun c hc => (List.mem_append.1 hc).elim (zeros_digits _ c) (fun h => by rw [List.mem_singleton.1 h]; decide)),
        mantissa_stop (fun c t h => by cases h; exact .inl rfl)]
      rw [digitsVal_append, digitsVal_zeros, List.length_append, List.length_replicate]
      simp [digitsVal]
    have he : exponent ['e', '1', '0', '0', '0', '0', '1'] = 10000 := by decide
    have hr : readFloat ('0' :: '.' :: ((List.replicate N '0' ++ ['1']) ++ ['e', '1', '0', '0', '0', '0', '1'])) = (false, 1 * 10 ^ ((10000 : Int) - (N + 1 : Nat))) := by
      unfold readFloat
      simp only [List.head?_cons, Option.some.injEq, show ('0' = '-') = False by simp, decide_false, Bool.false_eq_true, if_false, hm, he]
      simp
    unfold Digits.fmtNum parseFloat
    rw [hr]
    simp only
    have hz : rnd64 (((1 * 10 ^ ((10000 : Int) - (N + 1 : Nat)) : ℚ)) : ℝ) = 0 := by
      push_cast
      apply rnd64_tiny (by positivity)
      rw [one_mul]
      refine lt_of_le_of_lt (zpow_le_zpow_right₀ (by norm_num) ?_) pow10_small
      omega
    rw [round_zero (by positivity) hz]
    rfl

end Strconv
end Goir
