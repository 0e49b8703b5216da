import Verif.Model.Rounding
import Mathlib.Tactic.Linarith
import Mathlib.Tactic.NormNum
import Mathlib.Tactic.Positivity
import Mathlib.Tactic.Ring
/-!
# Rounding to 53 bits
-/
namespace Goir
namespace R53

theorem nearest_int (n : ℤ) : nearest n = n := by
  unfold nearest; rw [if_pos (by rw [Int.fract_intCast]; norm_num), Int.floor_intCast]

theorem nearest_sub (x : ℝ) : |x - nearest x| ≤ 1/2 := by
  have h0 := Int.fract_nonneg x
  have h1 := Int.fract_lt_one x
  have h2 := Int.floor_add_fract x
  unfold nearest
  split
  · rw [abs_le]; constructor <;> linarith
  · split
    · push_cast; rw [abs_le]; constructor <;> linarith
    · rename_i h3 h4
      have : Int.fract x = 1/2 := le_antisymm (not_lt.1 h4) (not_lt.1 h3)
      split
      · rw [abs_le]; constructor <;> linarith
      · push_cast; rw [abs_le]; constructor <;> linarith

/-- an integer closer than one half is the nearest. -/
theorem nearest_eq {x : ℝ} {n : ℤ} (h : |x - n| < 1/2) : nearest x = n := by
  have h1 := nearest_sub x
  have h2 : |((nearest x - n : ℤ) : ℝ)| < 1 := by
    push_cast
    calc |(nearest x : ℝ) - n| = |(x - n) - (x - nearest x)| := by congr 1; ring
      _ ≤ |x - n| + |x - nearest x| := abs_sub _ _
      _ < 1 := by linarith
  rw [← Int.cast_abs] at h2
  have : |nearest x - n| < 1 := by exact_mod_cast h2
  have := Int.abs_lt_one_iff.1 this
  omega

theorem ulp_pos (x : ℝ) : 0 < ulp x := by unfold ulp; positivity

/-- the exponent is determined by the bounds. -/
theorem log_eq {x : ℝ} {e : ℤ} (h1 : (2:ℝ)^e ≤ x) (h2 : x < (2:ℝ)^(e+1)) : Int.log 2 x = e := by
  have hx : 0 < x := lt_of_lt_of_le (by positivity) h1
  apply le_antisymm
  · have := (Int.lt_zpow_iff_log_lt (b := 2) (by norm_num) hx (x := e + 1)).1 (by exact_mod_cast h2)
    omega
  · exact (Int.zpow_le_iff_le_log (b := 2) (by norm_num) hx (x := e)).1 (by exact_mod_cast h1)

theorem log_bounds {x : ℝ} (hx : 0 < x) : (2:ℝ)^(Int.log 2 x) ≤ x ∧ x < (2:ℝ)^(Int.log 2 x + 1) := by
  constructor
  · have := Int.zpow_log_le_self (b := 2) (by norm_num) hx; exact_mod_cast this
  · have := Int.lt_zpow_succ_log_self (b := 2) (by norm_num) x; exact_mod_cast this

theorem log_mul_pow {x : ℝ} (hx : 0 < x) (k : ℤ) : Int.log 2 (x * 2^k) = Int.log 2 x + k := by
  obtain ⟨h1, h2⟩ := log_bounds hx
  have hk : (0:ℝ) < 2^k := by positivity
  apply log_eq
  · rw [zpow_add₀ (by norm_num)]; exact mul_le_mul_of_nonneg_right h1 hk.le
  · rw [show Int.log 2 x + k + 1 = (Int.log 2 x + 1) + k by ring, zpow_add₀ (by norm_num)]
    exact mul_lt_mul_of_pos_right h2 hk

@[simp] theorem rnd_zero : rnd 0 = 0 := by simp [rnd]

theorem rnd_neg (x : ℝ) : rnd (-x) = - rnd x := by
  have hu : ulp (-x) = ulp x := by simp [ulp]
  unfold rnd
  rw [hu, abs_neg, Left.sign_neg]
  simp

/-- scaling by a power of two is exact. -/
theorem rnd_mul_pow (x : ℝ) (k : ℤ) : rnd (x * 2^k) = rnd x * 2^k := by
  rcases eq_or_ne x 0 with rfl | hx
  · simp
  have hk : (0:ℝ) < 2^k := by positivity
  have hu : ulp (x * 2^k) = ulp x * 2^k := by
    unfold ulp
    rw [abs_mul, abs_of_pos hk, log_mul_pow (abs_pos.2 hx), ← zpow_add₀ (by norm_num)]
    congr 1; ring
  unfold rnd
  rw [hu, abs_mul, abs_of_pos hk, mul_div_mul_right _ _ hk.ne', sign_mul, sign_pos hk, mul_one]
  ring

/-- the significand of a nonzero number is between `2^52` and `2^53`. -/
theorem significand {x : ℝ} (hx : x ≠ 0) : (2:ℝ)^52 ≤ |x| / ulp x ∧ |x| / ulp x < 2^53 := by
  obtain ⟨h1, h2⟩ := log_bounds (abs_pos.2 hx)
  have hu := ulp_pos x
  have e1 : (2:ℝ)^(Int.log 2 |x|) = 2^52 * ulp x := by
    unfold ulp
    rw [← zpow_natCast, ← zpow_add₀ (by norm_num)]; congr 1; push_cast; ring
  have e2 : (2:ℝ)^(Int.log 2 |x| + 1) = 2^53 * ulp x := by
    rw [zpow_add₀ (by norm_num), e1]; norm_num; ring
  constructor
  · rw [le_div_iff₀ hu, ← e1]; exact h1
  · rw [div_lt_iff₀ hu, ← e2]; exact h2

/-- rounding errs by at most half a unit in the last place … -/
theorem rnd_sub (x : ℝ) : |x - rnd x| ≤ ulp x / 2 := by
  rcases eq_or_ne x 0 with rfl | hx
  · rw [rnd_zero, sub_self, abs_zero]; have := ulp_pos 0; linarith
  have hu := ulp_pos x
  have h := nearest_sub (|x| / ulp x)
  have e : x - rnd x = SignType.sign x * ((|x| / ulp x - nearest (|x| / ulp x)) * ulp x) := by
    unfold rnd
    rw [sub_mul, div_mul_cancel₀ _ hu.ne', mul_sub, sign_mul_abs]
  rw [e, abs_mul, abs_mul, abs_of_pos hu]
  have hs : |((SignType.sign x : SignType) : ℝ)| = 1 := by
    rcases lt_or_gt_of_ne hx with h | h
    · rw [sign_neg h]; simp
    · rw [sign_pos h]; simp
  rw [hs, one_mul]
  have := mul_le_mul_of_nonneg_right h hu.le
  linarith

/-- … that is, by a relative error of at most `2^-53`. -/
theorem rnd_rel (x : ℝ) : |x - rnd x| ≤ |x| * 2^(-53 : ℤ) := by
  rcases eq_or_ne x 0 with rfl | hx
  · simp
  refine (rnd_sub x).trans ?_
  have h := (significand hx).1
  have hu := ulp_pos x
  rw [le_div_iff₀ hu] at h
  have : (2:ℝ)^(-53 : ℤ) = 1 / 2^53 := by norm_num
  rw [this]
  have e : ulp x / 2 = (2^52 * ulp x) * (1 / 2^53) := by norm_num; ring
  rw [e]
  exact mul_le_mul_of_nonneg_right h (by positivity)

/-- the rounded value of a nonzero number: its sign, an integer of at most 53 bits and the unit. -/
theorem rnd_ne_zero {x : ℝ} (hx : x ≠ 0) : rnd x ≠ 0 := by
  intro h
  have h1 := rnd_rel x
  rw [h, sub_zero] at h1
  have h0 := abs_pos.2 hx
  have e : (2:ℝ)^(-53 : ℤ) = 1 / 2^53 := by norm_num
  rw [e] at h1
  have : |x| * (1 / 2^53) < |x| * 1 := mul_lt_mul_of_pos_left (by norm_num) h0
  linarith

theorem rnd_pos {x : ℝ} (hx : 0 < x) : 0 < rnd x := by
  have h := rnd_rel x
  have e : (2:ℝ)^(-53 : ℤ) = 1 / 2^53 := by norm_num
  rw [e, abs_of_pos hx, abs_le] at h
  norm_num at h
  linarith [h.2]

/-- a number of 53 bits is not changed, and neither is it when a tiny multiple of itself is added. -/
theorem rnd_absorb {x δ : ℝ} {m : ℤ} {k : ℤ} (h1 : 2^52 ≤ m) (h2 : m < 2^53) (hx : x = m * 2^k) (hδ : 0 ≤ δ) (hd : δ < 2^k / 2) : rnd (x + δ) = x := by
  have hk : (0:ℝ) < 2^k := by positivity
  have m1 : (2:ℝ)^52 ≤ m := by exact_mod_cast h1
  have m2 : (m:ℝ) ≤ 2^53 - 1 := by
    have : m ≤ 2^53 - 1 := by omega
    have : (m:ℝ) ≤ ((2^53 - 1 : ℤ) : ℝ) := by exact_mod_cast this
    norm_num at this ⊢
    exact this
  have hpos : 0 < x := by rw [hx]; have : (0:ℝ) < m := lt_of_lt_of_le (by positivity) m1; positivity
  have hpos' : 0 < x + δ := by linarith
  have hlog : Int.log 2 |x + δ| = 52 + k := by
    rw [abs_of_pos hpos']
    apply log_eq
    · rw [zpow_add₀ (by norm_num)]
      have : (2:ℝ)^(52:ℤ) = 2^52 := by norm_cast
      rw [this, hx]
      nlinarith
    · rw [show (52 + k + 1 : ℤ) = 53 + k by ring, zpow_add₀ (by norm_num)]
      have : (2:ℝ)^(53:ℤ) = 2^53 := by norm_cast
      rw [this, hx]
      nlinarith
  have hu : ulp (x + δ) = 2^k := by unfold ulp; rw [hlog]; congr 1; ring
  have hn : nearest ((x + δ) / 2^k) = m := by
    apply nearest_eq
    have : (x + δ) / 2^k - m = δ / 2^k := by rw [hx, add_div, mul_div_cancel_right₀ _ hk.ne']; ring
    rw [this, abs_of_nonneg (by positivity), div_lt_iff₀ hk]
    linarith
  unfold rnd
  rw [hu, abs_of_pos hpos', hn, sign_pos hpos', hx]
  simp

/-- a positive result of rounding is an integer of exactly 53 bits times a power of two. -/
theorem rnd_form {y : ℝ} (hy : 0 < y) : ∃ m k : ℤ, 2^52 ≤ m ∧ m < 2^53 ∧ rnd y = m * 2^k := by
  obtain ⟨s1, s2⟩ := significand hy.ne'
  have e : rnd y = nearest (|y| / ulp y) * 2^(Int.log 2 |y| - 52) := by unfold rnd; rw [sign_pos hy]; simp [ulp]
  have h := nearest_sub (|y| / ulp y)
  rw [abs_le] at h
  have n1 : (2:ℤ)^52 ≤ nearest (|y| / ulp y) := by
    by_contra hc
    have hc : nearest (|y| / ulp y) ≤ 2^52 - 1 := by omega
    have : ((nearest (|y| / ulp y) : ℤ) : ℝ) ≤ 2^52 - 1 := by exact_mod_cast hc
    linarith [h.2]
  have n2 : nearest (|y| / ulp y) ≤ 2^53 := by
    by_contra hc
    have hc : 2^53 + 1 ≤ nearest (|y| / ulp y) := by omega
    have : (2:ℝ)^53 + 1 ≤ ((nearest (|y| / ulp y) : ℤ) : ℝ) := by exact_mod_cast hc
    linarith [h.1]
  rcases lt_or_eq_of_le n2 with n2 | n2
  · exact ⟨_, _, n1, n2, e⟩
  · refine ⟨2^52, Int.log 2 |y| - 52 + 1, le_refl _, by norm_num, ?_⟩
    rw [e, n2, zpow_add₀ (by norm_num)]
    push_cast
    ring

theorem rnd_idem {y : ℝ} (hy : 0 < y) : rnd (rnd y) = rnd y := by
  obtain ⟨m, k, h1, h2, h3⟩ := rnd_form hy
  have := rnd_absorb h1 h2 h3 (le_refl 0) (by positivity)
  rwa [add_zero] at this

theorem rnd_rnd (x : ℝ) : rnd (rnd x) = rnd x := by
  rcases lt_trichotomy x 0 with h | rfl | h
  · have := rnd_idem (neg_pos.2 h)
    rw [rnd_neg, rnd_neg] at this
    exact neg_injective this
  · rw [rnd_zero, rnd_zero]
  · exact rnd_idem h

/-- adding `2^-54` of itself to a rounded number has no effect. -/
theorem rnd_add_tiny {y : ℝ} (hy : 0 < y) : rnd (rnd y + rnd y * 2^(-54 : ℤ)) = rnd y := by
  obtain ⟨m, k, h1, h2, h3⟩ := rnd_form hy
  have hk : (0:ℝ) < 2^k := by positivity
  have hp := rnd_pos hy
  refine rnd_absorb h1 h2 h3 (by positivity) ?_
  have m2 : (m:ℝ) < 2^53 := by exact_mod_cast h2
  have e : (2:ℝ)^(-54 : ℤ) = 1 / 2^54 := by norm_num
  rw [h3, e]
  have : (m:ℝ) * 2^k * (1 / 2^54) = (m / 2^54) * 2^k := by ring
  rw [this, div_eq_mul_one_div (2^k : ℝ) 2, mul_comm ((2:ℝ)^k)]
  apply mul_lt_mul_of_pos_right _ hk
  rw [div_lt_div_iff₀ (by positivity) (by norm_num)]
  norm_num at m2 ⊢
  linarith

end R53
end Goir
