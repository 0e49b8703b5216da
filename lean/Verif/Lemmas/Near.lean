import Verif.Props.Rounded
/-!
# Relative closeness

`Near m x y`: the non-negative numbers `x` and `y` differ by at most `m` roundings, that is, by a factor between `(1 - 2^-53)^m` and its inverse.
-/
namespace Goir
namespace R53

/-- one minus the relative error of a rounding. -/
noncomputable def rho : ℝ := 1 - 1/2^53

theorem rho_pos : 0 < rho := by unfold rho; norm_num
theorem rho_lt : rho < 1 := by unfold rho; norm_num

structure Near (m : ℕ) (x y : ℝ) : Prop where
  nx : 0 ≤ x
  ny : 0 ≤ y
  le : x * rho^m ≤ y
  ge : y * rho^m ≤ x

theorem rho_pow_pos (m : ℕ) : 0 < rho^m := pow_pos rho_pos m
theorem rho_pow_le (m : ℕ) : rho^m ≤ 1 := pow_le_one₀ rho_pos.le rho_lt.le

namespace Near
variable {m n : ℕ} {x y z x' y' : ℝ}

theorem refl (h : 0 ≤ x) : Near 0 x x := ⟨h, h, by simp, by simp⟩

theorem of_eq (h : 0 ≤ y) (e : x = y) : Near 0 x y := e ▸ refl (e ▸ h)

theorem symm (h : Near m x y) : Near m y x := ⟨h.ny, h.nx, h.ge, h.le⟩

theorem mono (h : Near m x y) (hm : m ≤ n) : Near n x y := by
  have e : rho^n ≤ rho^m := pow_le_pow_of_le_one rho_pos.le rho_lt.le hm
  exact ⟨h.nx, h.ny, (mul_le_mul_of_nonneg_left e h.nx).trans h.le, (mul_le_mul_of_nonneg_left e h.ny).trans h.ge⟩

theorem trans (h : Near m x y) (h' : Near n y z) : Near (m + n) x z := by
  refine ⟨h.nx, h'.ny, ?_, ?_⟩
  · rw [pow_add, ← mul_assoc]
    exact (mul_le_mul_of_nonneg_right h.le (rho_pow_pos n).le).trans h'.le
  · rw [pow_add, mul_comm (rho^m), ← mul_assoc]
    exact (mul_le_mul_of_nonneg_right h'.ge (rho_pow_pos m).le).trans h.ge

theorem rnd (h : 0 ≤ x) : Near 1 (rnd x) x := by
  rcases eq_or_lt_of_le h with rfl | h
  · rw [rnd_zero]; exact ⟨le_rfl, le_rfl, by simp, by simp⟩
  have h1 := rnd_gt h
  have h2 := rnd_lt h
  refine ⟨(rnd_pos h).le, h.le, ?_, ?_⟩
  · rw [pow_one]
    have e : (1 + 1/2^53 : ℝ) * rho ≤ 1 := by unfold rho; norm_num
    calc R53.rnd x * rho ≤ x * (1 + 1/2^53) * rho := mul_le_mul_of_nonneg_right h2 rho_pos.le
      _ = x * ((1 + 1/2^53) * rho) := by ring
      _ ≤ x * 1 := mul_le_mul_of_nonneg_left e h.le
      _ = x := mul_one x
  · rw [pow_one]; exact h1

/-- rounding a near number. -/
theorem rounded (h : Near m x y) : Near (m + 1) (R53.rnd x) y := by
  rw [Nat.add_comm]; exact (rnd h.nx).trans h

theorem mul (h : Near m x y) (h' : Near n x' y') : Near (m + n) (x * x') (y * y') := by
  refine ⟨mul_nonneg h.nx h'.nx, mul_nonneg h.ny h'.ny, ?_, ?_⟩
  · calc x * x' * rho^(m+n) = (x * rho^m) * (x' * rho^n) := by rw [pow_add]; ring
      _ ≤ y * y' := mul_le_mul h.le h'.le (mul_nonneg h'.nx (rho_pow_pos n).le) h.ny
  · calc y * y' * rho^(m+n) = (y * rho^m) * (y' * rho^n) := by rw [pow_add]; ring
      _ ≤ x * x' := mul_le_mul h.ge h'.ge (mul_nonneg h'.ny (rho_pow_pos n).le) h.nx

theorem zero_iff (h : Near m x y) : x = 0 ↔ y = 0 := by
  constructor
  · rintro rfl
    have := h.ge
    have h2 := rho_pow_pos m
    by_contra hy
    have : 0 < y := lt_of_le_of_ne h.ny (Ne.symm hy)
    have := mul_pos this h2
    linarith
  · rintro rfl
    have := h.le
    have h2 := rho_pow_pos m
    by_contra hy
    have : 0 < x := lt_of_le_of_ne h.nx (Ne.symm hy)
    have := mul_pos this h2
    linarith

theorem inv (h : Near m x y) : Near m x⁻¹ y⁻¹ := by
  rcases eq_or_lt_of_le h.nx with e | hx
  · have hy := h.zero_iff.1 e.symm
    subst hy
    rw [← e]
    exact ⟨by simp, by simp, by simp, by simp⟩
  · have hy : 0 < y := lt_of_le_of_ne h.ny (fun e => hx.ne' (h.zero_iff.2 e.symm))
    refine ⟨(inv_pos.2 hx).le, (inv_pos.2 hy).le, ?_, ?_⟩
    · rw [inv_mul_le_iff₀ hx, ← div_eq_mul_inv, le_div_iff₀ hy, mul_comm]; exact h.ge
    · rw [inv_mul_le_iff₀ hy, ← div_eq_mul_inv, le_div_iff₀ hx, mul_comm]; exact h.le

theorem div (h : Near m x y) (h' : Near n x' y') : Near (m + n) (x / x') (y / y') := by
  rw [div_eq_mul_inv, div_eq_mul_inv]; exact h.mul h'.inv

theorem add (h : Near m x y) (h' : Near m x' y') : Near m (x + x') (y + y') := by
  refine ⟨add_nonneg h.nx h'.nx, add_nonneg h.ny h'.ny, ?_, ?_⟩
  · rw [add_mul]; exact add_le_add h.le h'.le
  · rw [add_mul]; exact add_le_add h.ge h'.ge

/-- the logarithm of `rho`. -/
theorem neg_log_rho : 0 < - Real.log rho ∧ - Real.log rho ≤ 2/2^53 := by
  constructor
  · have := Real.log_neg rho_pos rho_lt; linarith
  · have := Real.one_sub_inv_le_log_of_pos rho_pos
    have e : rho⁻¹ ≤ 1 + 2/2^53 := by
      rw [inv_le_comm₀ rho_pos (by norm_num)]; unfold rho; norm_num
    linarith

theorem rho_pow_eq (k : ℕ) : rho^k = Real.exp (-(k * (- Real.log rho))) := by
  rw [mul_neg, neg_neg, ← Real.log_pow, Real.exp_log (rho_pow_pos k)]

/-- logarithms of near numbers differ by little. -/
theorem log_sub (h : Near m x y) (hx : 0 < x) (hy : 0 < y) : |Real.log x - Real.log y| ≤ m * (- Real.log rho) := by
  have h1 := Real.log_le_log (mul_pos hx (rho_pow_pos m)) h.le
  have h2 := Real.log_le_log (mul_pos hy (rho_pow_pos m)) h.ge
  rw [Real.log_mul hx.ne' (rho_pow_pos m).ne', Real.log_pow] at h1
  rw [Real.log_mul hy.ne' (rho_pow_pos m).ne', Real.log_pow] at h2
  rw [abs_le]
  constructor <;> linarith

/-- logarithms of near numbers that are at least 1, the second with a logarithm of at least `1/s`, are near. -/
theorem log (h : Near m x y) (hx : 1 ≤ x) (hy : 1 ≤ y) {s : ℕ} (hs : 1 ≤ s * Real.log y) (hb : m * s ≤ 2^51) : Near (2 * (m * s)) (Real.log x) (Real.log y) := by
  have hd := h.log_sub (by linarith) (by linarith)
  set L := - Real.log rho with hL
  obtain ⟨L0, L1⟩ := neg_log_rho
  rw [← hL] at L0 L1
  have hly : 0 < Real.log y := by
    by_contra hc
    have : Real.log y = 0 := le_antisymm (not_lt.1 hc) (Real.log_nonneg hy)
    rw [this, mul_zero] at hs
    linarith
  set t : ℝ := m * s * L with ht
  have t0 : 0 ≤ t := by positivity
  have t1 : t ≤ 1/2 := by
    have hb' : (m:ℝ) * s ≤ 2^51 := by exact_mod_cast hb
    calc t ≤ 2^51 * (2/2^53) := mul_le_mul hb' L1 L0.le (by positivity)
      _ = 1/2 := by norm_num
  have hle : (m:ℝ) * L ≤ t * Real.log y := by
    have : (m:ℝ) * L * 1 ≤ m * L * (s * Real.log y) := mul_le_mul_of_nonneg_left hs (by positivity)
    calc (m:ℝ) * L = m * L * 1 := by ring
      _ ≤ m * L * (s * Real.log y) := this
      _ = t * Real.log y := by rw [ht]; ring
  rw [abs_le] at hd
  have e : rho^(2 * (m * s)) = Real.exp (-(2 * t)) := by
    rw [rho_pow_eq]; congr 1; push_cast; rw [ht]; ring
  have e1 : (1 + 2 * t) * Real.exp (-(2 * t)) ≤ 1 := by
    have := Real.add_one_le_exp (2 * t)
    calc (1 + 2 * t) * Real.exp (-(2 * t)) ≤ Real.exp (2 * t) * Real.exp (-(2 * t)) := mul_le_mul_of_nonneg_right (by linarith) (Real.exp_pos _).le
      _ = 1 := by rw [← Real.exp_add]; simp
  have e0 := Real.exp_pos (-(2 * t))
  refine ⟨Real.log_nonneg hx, hly.le, ?_, ?_⟩
  · rw [e]
    have : Real.log x ≤ Real.log y * (1 + 2 * t) := by nlinarith [hd.2]
    calc Real.log x * Real.exp (-(2 * t)) ≤ Real.log y * (1 + 2 * t) * Real.exp (-(2 * t)) := mul_le_mul_of_nonneg_right this e0.le
      _ = Real.log y * ((1 + 2 * t) * Real.exp (-(2 * t))) := by ring
      _ ≤ Real.log y * 1 := mul_le_mul_of_nonneg_left e1 hly.le
      _ = Real.log y := mul_one _
  · rw [e]
    have h3 : Real.log y * (1 - t) ≤ Real.log x := by nlinarith [hd.1]
    refine le_trans (mul_le_mul_of_nonneg_left ?_ hly.le) h3
    have h4 : 1 ≤ (1 - t) * (1 + 2 * t) := by nlinarith
    have h5 : 0 ≤ 1 - t := by linarith
    calc Real.exp (-(2 * t)) = 1 * Real.exp (-(2 * t)) := (one_mul _).symm
      _ ≤ (1 - t) * (1 + 2 * t) * Real.exp (-(2 * t)) := mul_le_mul_of_nonneg_right h4 e0.le
      _ = (1 - t) * ((1 + 2 * t) * Real.exp (-(2 * t))) := by ring
      _ ≤ (1 - t) * 1 := mul_le_mul_of_nonneg_left e1 h5
      _ = 1 - t := mul_one _

/-- the relative error. -/
theorem error (h : Near m x y) (hm : m ≤ 2^52) : |x - y| ≤ 2 * m / 2^53 * y := by
  have hb : (m:ℝ) ≤ 2^52 := by exact_mod_cast hm
  have h0 : (0:ℝ) ≤ m := Nat.cast_nonneg m
  have e : 1 - m / 2^53 ≤ rho^m := by
    have := one_add_mul_le_pow (a := -(1/2^53 : ℝ)) (by norm_num) m
    have e2 : rho = 1 + -(1/2^53) := by unfold rho; ring
    rw [e2]
    refine le_trans (le_of_eq ?_) this
    ring
  set a : ℝ := m / 2^53 with ha
  have a0 : 0 ≤ a := by positivity
  have a1 : a ≤ 1/2 := by rw [ha, div_le_iff₀ (by norm_num)]; norm_num at hb ⊢; linarith
  have h2a : 2 * (m:ℝ) / 2^53 = 2 * a := by rw [ha]; ring
  rw [h2a, abs_le]
  have hx := h.nx
  have hy := h.ny
  constructor
  · have := mul_le_mul_of_nonneg_left e hy
    have h3 := h.ge
    nlinarith
  · have := mul_le_mul_of_nonneg_left e hx
    have h3 := h.le
    have h4 : x * (1 - a) ≤ y := this.trans h3
    have h5 : x * (1 - a) * (1 + 2 * a) ≤ y * (1 + 2 * a) := mul_le_mul_of_nonneg_right h4 (by linarith)
    have h6 : 1 ≤ (1 - a) * (1 + 2 * a) := by nlinarith
    have h7 : x ≤ x * ((1 - a) * (1 + 2 * a)) := le_mul_of_one_le_right hx h6
    nlinarith
end Near

/-- integers of up to 53 bits are exact, and so are their multiples by powers of two. -/
theorem rnd_int (z : ℤ) (h : |z| < 2^53) : R53.rnd z = z := by
  rcases eq_or_ne z 0 with rfl | hz
  · simp
  have hz' : (z:ℝ) ≠ 0 := by exact_mod_cast hz
  have hp : 0 < |(z:ℝ)| := abs_pos.2 hz'
  obtain ⟨l1, l2⟩ := log_bounds hp
  have hlt : |(z:ℝ)| < 2^(53:ℤ) := by rw [← Int.cast_abs]; exact_mod_cast h
  have hge : (1:ℝ) ≤ |(z:ℝ)| := by rw [← Int.cast_abs]; exact_mod_cast Int.one_le_abs hz
  have he : Int.log 2 |(z:ℝ)| < 53 := (Int.lt_zpow_iff_log_lt (b := 2) (by norm_num) hp).1 (by exact_mod_cast hlt)
  set e := Int.log 2 |(z:ℝ)| with hee
  obtain ⟨j, hj⟩ : ∃ j : ℕ, (52 : ℤ) - e = j := ⟨(52 - e).toNat, by omega⟩
  have hu : ulp (z:ℝ) = ((2:ℝ)^j)⁻¹ := by
    unfold ulp
    rw [← hee, show e - 52 = -(j:ℤ) by omega, zpow_neg, zpow_natCast]
  have hq : |(z:ℝ)| / ulp z = ((|z| * 2^j : ℤ) : ℝ) := by
    rw [hu, div_inv_eq_mul]; push_cast; rfl
  unfold R53.rnd
  rw [hq, nearest_int, ← hq, div_mul_cancel₀ _ (ulp_pos _).ne']
  exact sign_mul_abs _

theorem rnd_half_int (z : ℤ) (h : |z| < 2^53) : R53.rnd (z / 2) = z / 2 := by
  have := rnd_mul_pow (z:ℝ) (-1)
  rw [rnd_int z h] at this
  have e : (z:ℝ) * 2^(-1:ℤ) = z / 2 := by rw [zpow_neg_one]; rfl
  rwa [e] at this

end R53
end Goir
