import Verif.Model.Rounding64
import Verif.Lemmas.Rounded
/-!
# Facts about rounding to float64
-/
namespace Goir
open R53

theorem ulp64_pos (x : ℝ) : 0 < ulp64 x := by unfold ulp64; positivity

@[simp] theorem rnd64_zero : rnd64 0 = 0 := by simp [rnd64]

theorem rnd64_neg (x : ℝ) : rnd64 (-x) = - rnd64 x := by
  unfold rnd64 ulp64
  rw [abs_neg, Left.sign_neg]
  simp

/-- above `2^-1022` the bound on the exponent does not matter. -/
theorem rnd64_eq {x : ℝ} (h : (2:ℝ)^(-1022 : ℤ) ≤ |x|) : rnd64 x = rnd x := by
  have h0 : 0 < |x| := lt_of_lt_of_le (by positivity) h
  have : -1022 ≤ Int.log 2 |x| := by
    have h1 := (log_bounds h0).2
    have h2 : (2:ℝ)^(-1022 : ℤ) < 2^(Int.log 2 |x| + 1) := lt_of_le_of_lt h h1
    have := (zpow_lt_zpow_iff_right₀ (by norm_num : (1:ℝ) < 2)).1 h2
    omega
  unfold rnd64 rnd ulp64 ulp
  rw [max_eq_left this]

theorem nearest_le {x : ℝ} {n : ℤ} (h : x ≤ n) : nearest x ≤ n := by
  have h1 := abs_le.1 (nearest_sub x)
  have h2 : (nearest x : ℝ) < n + 1 := by linarith [h1.1]
  have : nearest x < n + 1 := by exact_mod_cast h2
  omega

theorem le_nearest {x : ℝ} {n : ℤ} (h : (n:ℝ) ≤ x) : n ≤ nearest x := by
  have h1 := abs_le.1 (nearest_sub x)
  have h2 : (n:ℝ) - 1 < nearest x := by linarith [h1.2]
  have : n - 1 < nearest x := by exact_mod_cast h2
  omega

/-- the significand of a float64 number. -/
theorem significand64 (x : ℝ) : 0 ≤ |x| / ulp64 x ∧ |x| / ulp64 x < 2^53 := by
  refine ⟨div_nonneg (abs_nonneg _) (ulp64_pos x).le, ?_⟩
  rw [div_lt_iff₀ (ulp64_pos x)]
  unfold ulp64
  rcases eq_or_ne x 0 with rfl | hx
  · simp
  · have h0 : 0 < |x| := abs_pos.2 hx
    have h1 := (log_bounds h0).2
    have h2 : (2:ℝ)^(Int.log 2 |x| + 1) ≤ 2^(max (Int.log 2 |x|) (-1022) + 1) := zpow_le_zpow_right₀ (by norm_num) (by omega)
    have h3 : (2:ℝ)^53 * 2^(max (Int.log 2 |x|) (-1022) - 52) = 2^(max (Int.log 2 |x|) (-1022) + 1) := by
      rw [← zpow_natCast, ← zpow_add₀ (by norm_num)]
      congr 1; push_cast; ring
    rw [h3]
    exact lt_of_lt_of_le h1 h2

theorem isF64_neg {x : ℝ} (h : IsF64 x) : IsF64 (-x) := by
  obtain ⟨m, e, h1, h2, h3, rfl⟩ := h
  exact ⟨-m, e, by rwa [abs_neg], h2, h3, by push_cast; ring⟩

theorem isF64_zero : IsF64 0 := ⟨0, 0, by norm_num, by norm_num, by norm_num, by simp⟩

/-- what does not overflow is rounded to a float64 number. -/
theorem isF64_rnd64 {x : ℝ} (h : |rnd64 x| < (2:ℝ)^(1024:ℤ)) : IsF64 (rnd64 x) := by
  obtain ⟨s0, s1⟩ := significand64 x
  set n := nearest (|x| / ulp64 x) with hn
  have n0 : 0 ≤ n := le_nearest (by exact_mod_cast s0)
  have n1 : n ≤ 2^53 := nearest_le (by rw [Int.cast_pow, Int.cast_ofNat]; exact s1.le)
  have key : IsF64 (n * ulp64 x) ∨ (2:ℝ)^(1024:ℤ) ≤ n * ulp64 x := by
    unfold ulp64
    set k := max (Int.log 2 |x|) (-1022) with hk
    have k0 : -1022 ≤ k := le_max_right _ _
    rcases lt_or_eq_of_le n1 with n1 | n1
    · rcases le_or_gt (k - 52) 971 with hk1 | hk1
      · exact .inl ⟨n, k - 52, by rwa [abs_of_nonneg n0], by omega, hk1, rfl⟩
      · right
        have hlog : k = Int.log 2 |x| := by rw [hk]; apply max_eq_left; omega
        have hx : x ≠ 0 := by
          rintro rfl
          simp at hlog; omega
        have hs := (significand hx).1
        have hu : ulp64 x = ulp x := by unfold ulp64 ulp; rw [← hk, ← hlog]
        have : (2:ℤ)^52 ≤ n := le_nearest (by rw [hu, Int.cast_pow, Int.cast_ofNat]; exact hs)
        have h52 : ((2:ℝ)^52) ≤ n := by exact_mod_cast this
        have e : (2:ℝ)^(1024:ℤ) = (2:ℝ)^52 * (2:ℝ)^(972:ℤ) := by
          rw [← zpow_natCast, ← zpow_add₀ (by norm_num)]; norm_num
        rw [e]
        exact mul_le_mul h52 (zpow_le_zpow_right₀ (by norm_num) (by omega)) (by positivity) (by exact_mod_cast n0)
    · rcases le_or_gt (k - 51) 971 with hk1 | hk1
      · left
        refine ⟨2^52, k - 51, by norm_num, by omega, hk1, ?_⟩
        rw [n1, Int.cast_pow, Int.cast_pow, Int.cast_ofNat]
        have : (2:ℝ)^(k - 51) = 2^(k-52) * 2 := by
          rw [show k - 51 = (k - 52) + 1 by ring, zpow_add₀ (by norm_num), zpow_one]
        rw [this]; ring
      · right
        rw [n1, Int.cast_pow, Int.cast_ofNat]
        have e : (2:ℝ)^(1024:ℤ) = (2:ℝ)^53 * (2:ℝ)^(971:ℤ) := by
          rw [← zpow_natCast, ← zpow_add₀ (by norm_num)]; norm_num
        rw [e]
        exact mul_le_mul_of_nonneg_left (zpow_le_zpow_right₀ (by norm_num) (by omega)) (by positivity)
  have hpos : (0:ℝ) ≤ n * ulp64 x := mul_nonneg (by exact_mod_cast n0) (ulp64_pos x).le
  unfold rnd64 at h ⊢
  rw [← hn] at h ⊢
  rcases lt_trichotomy x 0 with hx | hx | hx
  · rw [sign_neg hx] at h ⊢
    have e : (((-1 : SignType) : ℝ)) * (n * ulp64 x) = -(n * ulp64 x) := by simp
    rw [e] at h ⊢
    rw [abs_neg, abs_of_nonneg hpos] at h
    rcases key with k | k
    · exact isF64_neg k
    · linarith
  · rw [hx]; simp only [sign_zero, SignType.coe_zero, zero_mul]; exact isF64_zero
  · rw [sign_pos hx] at h ⊢
    have e : (((1 : SignType) : ℝ)) * (n * ulp64 x) = n * ulp64 x := by simp
    rw [e] at h ⊢
    rw [abs_of_nonneg hpos] at h
    rcases key with k | k
    · exact k
    · linarith

/-- the nearest integer is nearest. -/
theorem nearest_best (x : ℝ) (n : ℤ) : |x - nearest x| ≤ |x - n| := by
  rcases eq_or_ne (nearest x) n with e | e
  · rw [e]
  · have h1 := nearest_sub x
    have h2 : (1:ℝ) ≤ |(nearest x : ℝ) - n| := by
      have : 1 ≤ |nearest x - n| := Int.one_le_abs (sub_ne_zero.2 e)
      exact_mod_cast this
    have h3 : |(nearest x : ℝ) - n| ≤ |x - nearest x| + |x - n| := by
      have := abs_sub_le (nearest x : ℝ) x n
      rwa [abs_sub_comm (nearest x : ℝ) x] at this
    linarith

theorem rnd64_of_pos {x : ℝ} (hx : 0 < x) : rnd64 x = nearest (x / ulp64 x) * ulp64 x := by
  unfold rnd64
  rw [sign_pos hx, abs_of_pos hx]; simp

/-- no float64 number is closer (numbers beyond the largest one included). -/
theorem rnd64_best_pos {x : ℝ} (hx : 0 < x) (m e : ℤ) (hm : |m| < 2^53) (he : -1074 ≤ e) : |x - rnd64 x| ≤ |x - m * (2:ℝ)^e| := by
  have hu := ulp64_pos x
  have mult : ∀ n : ℤ, |x - rnd64 x| ≤ |x - n * ulp64 x| := by
    intro n
    rw [rnd64_of_pos hx]
    have h := nearest_best (x / ulp64 x) n
    have e1 : ∀ k : ℤ, |x - k * ulp64 x| = |x / ulp64 x - k| * ulp64 x := by
      intro k
      rw [← abs_of_pos hu, ← abs_mul, abs_of_pos hu, sub_mul, div_mul_cancel₀ _ hu.ne']
    rw [e1, e1]
    exact mul_le_mul_of_nonneg_right h hu.le
  rcases le_or_gt (max (Int.log 2 |x|) (-1022) - 52) e with h | h
  · obtain ⟨d, hd⟩ := Int.eq_ofNat_of_zero_le (sub_nonneg.2 h)
    have : (m : ℝ) * (2:ℝ)^e = ((m * 2^d : ℤ) : ℝ) * ulp64 x := by
      unfold ulp64
      have e2 : (2:ℝ)^e = (2:ℝ)^d * (2:ℝ)^(max (Int.log 2 |x|) (-1022) - 52) := by
        rw [← zpow_natCast, ← zpow_add₀ (by norm_num), ← hd]; congr 1; ring
      rw [e2]; push_cast; ring
    rw [this]; exact mult _
  · have hlog : max (Int.log 2 |x|) (-1022) = Int.log 2 |x| := max_eq_left (by omega)
    have hb := (log_bounds (abs_pos.2 hx.ne')).1
    rw [abs_of_pos hx] at hb hlog
    set k := Int.log 2 x with hk
    have hy : (m : ℝ) * (2:ℝ)^e ≤ (2:ℝ)^k := by
      have h1 : (m : ℝ) ≤ (2:ℝ)^53 := by
        have := (abs_lt.1 hm).2
        have : (m:ℝ) < ((2^53 : ℤ) : ℝ) := by exact_mod_cast this
        rw [Int.cast_pow, Int.cast_ofNat] at this; exact this.le
      have h2 : (2:ℝ)^e ≤ (2:ℝ)^(k - 53) := zpow_le_zpow_right₀ (by norm_num) (by rw [abs_of_pos hx, hlog] at h; omega)
      have h3 : (2:ℝ)^53 * (2:ℝ)^(k - 53) = (2:ℝ)^k := by
        rw [← zpow_natCast, ← zpow_add₀ (by norm_num)]; congr 1; push_cast; ring
      calc (m : ℝ) * (2:ℝ)^e ≤ (2:ℝ)^53 * (2:ℝ)^e := mul_le_mul_of_nonneg_right h1 (by positivity)
        _ ≤ (2:ℝ)^53 * (2:ℝ)^(k - 53) := mul_le_mul_of_nonneg_left h2 (by positivity)
        _ = (2:ℝ)^k := h3
    have h4 : ((2^52 : ℤ) : ℝ) * ulp64 x = (2:ℝ)^k := by
      unfold ulp64
      rw [abs_of_pos hx, hlog, Int.cast_pow, Int.cast_ofNat, ← zpow_natCast, ← zpow_add₀ (by norm_num)]; congr 1; push_cast; ring
    have h5 := mult (2^52)
    rw [h4] at h5
    refine h5.trans ?_
    rw [abs_of_nonneg (by linarith), abs_of_nonneg (by linarith)]
    linarith

theorem rnd64_best (x : ℝ) (m e : ℤ) (hm : |m| < 2^53) (he : -1074 ≤ e) : |x - rnd64 x| ≤ |x - m * (2:ℝ)^e| := by
  rcases lt_trichotomy x 0 with hx | hx | hx
  · have := rnd64_best_pos (neg_pos.2 hx) (-m) e (by rwa [abs_neg]) he
    rw [rnd64_neg] at this
    push_cast at this
    have e1 : |-x - -rnd64 x| = |x - rnd64 x| := by rw [← abs_neg]; congr 1; ring
    have e2 : |-x - -(m:ℝ) * (2:ℝ)^e| = |x - m * (2:ℝ)^e| := by rw [← abs_neg]; congr 1; ring
    rwa [e1, e2] at this
  · rw [hx, rnd64_zero, sub_zero, abs_zero]; exact abs_nonneg _
  · exact rnd64_best_pos hx m e hm he

/-- float64 numbers are not changed. -/
theorem rnd64_of_isF64 {x : ℝ} (h : IsF64 x) : rnd64 x = x := by
  obtain ⟨m, e, h1, h2, -, rfl⟩ := h
  have := rnd64_best (m * (2:ℝ)^e) m e h1 h2
  rw [sub_self, abs_zero] at this
  exact (sub_eq_zero.1 (abs_eq_zero.1 (le_antisymm this (abs_nonneg _)))).symm

end Goir
