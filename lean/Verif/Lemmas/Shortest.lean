import Verif.Lemmas.Strconv
import Mathlib.Algebra.Order.Floor.Ring
import Mathlib.Data.Int.Log
/-!
# Seventeen digits are enough; the border of the largest float64
-/
namespace Goir
namespace Strconv
open R53

set_option exponentiation.threshold 2000

/-- two different float64 numbers are not close. -/
theorem gap {x w : ℝ} (hx : IsF64 x) (hw : IsF64 w) (h0 : 0 < x) (hne : w ≠ x) : x < |w - x| * (2^53 + 1) := by
  obtain ⟨m, e, hm, -, -, rfl⟩ := hx
  obtain ⟨m', e', hm', -, -, rfl⟩ := hw
  have pe : (0:ℝ) < 2 ^ e := by positivity
  have pe' : (0:ℝ) < 2 ^ e' := by positivity
  have one : ∀ n : ℤ, n ≠ 0 → (1:ℝ) ≤ |(n:ℝ)| := fun n hn => by exact_mod_cast Int.one_le_abs hn
  rcases le_total e e' with h | h
  · obtain ⟨k, rfl⟩ : ∃ k : ℕ, e' = e + k := ⟨(e' - e).toNat, by omega⟩
    have e1 : (m' : ℝ) * 2 ^ (e + (k:ℤ)) - m * 2 ^ e = ((m' * 2 ^ k - m : ℤ) : ℝ) * 2 ^ e := by
      rw [zpow_add₀ (by norm_num), zpow_natCast]; push_cast; ring
    have hn : m' * 2 ^ k - m ≠ 0 := by
      intro hz
      apply hne
      rw [← sub_eq_zero, e1, hz]; simp
    rw [e1, abs_mul, abs_of_pos pe]
    have a := one _ hn
    have b : (m:ℝ) < 2^53 := by
      have := (abs_lt.1 hm).2
      exact_mod_cast this
    have c : (2:ℝ)^e ≤ |((m' * 2 ^ k - m : ℤ) : ℝ)| * 2^e := by nlinarith
    nlinarith
  · obtain ⟨k, rfl⟩ : ∃ k : ℕ, e = e' + k := ⟨(e - e').toNat, by omega⟩
    have e1 : (m' : ℝ) * 2 ^ e' - m * 2 ^ (e' + (k:ℤ)) = ((m' - m * 2 ^ k : ℤ) : ℝ) * 2 ^ e' := by
      rw [zpow_add₀ (by norm_num), zpow_natCast]; push_cast; ring
    have hn : m' - m * 2 ^ k ≠ 0 := by
      intro hz
      apply hne
      rw [← sub_eq_zero, e1, hz]; simp
    have a := one _ hn
    have b : |(m':ℝ)| < 2^53 := by
      have : |m'| < 2^53 := hm'
      exact_mod_cast this
    set D := |(m' : ℝ) * 2 ^ e' - m * 2 ^ (e' + (k:ℤ))| with hD
    have c : (2:ℝ)^e' ≤ D := by
      rw [hD, e1, abs_mul, abs_of_pos pe']; nlinarith
    have d : |(m' : ℝ) * 2 ^ e'| < 2^53 * D := by
      rw [abs_mul, abs_of_pos pe']
      have := abs_nonneg (m':ℝ)
      nlinarith
    have t : (m : ℝ) * 2 ^ (e' + (k:ℤ)) ≤ |(m' : ℝ) * 2 ^ e'| + D := by
      have h1 := neg_abs_le ((m' : ℝ) * 2 ^ e' - m * 2 ^ (e' + (k:ℤ)))
      have h2 := le_abs_self ((m' : ℝ) * 2 ^ e')
      rw [← hD] at h1
      linarith
    linarith

theorem isF64_lt {x : ℝ} (hx : IsF64 x) : |x| ≤ 2^1024 - 2^971 := by
  obtain ⟨m, e, hm, h1, h2, rfl⟩ := hx
  have a : |(m:ℝ)| ≤ 2^53 - 1 := by
    have : |m| ≤ 2^53 - 1 := by omega
    exact_mod_cast this
  have b : (2:ℝ)^e ≤ 2^971 := by
    have : (2:ℝ)^e ≤ 2^(971:ℤ) := zpow_le_zpow_right₀ (by norm_num) h2
    exact_mod_cast this
  have pe : (0:ℝ) < 2 ^ e := by positivity
  rw [abs_mul, abs_of_pos pe]
  calc |(m:ℝ)| * 2^e ≤ (2^53 - 1) * 2^971 := by
        apply mul_le_mul a b pe.le; norm_num
    _ = 2^1024 - 2^971 := by norm_num

/-- what is very close to a float64 number is rounded to it. -/
theorem rnd64_close {x y : ℝ} (hx : IsF64 x) (h0 : 0 < x) (h : |y - x| ≤ x / (2 * 10^16)) : rnd64 y = x := by
  have best : |y - rnd64 y| ≤ |y - x| := by
    obtain ⟨m, e, h1, h2, -, h4⟩ := hx
    rw [h4]; exact rnd64_best y m e h1 h2
  have near : |rnd64 y - x| ≤ x / 10^16 := by
    have t := abs_sub_le (rnd64 y) y x
    rw [abs_sub_comm] at best
    have : x / (2 * 10^16) + x / (2 * 10^16) = x / 10^16 := by ring
    linarith
  have bound : |rnd64 y| < (2:ℝ)^(1024:ℤ) := by
    have a := isF64_lt hx
    rw [abs_of_pos h0] at a
    have b := abs_sub_abs_le_abs_sub (rnd64 y) x
    rw [abs_of_pos h0] at b
    have c : x / 10^16 < 2^971 := by
      have : x < 2^1024 := by linarith [show (0:ℝ) < 2^971 by positivity]
      calc x / 10^16 < 2^1024 / 10^16 := by gcongr
        _ < 2^971 := by norm_num
    have : |rnd64 y| < 2^1024 := by linarith
    exact_mod_cast this
  by_contra hne
  have g := gap hx (isF64_rnd64 bound) h0 hne
  have : |rnd64 y - x| * (2^53 + 1) ≤ x / 10^16 * (2^53 + 1) := by gcongr
  have : x / 10^16 * (2^53 + 1) < x := by
    rw [div_mul_eq_mul_div, div_lt_iff₀ (by norm_num)]
    nlinarith
  linarith

/-- seventeen digits tell every float64 number from all others. -/
theorem seventeen {x : ℝ} (hx : IsF64 x) (h0 : 0 < x) : ∃ (d : Nat) (e : Int), rnd64 (d * (10:ℝ)^e) = x ∧ (Nat.toDigits 10 d).length ≤ 17 := by
  set k := Int.log 10 x - 16 with hk
  have l1 : (10:ℝ)^(Int.log 10 x) ≤ x := by simpa using Int.zpow_log_le_self (b := 10) (by norm_num) h0
  have l2 : x < (10:ℝ)^(Int.log 10 x + 1) := by simpa using Int.lt_zpow_succ_log_self (b := 10) (by norm_num) x
  have pk : (0:ℝ) < 10^k := by positivity
  have a1 : (10:ℝ)^k * 10^16 ≤ x := by
    rw [← zpow_natCast, ← zpow_add₀ (by norm_num)]
    convert l1 using 2; rw [hk]; norm_num
  have a2 : x < (10:ℝ)^k * 10^17 := by
    rw [← zpow_natCast, ← zpow_add₀ (by norm_num)]
    convert l2 using 2; rw [hk]; push_cast; ring
  set y := x / 10^k with hy
  have hxy : x = y * 10^k := by rw [hy]; field_simp
  have y0 : 0 ≤ y := by rw [hy]; positivity
  have y2 : y < 10^17 := by rw [hy, div_lt_iff₀ pk]; linarith
  set n := ⌊y + 1/2⌋₊ with hn
  have n1 : (n:ℝ) ≤ y + 1/2 := Nat.floor_le (by linarith)
  have n2 : y + 1/2 < n + 1 := Nat.lt_floor_add_one _
  have close : |(n:ℝ) * 10^k - x| ≤ x / (2 * 10^16) := by
    have : |(n:ℝ) - y| ≤ 1/2 := by rw [abs_le]; constructor <;> linarith
    have e : (n:ℝ) * 10^k - x = (n - y) * 10^k := by rw [hxy]; ring
    rw [e, abs_mul, abs_of_pos pk, le_div_iff₀ (by norm_num)]
    nlinarith
  have hr := rnd64_close hx h0 close
  have nle : n ≤ 10^17 := by
    have : (n:ℝ) < 10^17 + 1 := by linarith
    have : n < 10^17 + 1 := by exact_mod_cast this
    omega
  rcases Nat.lt_or_eq_of_le nle with h | h
  · exact ⟨n, k, hr, length_le_of_lt (by norm_num) h⟩
  · refine ⟨1, k + 17, ?_, by decide⟩
    rw [← hr, h]
    congr 1
    rw [zpow_add₀ (by norm_num)]; push_cast; norm_num; ring

/-- there is an implementation of the shortest digits. -/
theorem shortest_exists {x : ℝ} (hx : IsF64 x) (h0 : 0 < x) : ∃ d e, Shortest x d e := by
  classical
  have hex : ∃ n, ∃ (d : Nat) (e : Int), rnd64 (d * (10:ℝ)^e) = x ∧ (Nat.toDigits 10 d).length = n := by
    obtain ⟨d, e, h, -⟩ := seventeen hx h0; exact ⟨_, d, e, h, rfl⟩
  obtain ⟨d, e, h1, h2⟩ := Nat.find_spec hex
  exact ⟨d, e, h1, fun d' e' h' => h2 ▸ Nat.find_min' hex ⟨d', e', h', rfl⟩⟩

instance : Nonempty Digits := by
  classical
  have : ∀ x : ℝ, ∃ de : Nat × Int, IsF64 x → 0 < x → Shortest x de.1 de.2 := fun x => by
    by_cases h : IsF64 x ∧ 0 < x
    · obtain ⟨d, e, hd⟩ := shortest_exists h.1 h.2; exact ⟨(d, e), fun _ _ => hd⟩
    · exact ⟨(0, 0), fun h1 h2 => absurd ⟨h1, h2⟩ h⟩
  choose g hg using this
  exact ⟨⟨fun x => (g x).1, fun x => (g x).2, hg⟩⟩

theorem Digits.pos (D : Digits) {x : ℝ} (hx : IsF64 x) (h0 : 0 < x) : 0 < D.digits x := by
  rcases Nat.eq_zero_or_pos (D.digits x) with h | h
  · have := (D.short x hx h0).1
    rw [h] at this; simp at this; exact absurd this.symm h0.ne'
  · exact h

/-! ### the border of the largest number -/

theorem rnd64_nonneg {x : ℝ} (h : 0 ≤ x) : 0 ≤ rnd64 x := by
  rcases h.eq_or_lt with rfl | h
  · simp
  · rw [rnd64_of_pos h]
    have : (0:ℤ) ≤ nearest (x / ulp64 x) := le_nearest (by push_cast; exact div_nonneg h.le (ulp64_pos x).le)
    exact mul_nonneg (by exact_mod_cast this) (ulp64_pos x).le

theorem overflow_iff {q : ℝ} (h0 : 0 ≤ q) : (2:ℝ)^1024 ≤ rnd64 q ↔ 2^1024 - 2^970 ≤ q := by
  constructor
  · intro h
    by_contra hq
    push Not at hq
    have best := rnd64_best q (2^53 - 1) 971 (by norm_num) (by norm_num)
    have eM : (((2^53 - 1 : ℤ)) : ℝ) * (2:ℝ)^(971:ℤ) = 2^1024 - 2^971 := by
      have : (2:ℝ)^(971:ℤ) = 2^971 := by exact_mod_cast rfl
      rw [this]; push_cast; norm_num
    rw [eM] at best
    have p : (2:ℝ)^971 = 2^970 + 2^970 := by norm_num
    have p0 : (0:ℝ) < 2^970 := by positivity
    rw [abs_of_nonpos (by linarith : q - rnd64 q ≤ 0)] at best
    rcases le_total (2^1024 - 2^971) q with hM | hM
    · rw [abs_of_nonneg (by linarith)] at best; linarith
    · rw [abs_of_nonpos (by linarith)] at best; linarith
  · intro h
    have hq : 0 < q := lt_of_lt_of_le (by norm_num) h
    rw [rnd64_of_pos hq]
    have hu := ulp64_pos q
    have lg1 : (2:ℝ)^(Int.log 2 q) ≤ q := by simpa using Int.zpow_log_le_self (b := 2) (by norm_num) hq
    have lg2 : q < (2:ℝ)^(Int.log 2 q + 1) := by simpa using Int.lt_zpow_succ_log_self (b := 2) (by norm_num) q
    have lo : (1023:ℤ) ≤ Int.log 2 q := by
      have : (2:ℝ)^(1023:ℤ) < 2^(Int.log 2 q + 1) := by
        refine lt_of_le_of_lt ?_ lg2
        refine le_trans ?_ h
        have : (2:ℝ)^(1023:ℤ) = 2^1023 := by exact_mod_cast rfl
        rw [this]; norm_num
      have := (zpow_lt_zpow_iff_right₀ (by norm_num : (1:ℝ) < 2)).1 this
      omega
    have eu : ulp64 q = (2:ℝ)^(Int.log 2 q - 52) := by unfold ulp64; rw [abs_of_pos hq, max_eq_left (by omega)]
    rcases eq_or_lt_of_le lo with e | e
    · have eu' : ulp64 q = 2^971 := by
        rw [eu, ← e]
        have : (1023 - 52 : ℤ) = ((971:ℕ):ℤ) := by norm_num
        rw [this, zpow_natCast]
      rw [eu']
      have hy : (2^53:ℝ) - 1/2 ≤ q / 2^971 := by
        rw [le_div_iff₀ (by positivity)]
        refine le_trans (le_of_eq ?_) h
        norm_num
      have hn : (2^53 : ℤ) ≤ nearest (q / 2^971) := by
        set y := q / 2^971 with hyy
        have f1 : (2^53 - 1 : ℤ) ≤ ⌊y⌋ := by
          rw [Int.le_floor]; push_cast; linarith
        unfold nearest
        rcases eq_or_lt_of_le f1 with f | f
        · have fr : 1/2 ≤ Int.fract y := by
            have := Int.self_sub_floor y
            rw [← this, ← f]; push_cast; linarith
          rw [if_neg (by linarith), ← f]
          split
          · norm_num
          · rw [if_neg (by decide)]; norm_num
        · split
          · omega
          · split
            · omega
            · split <;> omega
      have : (2^53:ℝ) ≤ nearest (q / 2^971) := by exact_mod_cast hn
      calc (2:ℝ)^1024 = 2^53 * 2^971 := by norm_num
        _ ≤ _ := by gcongr
    · have hn : (2^52 : ℤ) ≤ nearest (q / ulp64 q) := by
        apply le_nearest
        rw [le_div_iff₀ hu, eu]
        refine le_trans (le_of_eq ?_) lg1
        push_cast
        rw [zpow_sub₀ (by norm_num)]
        norm_num
        ring
      have hn' : (2^52:ℝ) ≤ nearest (q / ulp64 q) := by exact_mod_cast hn
      have : (2:ℝ)^(972:ℤ) ≤ ulp64 q := by rw [eu]; exact zpow_le_zpow_right₀ (by norm_num) (by omega)
      have e972 : (2:ℝ)^(972:ℤ) = 2^972 := by exact_mod_cast rfl
      rw [e972] at this
      calc (2:ℝ)^1024 = 2^52 * 2^972 := by norm_num
        _ ≤ _ := by gcongr

theorem rnd64_tiny {q : ℝ} (h0 : 0 ≤ q) (h : q < (2:ℝ)^(-1075:ℤ)) : rnd64 q = 0 := by
  rcases h0.eq_or_lt with rfl | h0
  · simp
  · rw [rnd64_of_pos h0]
    have lg1 : (2:ℝ)^(Int.log 2 q) ≤ q := by simpa using Int.zpow_log_le_self (b := 2) (by norm_num) h0
    have lo : Int.log 2 q < -1075 := (zpow_lt_zpow_iff_right₀ (by norm_num : (1:ℝ) < 2)).1 (lt_of_le_of_lt lg1 h)
    have eu : ulp64 q = (2:ℝ)^(-1074:ℤ) := by unfold ulp64; rw [abs_of_pos h0, max_eq_right (by omega)]; norm_num
    have hy : q / ulp64 q < 1/2 := by
      rw [eu, div_lt_iff₀ (by positivity)]
      refine lt_of_lt_of_le h (le_of_eq ?_)
      rw [show (-1074:ℤ) = -1075 + 1 by norm_num, zpow_add₀ (by norm_num)]; norm_num
    have hy0 : 0 ≤ q / ulp64 q := by positivity
    have fl : ⌊q / ulp64 q⌋ = 0 := by rw [Int.floor_eq_zero_iff]; exact ⟨hy0, by linarith⟩
    have : nearest (q / ulp64 q) = 0 := by
      unfold nearest
      rw [if_pos, fl]
      rw [← Int.self_sub_floor, fl]; simpa using hy
    rw [this]; simp

theorem pow10_big : (2:ℝ)^1024 ≤ 10^(1000:ℤ) := by
  have : (10:ℝ)^(1000:ℤ) = 10^1000 := by exact_mod_cast rfl
  rw [this]
  calc (2:ℝ)^1024 ≤ (2:ℝ)^1024 * 5 ^ 300 := le_mul_of_one_le_right (by positivity) (one_le_pow₀ (by norm_num))
    _ ≤ (10:ℝ)^1000 := by norm_num

theorem pow10_small : (10:ℝ)^(-900:ℤ) < (2:ℝ)^(-1075:ℤ) := by
  rw [zpow_neg, zpow_neg]
  apply inv_strictAnti₀ (by positivity)
  have h1 : (10:ℝ)^(900:ℤ) = 10^900 := by exact_mod_cast rfl
  have h2 : (2:ℝ)^(1075:ℤ) = 2^1075 := by exact_mod_cast rfl
  rw [h1, h2]; norm_num

/-- a number of this size overflows. -/
theorem rnd64_huge {q : ℝ} (h : (10:ℝ)^(1000:ℤ) ≤ q) : (2:ℝ)^1024 ≤ rnd64 q := by
  have h0 : (0:ℝ) ≤ q := le_trans (by positivity) h
  rw [overflow_iff h0]
  have := pow10_big
  have : (0:ℝ) ≤ 2^970 := by positivity
  linarith

/-- the exponent of the shortest digits is small. -/
theorem Digits.exp_bound (D : Digits) {x : ℝ} (hx : IsF64 x) (h0 : 0 < x) : -1000 < D.exp x ∧ D.exp x < 1000 ∧ (Nat.toDigits 10 (D.digits x)).length ≤ 17 := by
  obtain ⟨d, e, h1, h2⟩ := seventeen hx h0
  have hs := D.short x hx h0
  have hl : (Nat.toDigits 10 (D.digits x)).length ≤ 17 := (hs.2 d e h1).trans h2
  have hd1 : (1:ℝ) ≤ D.digits x := by exact_mod_cast D.pos hx h0
  have hd2 : (D.digits x : ℝ) ≤ 10^17 := by
    have a := lt_pow_length (D.digits x)
    have b : 10 ^ (Nat.toDigits 10 (D.digits x)).length ≤ 10^17 := Nat.pow_le_pow_right (by norm_num) hl
    have : D.digits x ≤ 10^17 := by omega
    exact_mod_cast this
  refine ⟨?_, ?_, hl⟩
  · by_contra hc
    push Not at hc
    have : rnd64 (D.digits x * (10:ℝ)^(D.exp x)) = 0 := by
      apply rnd64_tiny (by positivity)
      calc (D.digits x : ℝ) * (10:ℝ)^(D.exp x) ≤ 10^17 * (10:ℝ)^(-1000:ℤ) := by
            apply mul_le_mul hd2 (zpow_le_zpow_right₀ (by norm_num) hc) (by positivity) (by positivity)
        _ = (10:ℝ)^(-983:ℤ) := by rw [← zpow_natCast, ← zpow_add₀ (by norm_num)]; norm_num
        _ ≤ (10:ℝ)^(-900:ℤ) := zpow_le_zpow_right₀ (by norm_num) (by norm_num)
        _ < _ := pow10_small
    rw [hs.1] at this; exact h0.ne' this
  · by_contra hc
    push Not at hc
    have : (10:ℝ)^(1000:ℤ) ≤ D.digits x * (10:ℝ)^(D.exp x) := by
      calc (10:ℝ)^(1000:ℤ) ≤ (10:ℝ)^(D.exp x) := zpow_le_zpow_right₀ (by norm_num) hc
        _ ≤ _ := le_mul_of_one_le_left (by positivity) hd1
    have := rnd64_huge this
    rw [hs.1] at this
    have b := isF64_lt hx
    rw [abs_of_pos h0] at b
    have : (0:ℝ) < 2^971 := by positivity
    linarith

theorem length_fmtF {ds : List Char} {dp : Int} {n : Nat} (h1 : ds.length ≤ n) (h2 : dp ≤ n) (h3 : -dp ≤ n) : (fmtF ds dp).length ≤ 2 * n + 2 := by
  unfold fmtF
  split
  · simp only [List.length_cons, List.length_append, List.length_replicate]; omega
  · split
    · simp only [List.length_append, List.length_replicate]; omega
    · simp only [List.length_cons, List.length_append, List.length_take, List.length_drop]; omega

theorem length_fmtE {ds : List Char} {dp : Int} {n : Nat} (h1 : ds.length ≤ n) (h2 : dp ≤ 9000) (h3 : -9000 ≤ dp) : (fmtE ds dp).length ≤ n + 9 := by
  unfold fmtE fmtExp
  have : (Nat.toDigits 10 (dp - 1).natAbs).length ≤ 4 := length_le_of_lt (by norm_num) (by omega)
  have h4 : (if (dp - 1).natAbs < 10 then '0' :: Nat.toDigits 10 (dp - 1).natAbs else Nat.toDigits 10 (dp - 1).natAbs).length ≤ 5 := by
    split
    · simp only [List.length_cons]; omega
    · omega
  have h5 : (if ds.length ≤ 1 then [] else '.' :: ds.drop 1).length ≤ ds.length := by
    split
    · simp
    · simp only [List.length_cons, List.length_drop]; omega
  simp only [List.length_append, List.length_cons, List.length_take]
  omega

theorem length_clean (b : List Char) : (cleanExp b).length ≤ b.length := by
  unfold cleanExp
  split
  · rename_i x r h
    have := congrArg List.length h
    simp at this ⊢; omega
  · exact le_rfl

theorem Digits.length_json (D : Digits) {x : ℝ} (hx : IsF64 x) (h0 : 0 < x) : (D.jsonText x).length ≤ 8000 := by
  obtain ⟨h1, h2, h3⟩ := D.exp_bound hx h0
  unfold Digits.jsonText Digits.decimal
  simp only
  split
  · refine (length_clean _).trans ((length_fmtE (n := 17) h3 ?_ ?_).trans (by norm_num)) <;> omega
  · refine (length_fmtF (n := 2000) ?_ ?_ ?_).trans (by norm_num) <;> omega

theorem Digits.length_fmt (D : Digits) {x : ℝ} (hx : IsF64 x) (h0 : 0 < x) : (D.fmtText x).length ≤ 8000 := by
  obtain ⟨h1, h2, h3⟩ := D.exp_bound hx h0
  unfold Digits.fmtText Digits.decimal
  simp only
  split
  · refine (length_fmtE (n := 17) h3 ?_ ?_).trans (by norm_num) <;> omega
  · refine (length_fmtF (n := 2000) ?_ ?_ ?_).trans (by norm_num) <;> omega

end Strconv
end Goir
