import Verif.Lemmas.Float64
import Verif.Props.ScoreError
/-!
# The steps of BM25 in float64
-/
namespace Goir
open R53

variable {L : MathLog}

theorem rnd_of_isF64 {x : ℝ} (h : IsF64 x) : R53.rnd x = x := by
  obtain ⟨m, e, hm, -, -, rfl⟩ := h
  rw [rnd_mul_pow, rnd_int m hm]

theorem add_toReal {u v : F64 L} {x y : ℝ} (hu : u.toReal = some x) (hv : v.toReal = some y)
    (h : x + y = 0 ∨ ((2:ℝ)^(-1022:ℤ) ≤ |x + y| ∧ |x + y| ≤ (2:ℝ)^(1023:ℤ))) : (GoFloat.add u v : F64 L).toReal = some (R53.rnd (x + y)) := by
  show (F64.add u v).toReal = _
  cases u with
  | nan => cases hu
  | inf s => cases hu
  | zero s =>
    cases hu
    cases v with
    | nan => cases hv
    | inf s => cases hv
    | zero s => cases hv; simp [F64.add, F64.toReal]
    | fin r q p => cases hv; simp [F64.add, F64.toReal, rnd_of_isF64 q]
  | fin r q p =>
    cases hu
    cases v with
    | nan => cases hv
    | inf s => cases hv
    | zero s => cases hv; simp [F64.add, F64.toReal, rnd_of_isF64 q]
    | fin r' q' p' => cases hv; exact round_toReal false h

theorem W.exact {v : F64 L} {y : ℝ} {a b : ℤ} (h : v.toReal = some y) (hr : Rng a b y) : W 0 a b v y := ⟨⟨y, h, Near.refl hr.nn⟩, hr⟩

/-- `z + x * y`, fused or not. -/
theorem W.fma (site : Nat) {x y z : F64 L} {p q s : ℝ} {m n k : ℕ} {a b c d e f : ℤ} (hx : W m a b x p) (hy : W n c d y q) (hz : W k e f z s)
    (hmn : m + n + 1 ≤ k) (hk : k ≤ 2^52) (he : e ≤ a + c) (hf : b + d ≤ f) (he' : -1000 ≤ e) (hf' : f ≤ 999) :
    W (k + 1) e (f + 1) (GoFloat.fma site x y z) (s + p * q) := by
  have two : W (k + 1) e (f + 1) (F64.add z (F64.mul x y)) (s + p * q) :=
    hz.add ((hx.mul hy (by omega) (by omega) (by omega)).mono hmn he hf) hk he' hf'
  have hr : Rng e (f + 1) (s + p * q) := two.rng
  show W (k + 1) e (f + 1) (if L.fuse site then F64.fmadd x y z else F64.add z (F64.mul x y)) (s + p * q)
  split
  · obtain ⟨⟨xr, hxr, hxn⟩, -⟩ := hx
    obtain ⟨⟨yr, hyr, hyn⟩, -⟩ := hy
    obtain ⟨⟨zr, hzr, hzn⟩, -⟩ := hz
    have hprod := (hxn.mul hyn).mono (by omega : m + n ≤ k)
    cases x with
    | nan => cases hxr
    | inf _ => cases hxr
    | zero _ => exact two
    | fin x _ _ =>
      cases hxr
      cases y with
      | nan => cases hyr
      | inf _ => cases hyr
      | zero _ => exact two
      | fin y _ _ =>
        cases hyr
        cases z with
        | nan => cases hzr
        | inf _ => cases hzr
        | zero _ =>
          cases hzr
          have hs : Near k (0 + xr * yr) (s + p * q) := hzn.add hprod
          rw [zero_add] at hs
          exact W.round false hs hr hk he' (by omega)
        | fin z _ _ =>
          cases hzr
          have hs := hzn.add hprod
          rw [add_comm zr] at hs
          exact W.round false hs hr hk he' (by omega)
  · exact two

/-- `math.Log` of a number from 1 on. -/
theorem MathLog.near (L : MathLog) {x : ℝ} (h : 1 ≤ x) : Near 3 (L.f x) (Real.log x) := by
  have hl := Real.log_nonneg h
  have he := L.err x (by linarith)
  rw [abs_of_nonneg hl, abs_le] at he
  have r1 : rho^3 ≤ 1 - 1/2^52 := by unfold rho; norm_num
  have r2 : (1 + 1/2^52) * rho^3 ≤ 1 := by unfold rho; norm_num
  have hf : 0 ≤ L.f x := by
    have : (0:ℝ) ≤ Real.log x * (1 - 1/2^52) := mul_nonneg hl (by norm_num)
    linarith [he.1]
  refine ⟨hf, hl, ?_, ?_⟩
  · have h1 : L.f x ≤ Real.log x * (1 + 1/2^52) := by linarith [he.2]
    have h2 := mul_le_mul_of_nonneg_right h1 (rho_pow_pos 3).le
    have h3 := mul_le_mul_of_nonneg_left r2 hl
    linarith
  · have h3 := mul_le_mul_of_nonneg_left r1 hl
    linarith [he.1]

theorem W.log {v : F64 L} {x y : ℝ} {m : ℕ} {a b : ℤ} (hv : v.toReal = some x) (hx : 1 ≤ x) (hn : Near m (Real.log x) y) (hr : Rng a b y)
    (hm : m + 3 ≤ 2^52) (ha : -1000 ≤ a) (hb : b ≤ 1000) : W (m + 4) a b (GoFloat.log v) y := by
  cases v with
  | nan => cases hv
  | inf s => cases hv
  | zero s => cases hv; norm_num at hx
  | fin r q p =>
    cases hv
    show W (m + 4) a b (F64.log (F64.fin x q p)) y
    unfold F64.log
    simp only
    rw [if_neg (by linarith)]
    exact (W.round false (((L.near hx).trans hn).mono (by omega : 3 + m ≤ m + 3)) hr hm ha hb).mono (by omega) le_rfl le_rfl

theorem lit_exact64 (q : ℚ) {x : ℝ} (hq : (q : ℝ) = x) (e : R53.rnd x = x) {a b : ℤ} (h : Rng a b x) (ha : -1000 ≤ a) (hb : b ≤ 1000) :
    (GoFloat.lit q : F64 L).toReal = some x := by
  show (F64.round false (q:ℝ) : F64 L).toReal = _
  rw [hq]; exact round_exact false e h ha hb

theorem rng_one : Rng 0 0 (1:ℝ) := Rng.of_bounds (by norm_num) (by norm_num)

theorem lit64_one : (GoFloat.lit 1 : F64 L).toReal = some 1 :=
  lit_exact64 1 (by norm_num) rnd_one rng_one (by norm_num) (by norm_num)

theorem lit64_half : (GoFloat.lit 0.5 : F64 L).toReal = some (1/2) :=
  lit_exact64 0.5 (by norm_num) rnd_half (a := -1) (b := 0) (Rng.of_bounds (by norm_num) (by norm_num)) (by norm_num) (by norm_num)

theorem rnd_threequarters : R53.rnd (3/4 : ℝ) = 3/4 := by
  have e : (3/4 : ℝ) = ((3:ℤ):ℝ) * 2^(-2 : ℤ) := by norm_num
  rw [e, rnd_mul_pow, rnd_int 3 (by norm_num)]

theorem rnd_quarter : R53.rnd (1/4 : ℝ) = 1/4 := by
  have e : (1/4 : ℝ) = ((1:ℤ):ℝ) * 2^(-2 : ℤ) := by norm_num
  rw [e, rnd_mul_pow, rnd_int 1 (by norm_num)]

theorem lit64_b : (GoFloat.lit 0.75 : F64 L).toReal = some (3/4) :=
  lit_exact64 0.75 (by norm_num) rnd_threequarters (a := -1) (b := 0) (Rng.of_bounds (by norm_num) (by norm_num)) (by norm_num) (by norm_num)

theorem ofInt64 {n : Nat} (h : n ≤ 2^40) : (GoFloat.ofInt (n:ℤ) : F64 L).toReal = some (n:ℝ) := by
  show (F64.round false ((n:ℤ):ℝ) : F64 L).toReal = _
  have hr : Rng 0 ((40:ℕ):ℤ) ((n:ℤ):ℝ) := Rng.int (by omega) (by exact_mod_cast h)
  rw [round_exact false (rnd_int _ (by rw [abs_of_nonneg (by omega)]; omega)) hr (by norm_num) (by norm_num)]
  simp

/-- the idf of a term that is in `n` of `N` documents. -/
theorem w_idf {N n : Nat} (hn : n ≤ N) (hN : N ≤ 2^40) :
    W (8 * N + 12) (-42) 42 (idfBM25 (GoFloat.ofInt (N:ℤ) : F64 L) (GoFloat.ofInt (n:ℤ))) (Spec.idf N n) := by
  have hnR : (n:ℝ) ≤ N := by exact_mod_cast hn
  have hNR : (N:ℝ) ≤ 2^40 := by exact_mod_cast hN
  have n0 : (0:ℝ) ≤ n := Nat.cast_nonneg n
  have e1 : R53.rnd ((N:ℝ) - n) = N - n := by
    have := rnd_int ((N:ℤ) - n) (by rw [abs_of_nonneg (by omega)]; omega)
    push_cast at this; exact this
  have e2 : R53.rnd ((N:ℝ) - n + 1/2) = N - n + 1/2 := by
    have := rnd_half_int (2 * ((N:ℤ) - n) + 1) (by rw [abs_of_nonneg (by omega)]; omega)
    push_cast at this
    have e : (2 * ((N:ℝ) - n) + 1) / 2 = N - n + 1/2 := by ring
    rwa [e] at this
  have e3 : R53.rnd ((n:ℝ) + 1/2) = n + 1/2 := by
    have := rnd_half_int (2 * (n:ℤ) + 1) (by rw [abs_of_nonneg (by omega)]; omega)
    push_cast at this
    have e : (2 * (n:ℝ) + 1) / 2 = n + 1/2 := by ring
    rwa [e] at this
  have p40 : (2:ℝ)^(41:ℤ) = 2 * 2^40 := by norm_num
  have pm1 : (2:ℝ)^(-1:ℤ) = 1/2 := by norm_num
  have hs : Rng 0 41 ((N:ℝ) - n) := by
    have := Rng.int (n := (N:ℤ) - n) (b := 41) (by omega) (by omega)
    simpa using this
  have hnum : Rng (-1) 41 ((N:ℝ) - n + 1/2) := Rng.of_bounds (by rw [pm1]; linarith) (by rw [p40]; linarith)
  have hden : Rng (-1) 41 ((n:ℝ) + 1/2) := Rng.of_bounds (by rw [pm1]; linarith) (by rw [p40]; linarith)
  have s1 := sub_exact (ofInt64 (L := L) hN) (ofInt64 (hn.trans hN)) e1 hs (by norm_num) (by norm_num)
  have s2 : (GoFloat.add (GoFloat.sub (GoFloat.ofInt (N:ℤ)) (GoFloat.ofInt (n:ℤ))) (GoFloat.lit 0.5) : F64 L).toReal = some ((N:ℝ) - n + 1/2) :=
    add_exact s1 lit64_half e2 hnum (by norm_num) (by norm_num)
  have s3 : (GoFloat.add (GoFloat.ofInt (n:ℤ)) (GoFloat.lit 0.5) : F64 L).toReal = some ((n:ℝ) + 1/2) :=
    add_exact (ofInt64 (hn.trans hN)) lit64_half e3 hden (by norm_num) (by norm_num)
  have hd0 : (n:ℝ) + 1/2 ≠ 0 := by positivity
  have s4 := (W.exact s2 hnum).div (W.exact s3 hden) hd0 (by norm_num) (by norm_num) (by norm_num)
  unfold idfBM25 Spec.idf
  simp only
  set q : ℝ := ((N:ℝ) - n + 1/2) / (n + 1/2) with hq
  have q0 : 0 ≤ q := div_nonneg (by linarith) (by linarith)
  have hqle : q ≤ 2 * N + 1 := by
    rw [hq, div_le_iff₀ (by linarith)]
    nlinarith
  obtain ⟨⟨z, z1, z2⟩, z3⟩ := s4
  norm_num at z3
  have z0 := z2.nx
  have zle : z ≤ 2 * q := (Goir.Near.half z2 (by norm_num)).1
  have e44 : (2:ℝ)^(44:ℤ) = 16 * 2^40 := by norm_num
  have le44 : 1 + z ≤ (2:ℝ)^(44:ℤ) := by rw [e44]; linarith
  have ge0 : (2:ℝ)^(0:ℤ) ≤ 1 + z := by rw [zpow_zero]; linarith
  have za : |1 + z| = 1 + z := abs_of_nonneg (by linarith)
  have s5 := add_toReal lit64_one z1 (.inr ⟨by rw [za]; exact (two_zpow_le (by norm_num)).trans ge0, by rw [za]; exact le44.trans (two_zpow_le (by norm_num))⟩)
  have hx : 1 ≤ R53.rnd (1 + z) := rnd_ge_one (by linarith)
  have hy : 1 ≤ 1 + q := by linarith
  have k1 : Near 2 (R53.rnd (1 + z)) (1 + q) := (((Near.refl (by norm_num)).mono (by omega)).add z2).rounded
  have hlog : 1 ≤ ((2 * N + 2 : ℕ) : ℝ) * Real.log (1 + q) := by
    have h1 := Real.one_sub_inv_le_log_of_pos (x := 1 + q) (by linarith)
    have h2 : (1 + q)⁻¹ = (n + 1/2) / (N + 1) := by
      have : 1 + q = (N + 1) / (n + 1/2) := by rw [hq]; field_simp; ring
      rw [this, inv_div]
    have hN1 : (0:ℝ) < N + 1 := by positivity
    have h3 : 1 / (2 * ((N:ℝ) + 1)) ≤ 1 - (1 + q)⁻¹ := by
      rw [h2, one_sub_div hN1.ne', div_le_div_iff₀ (by positivity) hN1]
      nlinarith
    have h4 : 1 / (2 * ((N:ℝ) + 1)) ≤ Real.log (1 + q) := h3.trans h1
    rw [div_le_iff₀ (by positivity)] at h4
    push_cast
    linarith
  have e42 : (2:ℝ)^(42:ℤ) = 4 * 2^40 := by norm_num
  have hrng : Rng (-42) 42 (Real.log (1 + q)) := by
    refine Rng.of_bounds ?_ ?_
    · rw [zpow_neg, inv_le_iff_one_le_mul₀ (two_zpow_pos _)]
      have hl0 : 0 ≤ Real.log (1 + q) := Real.log_nonneg hy
      have h2 : ((2 * N + 2 : ℕ) : ℝ) ≤ (2:ℝ)^(42:ℤ) := by rw [e42]; push_cast; linarith
      have := mul_le_mul_of_nonneg_right h2 hl0
      linarith
    · have := Real.log_le_sub_one_of_pos (x := 1 + q) (by linarith)
      rw [e42]; linarith
  exact (W.log s5 hx (k1.log hx hy hlog (by omega)) hrng (by omega) (by norm_num) (by norm_num)).mono (by omega) le_rfl le_rfl

end Goir
