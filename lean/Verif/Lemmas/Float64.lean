import Verif.Model.Float64
import Verif.Lemmas.Near
/-!
# float64 computations that stay in range round as if exponents were unbounded
-/
namespace Goir
open R53

variable {L : MathLog}

theorem two_zpow_pos (k : ℤ) : (0:ℝ) < (2:ℝ)^k := by positivity

theorem two_zpow_le {a b : ℤ} (h : a ≤ b) : (2:ℝ)^a ≤ (2:ℝ)^b := zpow_le_zpow_right₀ (by norm_num) h

theorem two_zpow_add (a b : ℤ) : (2:ℝ)^(a+b) = (2:ℝ)^a * (2:ℝ)^b := zpow_add₀ (by norm_num) a b

theorem round_toReal (s : Bool) {x : ℝ} (h : x = 0 ∨ ((2:ℝ)^(-1022:ℤ) ≤ |x| ∧ |x| ≤ (2:ℝ)^(1023:ℤ))) :
    (F64.round s x : F64 L).toReal = some (rnd x) := by
  rcases h with rfl | ⟨h1, h2⟩
  · unfold F64.round
    rw [dif_pos rnd64_zero]
    simp [F64.toReal]
  · have hx : x ≠ 0 := by
      rintro rfl
      rw [abs_zero] at h1
      exact absurd h1 (not_le.2 (two_zpow_pos _))
    unfold F64.round
    rw [dif_neg (by rw [rnd64_eq h1]; exact rnd_ne_zero hx), dif_pos]
    · simp only [F64.toReal, rnd64_eq h1]
    · rw [rnd64_eq h1]
      have h3 := rnd_rel x
      have h4 : |rnd x| ≤ |x| + |x - rnd x| := by
        have := abs_sub_abs_le_abs_sub (rnd x) x
        rw [abs_sub_comm] at this
        linarith
      have h5 : (2:ℝ)^(-53:ℤ) < 1 := zpow_lt_one_of_neg₀ (by norm_num) (by norm_num)
      have h6 : |x| * (2:ℝ)^(-53:ℤ) < |x| := by
        have := abs_pos.2 hx
        nlinarith
      have e : (2:ℝ)^(1024:ℤ) = 2 * (2:ℝ)^(1023:ℤ) := by
        rw [show (1024:ℤ) = 1 + 1023 by norm_num, two_zpow_add, zpow_one]
      rw [e]
      linarith

/-- `y` is zero or between `2^a` and `2^b`. -/
structure Rng (a b : ℤ) (y : ℝ) : Prop where
  nn : 0 ≤ y
  lo : y = 0 ∨ (2:ℝ)^a ≤ y
  hi : y ≤ (2:ℝ)^b

namespace Rng
variable {a b c d : ℤ} {y z : ℝ}

theorem mono (h : Rng a b y) (ha : c ≤ a) (hb : b ≤ d) : Rng c d y :=
  ⟨h.nn, h.lo.imp_right fun k => (two_zpow_le ha).trans k, h.hi.trans (two_zpow_le hb)⟩

theorem add (h : Rng a b y) (h' : Rng a b z) : Rng a (b + 1) (y + z) := by
  refine ⟨add_nonneg h.nn h'.nn, ?_, ?_⟩
  · rcases h.lo with e | e
    · rcases h'.lo with e' | e'
      · left; rw [e, e']; norm_num
      · right; linarith [h.nn]
    · right; linarith [h'.nn]
  · rw [two_zpow_add, zpow_one]; linarith [h.hi, h'.hi]

theorem mul (h : Rng a b y) (h' : Rng c d z) : Rng (a + c) (b + d) (y * z) := by
  refine ⟨mul_nonneg h.nn h'.nn, ?_, ?_⟩
  · rcases h.lo with e | e
    · left; rw [e, zero_mul]
    rcases h'.lo with e' | e'
    · left; rw [e', mul_zero]
    right
    rw [two_zpow_add]
    exact mul_le_mul e e' (two_zpow_pos c).le h.nn
  · rw [two_zpow_add]
    exact mul_le_mul h.hi h'.hi h'.nn (two_zpow_pos b).le

theorem inv (h : Rng a b y) (h0 : y ≠ 0) : Rng (-b) (-a) y⁻¹ := by
  have hp : 0 < y := lt_of_le_of_ne h.nn (Ne.symm h0)
  refine ⟨inv_nonneg.2 h.nn, .inr ?_, ?_⟩
  · rw [zpow_neg]; exact inv_anti₀ hp h.hi
  · rw [zpow_neg]; exact inv_anti₀ (two_zpow_pos a) (h.lo.resolve_left h0)

theorem div (h : Rng a b y) (h' : Rng c d z) (h0 : z ≠ 0) : Rng (a - d) (b - c) (y / z) := by
  rw [div_eq_mul_inv, sub_eq_add_neg, sub_eq_add_neg]
  exact h.mul (h'.inv h0)

theorem of_bounds (h1 : (2:ℝ)^a ≤ y) (h2 : y ≤ (2:ℝ)^b) : Rng a b y := ⟨(two_zpow_pos a).le.trans h1, .inr h1, h2⟩

theorem zero (a b : ℤ) : Rng a b 0 := ⟨le_rfl, .inl rfl, (two_zpow_pos b).le⟩

/-- a natural number below `2^b`. -/
theorem int {n : ℤ} {b : ℕ} (h0 : 0 ≤ n) (h : n ≤ 2^b) : Rng 0 b (n : ℝ) := by
  refine ⟨by exact_mod_cast h0, ?_, ?_⟩
  · rcases eq_or_lt_of_le h0 with e | e
    · left; rw [← e]; norm_num
    · right; rw [zpow_zero]; exact_mod_cast e
  · rw [zpow_natCast]; exact_mod_cast h
end Rng

theorem Near.half {m : ℕ} {x y : ℝ} (h : Near m x y) (hm : m ≤ 2^52) : x ≤ 2 * y ∧ y ≤ 2 * x := by
  have hr : (1:ℝ)/2 ≤ rho^m := by
    have h1 : (1:ℝ) + m * (-(1/2^53)) ≤ (1 + (-(1/2^53)))^m := one_add_mul_le_pow (by norm_num) m
    have h2 : ((m:ℕ):ℝ) ≤ 2^52 := by exact_mod_cast hm
    have h3 : (1:ℝ) + (-(1/2^53)) = rho := by unfold rho; ring
    rw [h3] at h1
    have h4 : (m:ℝ) * (1/2^53) ≤ 2^52 * (1/2^53) := mul_le_mul_of_nonneg_right h2 (by positivity)
    have h5 : (2:ℝ)^52 * (1/2^53) = 1/2 := by norm_num
    linarith
  have h1 := h.le
  have h2 := h.ge
  have h3 := mul_le_mul_of_nonneg_left hr h.nx
  have h4 := mul_le_mul_of_nonneg_left hr h.ny
  constructor <;> linarith

/-- `v` is a finite number within `m` roundings of `y`, which is zero or between `2^a` and `2^b`. -/
structure W (m : ℕ) (a b : ℤ) (v : F64 L) (y : ℝ) : Prop where
  near : ∃ x, v.toReal = some x ∧ Near m x y
  rng : Rng a b y

namespace W
variable {m n : ℕ} {a b c d : ℤ} {y z : ℝ} {u v : F64 L}

theorem mono {m' : ℕ} {a' b' : ℤ} (h : W m a b v y) (hm : m ≤ m') (ha : a' ≤ a) (hb : b ≤ b') : W m' a' b' v y := by
  obtain ⟨⟨x, h1, h2⟩, h3⟩ := h
  exact ⟨⟨x, h1, h2.mono hm⟩, h3.mono ha hb⟩

/-- a rounded result. -/
theorem round (s : Bool) {x : ℝ} (h : Near m x y) (hr : Rng a b y) (hm : m ≤ 2^52) (ha : -1000 ≤ a) (hb : b ≤ 1000) :
    W (m + 1) a b (F64.round s x : F64 L) y := by
  refine ⟨⟨rnd x, round_toReal s ?_, h.rounded⟩, hr⟩
  rcases hr.lo with e | e
  · left; exact h.zero_iff.2 e
  · right
    obtain ⟨h1, h2⟩ := Near.half h hm
    rw [abs_of_nonneg h.nx]
    have h3 : (2:ℝ)^(-1022:ℤ) * 2 ≤ (2:ℝ)^a := by
      have : (2:ℝ)^(-1022:ℤ) * 2 = (2:ℝ)^(-1022 + 1 : ℤ) := by rw [two_zpow_add, zpow_one]
      rw [this]
      exact two_zpow_le (by omega)
    have h4 : (2:ℝ)^b * 2 ≤ (2:ℝ)^(1023:ℤ) := by
      have : (2:ℝ)^b * 2 = (2:ℝ)^(b + 1) := by rw [two_zpow_add, zpow_one]
      rw [this]
      exact two_zpow_le (by omega)
    have := hr.hi
    constructor <;> linarith

theorem add (h : W m a b u y) (h' : W m a b v z) (hm : m ≤ 2^52) (ha : -1000 ≤ a) (hb : b ≤ 999) : W (m + 1) a (b + 1) (GoFloat.add u v) (y + z) := by
  obtain ⟨⟨x, h1, h2⟩, h3⟩ := h
  obtain ⟨⟨x', h1', h2'⟩, h3'⟩ := h'
  have hs := h2.add h2'
  have hr := h3.add h3'
  show W (m + 1) a (b + 1) (F64.add u v) (y + z)
  cases u with
  | nan => cases h1
  | inf s => cases h1
  | zero s =>
    cases h1
    cases v with
    | nan => cases h1'
    | inf s => cases h1'
    | zero s => cases h1'; exact ⟨⟨0, rfl, by simpa using hs.mono (Nat.le_succ m)⟩, hr⟩
    | fin r q p => cases h1'; exact ⟨⟨_, rfl, by simpa using hs.mono (Nat.le_succ m)⟩, hr⟩
  | fin r q p =>
    cases h1
    cases v with
    | nan => cases h1'
    | inf s => cases h1'
    | zero s => cases h1'; exact ⟨⟨_, rfl, by simpa using hs.mono (Nat.le_succ m)⟩, hr⟩
    | fin r' q' p' => cases h1'; exact W.round false hs hr hm ha (by omega)

theorem mul (h : W m a b u y) (h' : W n c d v z) (hm : m + n ≤ 2^52) (ha : -1000 ≤ a + c) (hb : b + d ≤ 1000) :
    W (m + n + 1) (a + c) (b + d) (GoFloat.mul u v) (y * z) := by
  obtain ⟨⟨x, h1, h2⟩, h3⟩ := h
  obtain ⟨⟨x', h1', h2'⟩, h3'⟩ := h'
  have hs := h2.mul h2'
  have hr := h3.mul h3'
  show W (m + n + 1) (a + c) (b + d) (F64.mul u v) (y * z)
  cases u with
  | nan => cases h1
  | inf s => cases h1
  | zero s =>
    cases h1
    cases v with
    | nan => cases h1'
    | inf s => cases h1'
    | zero s => cases h1'; exact ⟨⟨0, rfl, by simpa using hs.mono (Nat.le_succ (m + n))⟩, hr⟩
    | fin r q p => cases h1'; exact ⟨⟨0, rfl, by simpa using hs.mono (Nat.le_succ (m + n))⟩, hr⟩
  | fin r q p =>
    cases h1
    cases v with
    | nan => cases h1'
    | inf s => cases h1'
    | zero s => cases h1'; exact ⟨⟨0, rfl, by simpa using hs.mono (Nat.le_succ (m + n))⟩, hr⟩
    | fin r' q' p' => cases h1'; exact W.round false hs hr hm ha hb

theorem div (h : W m a b u y) (h' : W n c d v z) (h0 : z ≠ 0) (hm : m + n ≤ 2^52) (ha : -1000 ≤ a - d) (hb : b - c ≤ 1000) :
    W (m + n + 1) (a - d) (b - c) (GoFloat.div u v) (y / z) := by
  obtain ⟨⟨x, h1, h2⟩, h3⟩ := h
  obtain ⟨⟨x', h1', h2'⟩, h3'⟩ := h'
  have hs := h2.div h2'
  have hr := h3.div h3' h0
  show W (m + n + 1) (a - d) (b - c) (F64.div u v) (y / z)
  cases v with
  | nan => cases h1'
  | inf s => cases h1'
  | zero s => cases h1'; exact absurd (h2'.zero_iff.1 rfl) h0
  | fin r q p =>
    cases h1'
    cases u with
    | nan => cases h1
    | inf s => cases h1
    | zero s => cases h1; exact ⟨⟨0, rfl, by simpa using hs.mono (Nat.le_succ (m + n))⟩, hr⟩
    | fin r' q' p' => cases h1; exact W.round false hs hr hm ha hb

theorem lit (q : ℚ) (h : Rng a b (q : ℝ)) (ha : -1000 ≤ a) (hb : b ≤ 1000) : W 1 a b (GoFloat.lit q : F64 L) (q : ℝ) :=
  W.round false (Near.refl h.nn) h (by norm_num) ha hb

theorem ofInt (i : ℤ) (h : Rng a b (i : ℝ)) (ha : -1000 ≤ a) (hb : b ≤ 1000) : W 1 a b (GoFloat.ofInt i : F64 L) (i : ℝ) :=
  W.round false (Near.refl h.nn) h (by norm_num) ha hb

end W

/-! ### Exact computations -/

theorem round_exact (s : Bool) {x : ℝ} (e : rnd x = x) {a b : ℤ} (h : Rng a b x) (ha : -1000 ≤ a) (hb : b ≤ 1000) :
    (F64.round s x : F64 L).toReal = some x := by
  have h1 := W.round (L := L) s (Near.refl h.nn) h (by norm_num) ha hb
  rw [round_toReal, e]
  rcases h.lo with e | e
  · exact .inl e
  · right
    rw [abs_of_nonneg h.nn]
    exact ⟨(two_zpow_le (by omega)).trans e, h.hi.trans (two_zpow_le (by omega))⟩

theorem add_exact {u v : F64 L} {x y : ℝ} (hu : u.toReal = some x) (hv : v.toReal = some y) (e : rnd (x + y) = x + y) {a b : ℤ} (h : Rng a b (x + y))
    (ha : -1000 ≤ a) (hb : b ≤ 1000) : (F64.add u v).toReal = some (x + y) := by
  cases u with
  | nan => cases hu
  | inf s => cases hu
  | zero s =>
    cases hu
    cases v with
    | nan => cases hv
    | inf s => cases hv
    | zero s => cases hv; simp [F64.add, F64.toReal]
    | fin r q p => cases hv; simp [F64.add, F64.toReal]
  | fin r q p =>
    cases hu
    cases v with
    | nan => cases hv
    | inf s => cases hv
    | zero s => cases hv; simp [F64.add, F64.toReal]
    | fin r' q' p' => cases hv; exact round_exact false e h ha hb

theorem neg_toReal {u : F64 L} {x : ℝ} (hu : u.toReal = some x) : (F64.neg u).toReal = some (-x) := by
  cases u with
  | nan => cases hu
  | inf s => cases hu
  | zero s => cases hu; simp [F64.neg, F64.toReal]
  | fin r q p => cases hu; rfl

theorem sub_exact {u v : F64 L} {x y : ℝ} (hu : u.toReal = some x) (hv : v.toReal = some y) (e : rnd (x - y) = x - y) {a b : ℤ} (h : Rng a b (x - y))
    (ha : -1000 ≤ a) (hb : b ≤ 1000) : (GoFloat.sub u v : F64 L).toReal = some (x - y) := by
  rw [sub_eq_add_neg] at *
  exact add_exact hu (neg_toReal hv) e h ha hb

end Goir
