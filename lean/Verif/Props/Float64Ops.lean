import Verif.Props.Float64
import Verif.Props.NaN
/-!
# The operations of float64

C112 and C68: each operation of the float64 numbers that scores are computed with gives the float64 nearest to the exact result, an infinity if the
exact result is out of range, and the special values of IEEE 754; and a field of length 0 gives NaN in float64 too.
-/
namespace Goir
variable {L : MathLog}

/-- half way between the largest float64 and `2^1024`. -/
noncomputable def f64Limit : ℝ := (2:ℝ)^(1024:ℤ) - (2:ℝ)^(970:ℤ)

/-- `v` is the exact result `x` rounded to float64: a float64 nearest to it, or beyond the range the infinity with its sign. -/
def Rounds (x : ℝ) (v : F64 L) : Prop :=
  (∃ r, v.toReal = some r ∧ (∀ z, IsF64 z → |x - r| ≤ |x - z|) ∧ |x| ≤ f64Limit) ∨
  (∃ s, v = .inf s ∧ (s = true ↔ x < 0) ∧ f64Limit ≤ |x|)

/-- a float64 as a number, an infinity or NaN. -/
noncomputable def F64.ext : F64 L → XReal
  | .zero _ => .fin 0
  | .fin x _ _ => .fin x
  | .inf s => .inf s
  | .nan => .nan

theorem two_p (a : ℤ) (b : ℤ) : (2:ℝ)^(a + b) = (2:ℝ)^a * (2:ℝ)^b := zpow_add₀ (by norm_num) a b

/-- the largest float64. -/
theorem isF64_le {x : ℝ} (h : IsF64 x) : |x| ≤ (2:ℝ)^(1024:ℤ) - (2:ℝ)^(971:ℤ) := by
  obtain ⟨m, e, hm, -, he, rfl⟩ := h
  have e1 : (2:ℝ)^(1024:ℤ) = 2^53 * (2:ℝ)^(971:ℤ) := by
    rw [show (1024:ℤ) = 53 + 971 by norm_num, two_p]; norm_num
  have hp : (0:ℝ) < (2:ℝ)^(971:ℤ) := by positivity
  have h1 : (2:ℝ)^e ≤ (2:ℝ)^(971:ℤ) := two_zpow_le he
  have h2 : ((|m| : ℤ) : ℝ) ≤ 2^53 - 1 := by
    have : |m| ≤ 2^53 - 1 := by omega
    exact_mod_cast this
  have h0 : (0:ℝ) ≤ ((|m| : ℤ) : ℝ) := by exact_mod_cast abs_nonneg m
  rw [abs_mul, abs_of_pos (show (0:ℝ) < (2:ℝ)^e by positivity), e1, ← Int.cast_abs]
  calc ((|m| : ℤ) : ℝ) * (2:ℝ)^e ≤ (2^53 - 1) * (2:ℝ)^(971:ℤ) := mul_le_mul h2 h1 (by positivity) (by norm_num)
    _ = 2^53 * (2:ℝ)^(971:ℤ) - (2:ℝ)^(971:ℤ) := by ring

theorem rounds_round (s : Bool) (x : ℝ) : Rounds x (F64.round s x : F64 L) := by
  have best := fun z (hz : IsF64 z) => (show |x - rnd64 x| ≤ |x - z| by
    obtain ⟨m, e, hm, he, -, rfl⟩ := hz
    exact rnd64_best x m e hm he)
  have p970 : (0:ℝ) < (2:ℝ)^(970:ℤ) := by positivity
  have e971 : (2:ℝ)^(971:ℤ) = 2 * (2:ℝ)^(970:ℤ) := by rw [show (971:ℤ) = 1 + 970 by norm_num, two_p]; norm_num
  -- finite results
  have finite : |rnd64 x| < (2:ℝ)^(1024:ℤ) → |x| ≤ f64Limit := by
    intro h
    have hr := isF64_le (isF64_rnd64 h)
    unfold f64Limit
    by_contra hx
    have hx := not_le.1 hx
    have b1 := rnd64_best x (2^52) 972 (by norm_num) (by norm_num)
    have b2 := rnd64_best x (-2^52) 972 (by norm_num) (by norm_num)
    have e3 : (((2^52 : ℤ) : ℝ)) * (2:ℝ)^(972:ℤ) = (2:ℝ)^(1024:ℤ) := by
      rw [show (1024:ℤ) = 52 + 972 by norm_num, two_p]; norm_num
    have e4 : (((-2^52 : ℤ) : ℝ)) * (2:ℝ)^(972:ℤ) = -(2:ℝ)^(1024:ℤ) := by
      rw [← e3]; push_cast; ring
    rw [e3] at b1; rw [e4] at b2
    generalize (2:ℝ)^(1024:ℤ) = P at *
    generalize (2:ℝ)^(971:ℤ) = Q at *
    generalize (2:ℝ)^(970:ℤ) = R at *
    rcases abs_cases x with ⟨h1, h1'⟩ | ⟨h1, h1'⟩ <;> rcases abs_cases (rnd64 x) with ⟨h2, h2'⟩ | ⟨h2, h2'⟩ <;>
      rcases abs_cases (x - P) with ⟨h3, h3'⟩ | ⟨h3, h3'⟩ <;> rcases abs_cases (x - -P) with ⟨h4, h4'⟩ | ⟨h4, h4'⟩ <;>
      rcases abs_cases (x - rnd64 x) with ⟨h5, h5'⟩ | ⟨h5, h5'⟩ <;> linarith
  unfold F64.round
  by_cases h0 : rnd64 x = 0
  · rw [dif_pos h0]
    refine Or.inl ⟨0, rfl, fun z hz => ?_, finite (by rw [h0, abs_zero]; positivity)⟩
    have := best z hz
    rwa [h0] at this
  · rw [dif_neg h0]
    by_cases h : |rnd64 x| < (2:ℝ)^(1024:ℤ)
    · rw [dif_pos h]
      exact Or.inl ⟨rnd64 x, rfl, best, finite h⟩
    · rw [dif_neg h]
      refine Or.inr ⟨_, rfl, by simp [F64.sgn], ?_⟩
      have h := not_lt.1 h
      have b1 := best (((2^53 - 1 : ℤ) : ℝ) * (2:ℝ)^(971:ℤ)) ⟨2^53 - 1, 971, by norm_num, by norm_num, by norm_num, rfl⟩
      have b2 := best (((-(2^53 - 1) : ℤ) : ℝ) * (2:ℝ)^(971:ℤ)) ⟨-(2^53 - 1), 971, by norm_num, by norm_num, by norm_num, rfl⟩
      have e1 : (2:ℝ)^(1024:ℤ) = 2^53 * (2:ℝ)^(971:ℤ) := by
        rw [show (1024:ℤ) = 53 + 971 by norm_num, two_p]; norm_num
      have e3 : (((2^53 - 1 : ℤ) : ℝ)) * (2:ℝ)^(971:ℤ) = (2:ℝ)^(1024:ℤ) - (2:ℝ)^(971:ℤ) := by rw [e1]; push_cast; ring
      have e4 : (((-(2^53 - 1) : ℤ) : ℝ)) * (2:ℝ)^(971:ℤ) = -((2:ℝ)^(1024:ℤ) - (2:ℝ)^(971:ℤ)) := by rw [← e3]; push_cast; ring
      rw [e3] at b1; rw [e4] at b2
      unfold f64Limit
      generalize (2:ℝ)^(1024:ℤ) = P at *
      generalize (2:ℝ)^(971:ℤ) = Q at *
      generalize (2:ℝ)^(970:ℤ) = R at *
      by_contra hx
      have hx := not_le.1 hx
      rcases abs_cases x with ⟨h1, h1'⟩ | ⟨h1, h1'⟩ <;> rcases abs_cases (rnd64 x) with ⟨h2, h2'⟩ | ⟨h2, h2'⟩ <;>
        rcases abs_cases (x - (P - Q)) with ⟨h3, h3'⟩ | ⟨h3, h3'⟩ <;> rcases abs_cases (x - -(P - Q)) with ⟨h4, h4'⟩ | ⟨h4, h4'⟩ <;>
        rcases abs_cases (x - rnd64 x) with ⟨h5, h5'⟩ | ⟨h5, h5'⟩ <;> linarith

theorem rounds_exact {v : F64 L} {x : ℝ} (h : v.toReal = some x) : Rounds x v := by
  have hx : IsF64 x := by
    cases v with
    | nan => cases h
    | inf s => cases h
    | zero s => cases h; exact isF64_zero
    | fin r q p => cases h; exact q
  refine Or.inl ⟨x, h, fun z _ => by rw [sub_self, abs_zero]; exact abs_nonneg _, ?_⟩
  have := isF64_le hx
  have e971 : (2:ℝ)^(971:ℤ) = 2 * (2:ℝ)^(970:ℤ) := by rw [show (971:ℤ) = 1 + 970 by norm_num, two_p]; norm_num
  have p970 : (0:ℝ) < (2:ℝ)^(970:ℤ) := by positivity
  unfold f64Limit
  generalize (2:ℝ)^(1024:ℤ) = P at *
  generalize (2:ℝ)^(971:ℤ) = Q at *
  generalize (2:ℝ)^(970:ℤ) = R at *
  linarith

theorem rounds_add {a b : F64 L} {x y : ℝ} (ha : a.toReal = some x) (hb : b.toReal = some y) : Rounds (x + y) (F64.add a b) := by
  cases a with
  | nan => cases ha
  | inf s => cases ha
  | zero s =>
    cases ha
    cases b with
    | nan => cases hb
    | inf s => cases hb
    | zero s => cases hb; exact rounds_exact (by simp [F64.add, F64.toReal])
    | fin r q p => cases hb; exact rounds_exact (by simp [F64.add, F64.toReal])
  | fin r q p =>
    cases ha
    cases b with
    | nan => cases hb
    | inf s => cases hb
    | zero s => cases hb; exact rounds_exact (by simp [F64.add, F64.toReal])
    | fin r q p => cases hb; exact rounds_round _ _

theorem rounds_mul {a b : F64 L} {x y : ℝ} (ha : a.toReal = some x) (hb : b.toReal = some y) : Rounds (x * y) (F64.mul a b) := by
  cases a with
  | nan => cases ha
  | inf s => cases ha
  | zero s =>
    cases ha
    cases b with
    | nan => cases hb
    | inf s => cases hb
    | zero s => cases hb; exact rounds_exact (by simp [F64.mul, F64.toReal])
    | fin r q p => cases hb; exact rounds_exact (by simp [F64.mul, F64.toReal])
  | fin r q p =>
    cases ha
    cases b with
    | nan => cases hb
    | inf s => cases hb
    | zero s => cases hb; exact rounds_exact (by simp [F64.mul, F64.toReal])
    | fin r q p => cases hb; exact rounds_round _ _

/-- **C112.** Every operation that scores are computed with gives the float64 nearest to its exact result, or the infinity of its sign when the
exact result is out of range; a fused multiply-add rounds once, and where the compiler does not fuse it is a product and a sum. -/
theorem c112_rounding {a b : F64 L} {x y : ℝ} (ha : a.toReal = some x) (hb : b.toReal = some y) :
    Rounds (x + y) (GoFloat.add a b) ∧ Rounds (x - y) (GoFloat.sub a b) ∧ Rounds (x * y) (GoFloat.mul a b) ∧
    (y ≠ 0 → Rounds (x / y) (GoFloat.div a b)) ∧ (0 < x → Rounds (L.f x) (GoFloat.log a)) ∧
    (∀ q : Rat, Rounds (q : ℝ) (GoFloat.lit q : F64 L)) ∧ (∀ n : ℤ, Rounds (n : ℝ) (GoFloat.ofInt n : F64 L)) ∧
    ∀ (site : Nat) (c : F64 L) (z : ℝ), c.toReal = some z →
      (L.fuse site = true → Rounds (z + x * y) (GoFloat.fma site a b c)) ∧
      (L.fuse site = false → GoFloat.fma site a b c = GoFloat.add c (GoFloat.mul a b)) := by
  refine ⟨rounds_add ha hb, ?_, rounds_mul ha hb, fun hy => ?_, fun hx => ?_, fun q => rounds_round _ _, fun n => rounds_round _ _, fun site c z hc => ⟨fun hf => ?_, fun hf => ?_⟩⟩
  · rw [sub_eq_add_neg]; exact rounds_add ha (neg_toReal hb)
  · show Rounds _ (F64.div a b)
    cases b with
    | nan => cases hb
    | inf s => cases hb
    | zero s => cases hb; exact absurd rfl hy
    | fin r q p =>
      cases hb
      cases a with
      | nan => cases ha
      | inf s => cases ha
      | zero s => cases ha; exact rounds_exact (by simp [F64.div, F64.toReal])
      | fin r q p => cases ha; exact rounds_round _ _
  · show Rounds _ (F64.log a)
    cases a with
    | nan => cases ha
    | inf s => cases ha
    | zero s => cases ha; exact absurd hx (lt_irrefl _)
    | fin r q p =>
      cases ha
      unfold F64.log
      simp only
      rw [if_neg (not_lt.2 hx.le)]
      exact rounds_round _ _
  · show Rounds _ (if L.fuse site then F64.fmadd a b c else F64.add c (F64.mul a b))
    rw [hf, if_pos rfl]
    cases a with
    | nan => cases ha
    | inf s => cases ha
    | zero s =>
      cases ha
      have hm : (F64.mul (F64.zero s) b).toReal = some (0 * y) := by
        cases b with
        | nan => cases hb
        | inf s => cases hb
        | zero s => cases hb; simp [F64.mul, F64.toReal]
        | fin r q p => cases hb; simp [F64.mul, F64.toReal]
      exact rounds_add hc hm
    | fin r q p =>
      cases ha
      cases b with
      | nan => cases hb
      | inf s => cases hb
      | zero s =>
        have hm : (F64.mul (F64.fin x q p : F64 L) (F64.zero s)).toReal = some (x * y) := by cases hb; simp [F64.mul, F64.toReal]
        exact rounds_add hc hm
      | fin r q p =>
        cases hb
        cases c with
        | nan => cases hc
        | inf s => cases hc
        | zero s => cases hc; rw [zero_add]; exact rounds_round _ _
        | fin r q p => cases hc; rw [add_comm]; exact rounds_round _ _
  · show (if L.fuse site then F64.fmadd a b c else F64.add c (F64.mul a b)) = _
    rw [hf]; rfl

theorem round_ne_nan (s : Bool) (x : ℝ) : (F64.round s x : F64 L) ≠ .nan := by
  unfold F64.round
  split
  · simp
  · split <;> simp

/-- **C112, C68.** Outside the finite numbers float64 is IEEE 754: an operation gives NaN exactly when it has no meaning for its operands as
extended real numbers (`∞ - ∞`, `0 * ∞`, `0/0`, `∞/∞`, NaN), infinities behave as such, a number over a signed zero is the infinity of the
signs, and comparisons are those of the extended numbers. -/
theorem c112_special_values (a b : F64 L) :
    (GoFloat.add a b = .nan ↔ GoFloat.add a.ext b.ext = .nan) ∧ (GoFloat.sub a b = .nan ↔ GoFloat.sub a.ext b.ext = .nan) ∧
    (GoFloat.mul a b = .nan ↔ GoFloat.mul a.ext b.ext = .nan) ∧ (GoFloat.div a b = .nan ↔ GoFloat.div a.ext b.ext = .nan) ∧
    (GoFloat.log a = .nan ↔ GoFloat.log a.ext = .nan) ∧
    (a.toReal = none ∨ b.toReal = none → (GoFloat.add a b).ext = GoFloat.add a.ext b.ext ∧ (GoFloat.sub a b).ext = GoFloat.sub a.ext b.ext ∧
      (GoFloat.mul a b).ext = GoFloat.mul a.ext b.ext ∧ (b.toReal ≠ some 0 → (GoFloat.div a b).ext = GoFloat.div a.ext b.ext)) ∧
    (∀ s x, a.toReal = some x → x ≠ 0 → (GoFloat.div a (.zero s : F64 L)) = .inf (decide (x < 0) != s)) ∧
    (∀ s s', GoFloat.div (F64.inf s : F64 L) (.zero s') = .inf (s != s')) ∧
    GoFloat.gt a b = GoFloat.gt a.ext b.ext ∧ GoFloat.eq0 a = GoFloat.eq0 a.ext := by
  refine ⟨?_, ?_, ?_, ?_, ?_, ?_, ?_, ?_, ?_, ?_⟩
  · show F64.add a b = _ ↔ XReal.add a.ext b.ext = _
    cases a <;> cases b <;> simp [F64.add, F64.ext, XReal.add, round_ne_nan] <;> split <;> simp
  · show F64.add a (F64.neg b) = _ ↔ XReal.add a.ext (XReal.neg b.ext) = _
    cases a <;> cases b <;> simp [F64.add, F64.ext, XReal.add, F64.neg, XReal.neg, round_ne_nan] <;> split <;> simp
  · show F64.mul a b = _ ↔ XReal.mul a.ext b.ext = _
    cases a <;> cases b <;> simp_all [F64.mul, F64.ext, XReal.mul, XReal.signed, round_ne_nan]
  · show F64.div a b = _ ↔ XReal.div a.ext b.ext = _
    cases a <;> cases b <;> simp_all [F64.div, F64.ext, XReal.div, XReal.signed, round_ne_nan]
  · show F64.log a = _ ↔ XReal.log a.ext = _
    cases a with
    | nan => simp [F64.log, F64.ext, XReal.log]
    | inf s => cases s <;> simp [F64.log, F64.ext, XReal.log]
    | zero s => simp [F64.log, F64.ext, XReal.log]
    | fin x q p =>
      by_cases h : x < 0
      · simp [F64.log, F64.ext, XReal.log, h]
      · simp [F64.log, F64.ext, XReal.log, h, p, round_ne_nan]
  · intro h
    refine ⟨?_, ?_, ?_, fun h0 => ?_⟩
    · show (F64.add a b).ext = XReal.add a.ext b.ext
      cases a <;> cases b <;> first | (rename_i s s'; cases s <;> cases s' <;> rfl) | simp_all [F64.add, F64.ext, XReal.add, F64.toReal]
    · show (F64.add a (F64.neg b)).ext = XReal.add a.ext (XReal.neg b.ext)
      cases a <;> cases b <;> first | (rename_i s s'; cases s <;> cases s' <;> rfl) | simp_all [F64.add, F64.ext, XReal.add, F64.neg, XReal.neg, F64.toReal]
    · show (F64.mul a b).ext = XReal.mul a.ext b.ext
      cases a <;> cases b <;> simp_all [F64.mul, F64.ext, XReal.mul, XReal.signed, F64.toReal, F64.sgn, Bool.xor_comm]
    · show (F64.div a b).ext = XReal.div a.ext b.ext
      cases a <;> cases b <;> simp_all [F64.div, F64.ext, XReal.div, XReal.signed, F64.toReal, F64.sgn]
  · intro s x ha hx
    cases a with
    | nan => cases ha
    | inf s => cases ha
    | zero s => cases ha; exact absurd rfl hx
    | fin r q p => cases ha; show F64.div _ _ = _; cases s <;> simp [F64.div, F64.sgn]
  · intro s s'; cases s <;> cases s' <;> rfl
  · show F64.gt a b = XReal.gt a.ext b.ext
    cases a <;> cases b <;> simp [F64.gt, F64.ext, XReal.gt, F64.toReal]
  · show F64.eq0 a = XReal.eq0 a.ext
    cases a <;> simp_all [F64.eq0, F64.ext, XReal.eq0]

theorem fma_nan_mid (i : Nat) (x z : F64 L) : GoFloat.fma i x (.nan : F64 L) z = .nan := by
  show (if L.fuse i then F64.fmadd x .nan z else F64.add z (F64.mul x .nan)) = .nan
  split <;> cases x <;> cases z <;> rfl

/-- **C68 in float64**: with whatever logarithm and fused operations, if the only field saved has length 0, every search that finds it gives it the
score NaN. -/
theorem c68_float64_refuted : ∃ (h : List StoreOp) (query : List (Query (F64 L))), (∀ op ∈ h, op.isSave = true) ∧
    (∀ q ∈ query, q.boost.toReal = some 1) ∧ (∀ cpus, 0 < cpus → ∃ l, SState.Returns (Memory.run h).reads query cpus l) ∧
    ∀ cpus l, SState.Returns (Memory.run h).reads query cpus l → ("d", F64.nan) ∈ l := by
  refine ⟨[.save "d" { name := "title", length := 0, tf := [("t", 1)] }], [⟨"title", GoFloat.lit 1, ["t"]⟩], by decide, ?_,
    fun cpus hc => search_returns (memory_consistent _) _ hc, fun cpus l hl => ?_⟩
  · intro q hq
    rw [List.mem_singleton.1 hq]
    exact lit64_one
  obtain ⟨-, qs, hp, hm⟩ := c59_result (memory_consistent _) _ cpus hl
  rw [hm, List.perm_singleton.1 hp]
  have hfield : (Memory.run [.save "d" { name := "title", length := 0, tf := [("t", 1)] }]).reads.fieldOf "d" "title" =
      some { name := "title", length := 0, tf := [("t", 1)] } := by decide
  have hmatch : (Memory.run [.save "d" { name := "title", length := 0, tf := [("t", 1)] }]).reads.matches "title" ["t"] "d" = true := by
    decide
  have hl0 : (Memory.run [.save "d" { name := "title", length := 0, tf := [("t", 1)] }]).reads.getFieldLength "title" = 0 := by decide
  have hs1 : (Memory.run [.save "d" { name := "title", length := 0, tf := [("t", 1)] }]).reads.getFieldSize "title" = 1 := by decide
  have z0 : (GoFloat.ofInt 0 : F64 L) = .zero false := by
    show F64.round false ((0:ℤ):ℝ) = _
    unfold F64.round
    rw [dif_pos (by simp)]; simp
  have hone : (GoFloat.ofInt 1 : F64 L).toReal = some 1 := by
    have := lit64_one (L := L)
    show (F64.round false ((1:ℤ):ℝ) : F64 L).toReal = _
    simpa [GoFloat.lit] using this
  have hdiv : ∃ s, GoFloat.div (GoFloat.ofInt 0 : F64 L) (GoFloat.ofInt 1) = .zero s := by
    rw [z0]
    generalize (GoFloat.ofInt 1 : F64 L) = v at hone
    cases v with
    | nan => cases hone
    | inf s => cases hone
    | zero s => simp [F64.toReal] at hone
    | fin r q p => exact ⟨_, rfl⟩
  obtain ⟨s, hdiv⟩ := hdiv
  have hdiv0 : GoFloat.div (F64.zero false : F64 L) (.zero s) = .nan := rfl
  have hn : ∀ v : F64 L, GoFloat.div v (.nan : F64 L) = .nan := fun v => by show F64.div v .nan = _; cases v <;> rfl
  have : docScores (Memory.run [.save "d" { name := "title", length := 0, tf := [("t", 1)] }]).reads
      [(⟨"title", GoFloat.lit 1, ["t"]⟩ : Query (F64 L))] "d" = [.nan] := by
    unfold docScores queryScore
    simp only [List.filterMap_cons, List.filterMap_nil, hmatch, if_true, hfield, Option.map_some, hl0, hs1]
    rw [hdiv]
    unfold bm25
    simp only [List.foldl_cons, List.foldl_nil]
    unfold bm25Step
    simp only [z0, hdiv0, fma_nan_mid, hn]
  rw [this]
  refine ⟨by simp, ?_⟩
  exact (add_nan _).symm

end Goir
