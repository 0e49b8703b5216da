import Verif.Model.Rounding
/-!
# Rounding to float64

The finite values of IEEE 754 binary64 and rounding to them, ties to even, with the bounded range of exponents: numbers below `2^-1022` are rounded to
multiples of `2^-1074`.  `rnd64` may give `2^1024` or more; such results are infinities of `Verif.Model.Float64`.
-/
namespace Goir

/-- the values of finite float64 numbers: 53 binary digits, exponents from -1074 to 971. (the float64 of /repo/similarity/BM25.go:1-115, /repo/metric/IDF.go:1-11) -/
def IsF64 (x : ℝ) : Prop := ∃ m e : ℤ, |m| < 2^53 ∧ -1074 ≤ e ∧ e ≤ 971 ∧ x = m * (2:ℝ)^e

/-- the distance of neighbouring float64 numbers around `x`. (the float64 of /repo/similarity/BM25.go:1-115, /repo/metric/IDF.go:1-11) -/
noncomputable def ulp64 (x : ℝ) : ℝ := (2:ℝ) ^ (max (Int.log 2 |x|) (-1022) - 52)

/-- rounding to the nearest multiple of it, ties to even. (the float64 of /repo/similarity/BM25.go:1-115, /repo/metric/IDF.go:1-11) -/
noncomputable def rnd64 (x : ℝ) : ℝ := SignType.sign x * (R53.nearest (|x| / ulp64 x) * ulp64 x)

end Goir
