import Mathlib.Analysis.SpecialFunctions.Log.Basic
import Mathlib.Data.Int.Log
/-!
# Rounding to 53 binary digits

The nearest number with a significand of 53 bits, ties to even, as IEEE 754 requires of the float64 operations.  Simplification: the
exponent is unbounded (no overflow, no subnormal numbers).
-/
namespace Goir
namespace R53

/-- the nearest integer, ties to even. (the float64 of /repo/similarity/BM25.go:1-115, /repo/metric/IDF.go:1-11) -/
noncomputable def nearest (x : ℝ) : ℤ :=
  open Classical in
  if Int.fract x < 1/2 then ⌊x⌋ else if Int.fract x > 1/2 then ⌊x⌋ + 1 else if Even ⌊x⌋ then ⌊x⌋ else ⌊x⌋ + 1

/-- the distance of neighbouring numbers of 53 bits around `x`: `2^(e-52)` where `2^e ≤ |x| < 2^(e+1)`. (the float64 of /repo/similarity/BM25.go:1-115, /repo/metric/IDF.go:1-11) -/
noncomputable def ulp (x : ℝ) : ℝ := (2 : ℝ) ^ (Int.log 2 |x| - 52)

/-- rounding to 53 bits. (the float64 of /repo/similarity/BM25.go:1-115, /repo/metric/IDF.go:1-11) -/
noncomputable def rnd (x : ℝ) : ℝ := SignType.sign x * (nearest (|x| / ulp x) * ulp x)

end R53

end Goir
