import Verif.Model.Score
import Verif.Lemmas.Rounded
/-!
# Reals rounded to 53 binary digits as Go floats

Each operation gives the exact result rounded as in `Verif.Model.Rounding`.

Simplification: the exponent is unbounded (no overflow, no subnormal numbers), there are no infinities and no NaN (Lean's `x / 0 = 0`), the
sign of zero is not modelled, and `math.Log` is taken to be correctly rounded (Go does not promise that).
-/
namespace Goir

/-- a number of at most 53 bits. (the float64 of /repo/similarity/BM25.go:1-115, /repo/metric/IDF.go:1-11) -/
@[ext] structure R53 where
  val : ℝ
  rep : R53.rnd val = val

namespace R53
/-- the number that `x` is rounded to. (the float64 of /repo/similarity/BM25.go:1-115, /repo/metric/IDF.go:1-11) -/
noncomputable def of (x : ℝ) : R53 := ⟨rnd x, rnd_rnd x⟩
end R53

noncomputable instance : GoFloat R53 where
  lit q := R53.of q
  ofInt n := R53.of n
  add x y := R53.of (x.val + y.val)
  sub x y := R53.of (x.val - y.val)
  mul x y := R53.of (x.val * y.val)
  div x y := R53.of (x.val / y.val)
  log x := R53.of (Real.log x.val)
  eq0 x := @decide (x.val = 0) (Classical.propDecidable _)
  gt x y := @decide (x.val > y.val) (Classical.propDecidable _)

end Goir
