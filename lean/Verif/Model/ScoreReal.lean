import Verif.Model.Score
import Mathlib.Analysis.SpecialFunctions.Log.Basic
/-!
# Real numbers as Go floats: no rounding, no overflow, division by zero is 0

Theorems that use this instance assume, or prove, that no division by zero occurs.
-/
namespace Goir

noncomputable instance : GoFloat ℝ where
  lit q := (q : ℝ)
  ofInt n := (n : ℝ)
  add x y := x + y
  sub x y := x - y
  mul x y := x * y
  div x y := x / y
  log x := Real.log x
  eq0 x := @decide (x = 0) (Classical.propDecidable _)
  gt x y := @decide (x > y) (Classical.propDecidable _)

end Goir
