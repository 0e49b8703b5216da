import Verif.Spec.Json
import Mathlib.Data.Rat.Defs
import Mathlib.Algebra.Field.Rat
/-!
# Specification vocabulary: the number that a JSON literal stands for
-/
namespace Goir
namespace Spec
open Json

/-- the number that a row of decimal digits stands for. -/
def digitsVal (ds : List Char) : Nat := ds.foldl (fun n c => 10 * n + (c.toNat - '0'.toNat)) 0

/-- `[ frac ]` stands for `q`. -/
def FracIs (f : List Char) (q : ℚ) : Prop := (f = [] ∧ q = 0) ∨ ∃ ds, Digits ds ∧ f = '.' :: ds ∧ q = digitsVal ds / 10 ^ ds.length

/-- `[ exp ]` stands for the exponent `k`. -/
def ExpIs (e : List Char) (k : ℤ) : Prop :=
  (e = [] ∧ k = 0) ∨ ∃ c sg ds, (c = 'e' ∨ c = 'E') ∧ Digits ds ∧ e = c :: (sg ++ ds) ∧
    (((sg = [] ∨ sg = ['+']) ∧ k = digitsVal ds) ∨ (sg = ['-'] ∧ k = -digitsVal ds))

/-- `Denotes lit neg q`: the literal (`number` of RFC 8259) stands for `q`, or for `-q` if it begins with a minus sign (`neg`). -/
def Denotes (lit : List Char) (neg : Bool) (q : ℚ) : Prop :=
  ∃ i f e fq k, lit = (if neg then ['-'] else []) ++ (i ++ (f ++ e)) ∧ IsInt i ∧ FracIs f fq ∧ ExpIs e k ∧ q = (digitsVal i + fq) * 10 ^ k

end Spec
end Goir
