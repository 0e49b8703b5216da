import Verif.Model.Types
/-!
# Packages `metric` and `similarity`: IdfBM25 and BM25, over any kind of number

The Go code computes in `float64`.  The functions are written once, over any type with the operations the code uses; theorems
instantiate them with the real numbers (`Verif.Model.ScoreReal`: no rounding), with the reals extended by infinities and NaN
(`Verif.Model.ScoreX`: no rounding, but the special values of IEEE 754), with rounded reals (`Verif.Model.ScoreRounded`), or leave
the type open and assume only the laws they need.
-/
namespace Goir

/-- the operations on `float64` used by the code. -/
class GoFloat (F : Type) where
  /-- a constant in the source. -/
  lit   : Rat → F
  /-- the conversion `float64(n)` of an int. -/
  ofInt : Int → F
  add   : F → F → F
  sub   : F → F → F
  mul   : F → F → F
  div   : F → F → F
  /-- `math.Log` -/
  log   : F → F
  /-- `x == 0` -/
  eq0   : F → Bool
  /-- `x > y` -/
  gt    : F → F → Bool
  /-- `z + x * y`, or `x * y + z`. The compiler may compute it in one step (the Go specification allows it; gc does it on arm64, not on amd64), and
  decides this for each place in the program; the first argument is the place. -/
  fma   : Nat → F → F → F → F := fun _ x y z => add z (mul x y)

open GoFloat

/-- `IdfBM25` (/repo/metric/IDF.go:7-11). -/
def idfBM25 {F : Type} [GoFloat F] (totalDocs numDocsWithTerm : F) : F :=
  let numerator := add (sub totalDocs numDocsWithTerm) (lit 0.5)
  let denominator := add numDocsWithTerm (lit 0.5)
  log (add (lit 1) (div numerator denominator))

/-- one iteration of the loop of BM25 (/repo/similarity/BM25.go:13-18). -/
def bm25Step {F : Type} [GoFloat F] (k1 b boost avgDocLength totalDocs : F) (numDocsWithTerm : GoMap String Int) (field : Field)
    (score : F) (term : String) : F :=
  let idf := idfBM25 totalDocs (ofInt (numDocsWithTerm.getD term 0))
  let frequency : F := ofInt (field.tf.getD term 0)
  let numerator := mul frequency (add k1 (lit 1))
  let denominator := fma 1 k1 (fma 0 b (div (ofInt field.length) avgDocLength) (sub (lit 1) b)) frequency
  fma 2 (mul boost idf) (div numerator denominator) score

/-- `BM25` (/repo/similarity/BM25.go:8-36). -/
def bm25 {F : Type} [GoFloat F] (query : List String) (k1 b boost avgDocLength totalDocs : F) (numDocsWithTerm : GoMap String Int)
    (field : Field) : F :=
  let boost := if eq0 boost then lit 1 else boost
  query.foldl (bm25Step k1 b boost avgDocLength totalDocs numDocsWithTerm field) (lit 0.0)

end Goir
