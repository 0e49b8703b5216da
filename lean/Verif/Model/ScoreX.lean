import Verif.Model.ScoreReal
/-!
# Reals with infinities and NaN as Go floats

The special values of IEEE 754 without its rounding: every operation is exact, but `0/0`, `∞ - ∞`, `0 * ∞` and `log` of a negative
number are NaN, `x/0` and `log 0` are infinite.

Simplification: the sign of zero is not modelled (`x/0` takes the sign of `x`), and nothing overflows or underflows.
-/
namespace Goir

/-- a number, an infinity or NaN. (the float64 of /repo/similarity/BM25.go:1-115, /repo/metric/IDF.go:1-11) -/
inductive XReal where
  | fin (x : ℝ)
  | inf (neg : Bool)
  | nan

namespace XReal
/-- `x + y` (the float64 of /repo/similarity/BM25.go:1-115, /repo/metric/IDF.go:1-11). -/
noncomputable def add : XReal → XReal → XReal
  | nan, _ => nan
  | _, nan => nan
  | fin x, fin y => fin (x + y)
  | fin _, inf s => inf s
  | inf s, fin _ => inf s
  | inf s, inf s' => if s = s' then inf s else nan

/-- `-x` (the float64 of /repo/similarity/BM25.go:1-115, /repo/metric/IDF.go:1-11). -/
noncomputable def neg : XReal → XReal
  | fin x => fin (-x)
  | inf s => inf !s
  | nan => nan

/-- `∞` with the sign of `x`, times the sign `s`; NaN for 0. (the float64 of /repo/similarity/BM25.go:1-115, /repo/metric/IDF.go:1-11) -/
noncomputable def signed (s : Bool) (x : ℝ) : XReal :=
  open Classical in if x = 0 then nan else inf (xor s (decide (x < 0)))

/-- `x * y` (the float64 of /repo/similarity/BM25.go:1-115, /repo/metric/IDF.go:1-11). -/
noncomputable def mul : XReal → XReal → XReal
  | nan, _ => nan
  | _, nan => nan
  | fin x, fin y => fin (x * y)
  | fin x, inf s => signed s x
  | inf s, fin x => signed s x
  | inf s, inf s' => inf (xor s s')

/-- `x / y` (the float64 of /repo/similarity/BM25.go:1-115, /repo/metric/IDF.go:1-11). -/
noncomputable def div : XReal → XReal → XReal
  | nan, _ => nan
  | _, nan => nan
  | fin x, fin y => open Classical in if y = 0 then signed false x else fin (x / y)
  | fin _, inf _ => fin 0
  | inf s, fin x => open Classical in if x = 0 then inf s else signed s x
  | inf _, inf _ => nan

/-- `math.Log(x)` (the float64 of /repo/similarity/BM25.go:1-115, /repo/metric/IDF.go:1-11). -/
noncomputable def log : XReal → XReal
  | nan => nan
  | inf s => if s then nan else inf false
  | fin x => open Classical in if x < 0 then nan else if x = 0 then inf true else fin (Real.log x)

/-- `x > y` (the float64 of /repo/similarity/BM25.go:1-115, /repo/metric/IDF.go:1-11). -/
noncomputable def gt : XReal → XReal → Bool
  | nan, _ => false
  | _, nan => false
  | fin x, fin y => open Classical in decide (x > y)
  | fin _, inf s => s
  | inf s, fin _ => !s
  | inf s, inf s' => !s && s'

/-- `x == 0` (the float64 of /repo/similarity/BM25.go:1-115, /repo/metric/IDF.go:1-11). -/
noncomputable def eq0 : XReal → Bool
  | fin x => open Classical in decide (x = 0)
  | _ => false

end XReal

noncomputable instance : GoFloat XReal where
  lit q := .fin (q : ℝ)
  ofInt n := .fin (n : ℝ)
  add := XReal.add
  sub x y := XReal.add x (XReal.neg y)
  mul := XReal.mul
  div := XReal.div
  log := XReal.log
  eq0 := XReal.eq0
  gt := XReal.gt

end Goir
