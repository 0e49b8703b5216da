import Verif.Model.Score
import Verif.Lemmas.Rounding64
/-!
# float64

The numbers of IEEE 754 binary64 with the operations that Go's float64 has: signed zeros, subnormal numbers, overflow to infinities, NaN; every
operation rounds its exact result to nearest, ties to even.  `math.Log` is any function with a relative error of at most `2^-52` (one unit in the
last place) and Go's special cases.

Simplification: there is one NaN (payloads and signs of NaN are not observable in the code).  Where the compiler fuses `z + x * y`, the exact result is rounded once.
-/
namespace Goir

/-- a compiler and its library: an implementation of `math.Log` for positive numbers (its result is rounded again, which changes nothing if it is a
float64), and the places where the compiler uses a fused multiply-add. (the float64 of /repo/similarity/BM25.go:1-115, /repo/metric/IDF.go:1-11) -/
structure MathLog where
  f : ℝ → ℝ
  /-- where the compiler fuses a multiplication with an addition. -/
  fuse : Nat → Bool
  err : ∀ x, 0 < x → |f x - Real.log x| ≤ (1/2^52) * |Real.log x|

/-- a float64. (the float64 of /repo/similarity/BM25.go:1-115, /repo/metric/IDF.go:1-11) -/
inductive F64 (L : MathLog) where
  | zero (neg : Bool)
  | fin (x : ℝ) (h : IsF64 x) (h0 : x ≠ 0)
  | inf (neg : Bool)
  | nan

namespace F64
variable {L : MathLog}

open Classical in
/-- the sign bit of a number that is not zero. (the float64 of /repo/similarity/BM25.go:1-115, /repo/metric/IDF.go:1-11) -/
noncomputable def sgn (x : ℝ) : Bool := decide (x < 0)

open Classical in
/-- the float64 for an exact result `x`; `s` is the sign if it is zero. (the float64 of /repo/similarity/BM25.go:1-115, /repo/metric/IDF.go:1-11) -/
noncomputable def round (s : Bool) (x : ℝ) : F64 L :=
  if h0 : rnd64 x = 0 then .zero (if x = 0 then s else sgn x)
  else if h : |rnd64 x| < (2:ℝ)^(1024:ℤ) then .fin (rnd64 x) (isF64_rnd64 h) h0
  else .inf (sgn x)

/-- `-x` (the float64 of /repo/similarity/BM25.go:1-115, /repo/metric/IDF.go:1-11). -/
noncomputable def neg : F64 L → F64 L
  | zero s => zero !s
  | fin x h h0 => fin (-x) (isF64_neg h) (neg_ne_zero.2 h0)
  | inf s => inf !s
  | nan => nan

/-- `x + y` (the float64 of /repo/similarity/BM25.go:1-115, /repo/metric/IDF.go:1-11). -/
noncomputable def add : F64 L → F64 L → F64 L
  | nan, _ => nan
  | _, nan => nan
  | inf s, inf s' => if s = s' then inf s else nan
  | inf s, _ => inf s
  | _, inf s => inf s
  | zero s, zero s' => zero (s && s')
  | zero _, y => y
  | x, zero _ => x
  | fin x _ _, fin y _ _ => round false (x + y)

/-- `x * y` (the float64 of /repo/similarity/BM25.go:1-115, /repo/metric/IDF.go:1-11). -/
noncomputable def mul : F64 L → F64 L → F64 L
  | nan, _ => nan
  | _, nan => nan
  | inf s, inf s' => inf (xor s s')
  | inf s, fin x _ _ => inf (xor s (sgn x))
  | fin x _ _, inf s => inf (xor (sgn x) s)
  | inf _, zero _ => nan
  | zero _, inf _ => nan
  | zero s, zero s' => zero (xor s s')
  | zero s, fin x _ _ => zero (xor s (sgn x))
  | fin x _ _, zero s => zero (xor (sgn x) s)
  | fin x _ _, fin y _ _ => round false (x * y)

/-- `x / y` (the float64 of /repo/similarity/BM25.go:1-115, /repo/metric/IDF.go:1-11). -/
noncomputable def div : F64 L → F64 L → F64 L
  | nan, _ => nan
  | _, nan => nan
  | inf _, inf _ => nan
  | inf s, fin x _ _ => inf (xor s (sgn x))
  | inf s, zero s' => inf (xor s s')
  | fin x _ _, inf s => zero (xor (sgn x) s)
  | zero s, inf s' => zero (xor s s')
  | zero _, zero _ => nan
  | zero s, fin x _ _ => zero (xor s (sgn x))
  | fin x _ _, zero s => inf (xor (sgn x) s)
  | fin x _ _, fin y _ _ => round false (x / y)

/-- a fused `z + x * y`: like the two operations, but only the result is rounded. (the float64 of /repo/similarity/BM25.go:1-115, /repo/metric/IDF.go:1-11) -/
noncomputable def fmadd : F64 L → F64 L → F64 L → F64 L
  | fin x _ _, fin y _ _, fin z _ _ => round false (x * y + z)
  | fin x _ _, fin y _ _, zero _ => round false (x * y)
  | fin _ _ _, fin _ _ _, inf s => inf s
  | x, y, z => add z (mul x y)

open Classical in
/-- `math.Log(x)` (the float64 of /repo/similarity/BM25.go:1-115, /repo/metric/IDF.go:1-11). -/
noncomputable def log : F64 L → F64 L
  | nan => nan
  | inf s => if s then nan else inf false
  | zero _ => inf true
  | fin x _ _ => if x < 0 then nan else round false (L.f x)

/-- the value of a finite number. (the float64 of /repo/similarity/BM25.go:1-115, /repo/metric/IDF.go:1-11) -/
noncomputable def toReal : F64 L → Option ℝ
  | zero _ => some 0
  | fin x _ _ => some x
  | _ => none

open Classical in
/-- `x > y` (the float64 of /repo/similarity/BM25.go:1-115, /repo/metric/IDF.go:1-11). -/
noncomputable def gt (a b : F64 L) : Bool :=
  match a, b with
  | nan, _ => false
  | _, nan => false
  | inf s, inf s' => !s && s'
  | inf s, _ => !s
  | _, inf s => s
  | a, b =>
    match a.toReal, b.toReal with
    | some x, some y => decide (x > y)
    | _, _ => false

/-- `x == 0` (the float64 of /repo/similarity/BM25.go:1-115, /repo/metric/IDF.go:1-11). -/
def eq0 : F64 L → Bool
  | zero _ => true
  | _ => false

end F64

noncomputable instance {L : MathLog} : GoFloat (F64 L) where
  lit q := F64.round false (q : ℝ)
  ofInt n := F64.round false (n : ℝ)
  add := F64.add
  sub x y := F64.add x (F64.neg y)
  mul := F64.mul
  div := F64.div
  log := F64.log
  eq0 := F64.eq0
  gt := F64.gt
  fma := fun site x y z => if L.fuse site then F64.fmadd x y z else F64.add z (F64.mul x y)

end Goir
