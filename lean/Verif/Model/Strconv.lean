import Verif.Model.HttpBytes
import Verif.Model.Collection
import Verif.Model.Float64
/-!
# Numbers as text: package strconv and its callers in encoding/json and fmt (Go 1.19)

`json.Unmarshal` makes a float64 of a number (`strconv.ParseFloat`, /repo/field/FieldProcess.go:10-17), `json.Marshal` writes one (`float64Encoder`,
/repo/main.go:191,212 with the `similarity` of /repo/main.go:36-40), and `fmt.Sprintf("%s")` writes one with verb `v` inside its error text
(/repo/main.go:253, /repo/field/FieldProcess.go:21).

Simplifications: ParseFloat rounds the number that was read correctly, as documented (its algorithms, Eisel-Lemire and the decimal fallback, are not modelled);
the digits of a printed number are any shortest ones that are read back as the same float64, as documented (Ryu is not modelled, nor that it takes the closest of them).
-/
namespace Goir
namespace Strconv

/-- a digit. (strconv, under /repo/field/FieldProcess.go:10-17 and /repo/main.go:191,212,253) -/
def isDigit (c : Char) : Bool := '0' ≤ c ∧ c ≤ '9'

/-- the loop of `readFloat` over digits and the point: the digits read, how many of them after the point, and what follows. (strconv, under /repo/field/FieldProcess.go:10-17 and /repo/main.go:191,212,253) -/
def mantissa : List Char → Bool → Nat → Nat → Nat × Nat × List Char
  | [], _, m, f => (m, f, [])
  | c :: r, dot, m, f =>
    if isDigit c then mantissa r dot (10 * m + (c.toNat - 48)) (if dot then f + 1 else f)
    else if c = '.' ∧ dot = false then mantissa r true m f
    else (m, f, c :: r)

/-- the loop of `readFloat` over the digits of the exponent: once it is 10000 or more, further digits are ignored. (strconv, under /repo/field/FieldProcess.go:10-17 and /repo/main.go:191,212,253) -/
def exponentDigits : List Char → Nat → Nat
  | [], e => e
  | c :: r, e => if isDigit c then exponentDigits r (if e < 10000 then e * 10 + (c.toNat - 48) else e) else e

/-- the sign and the digits of an exponent. (strconv, under /repo/field/FieldProcess.go:10-17 and /repo/main.go:191,212,253) -/
def signedExp : List Char → Int
  | [] => 0
  | c :: r => if c = '-' then -exponentDigits r 0 else if c = '+' then exponentDigits r 0 else exponentDigits (c :: r) 0

/-- the exponent, if there is one. (strconv, under /repo/field/FieldProcess.go:10-17 and /repo/main.go:191,212,253) -/
def exponent : List Char → Int
  | [] => 0
  | c :: r => if c = 'e' ∨ c = 'E' then signedExp r else 0

/-- `readFloat` of strconv for a literal of JSON: the sign, and the number without it. (strconv, under /repo/field/FieldProcess.go:10-17 and /repo/main.go:191,212,253) -/
def readFloat (s : List Char) : Bool × ℚ :=
  let neg := s.head? = some '-'
  let (m, f, r) := mantissa (if neg then s.tail else s) false 0 0
  (neg, m * 10 ^ (exponent r - f))

variable {L : MathLog}

/-- ErrRange for a number that is too large, and otherwise the number with its sign. (strconv, under /repo/field/FieldProcess.go:10-17 and /repo/main.go:191,212,253) -/
noncomputable def inRange (neg : Bool) : F64 L → Option (F64 L)
  | .inf _ => none
  | x => some (if neg then x.neg else x)

/-- `strconv.ParseFloat(s, 64)`: the nearest float64; `none` is ErrRange. (strconv, under /repo/field/FieldProcess.go:10-17 and /repo/main.go:191,212,253) -/
noncomputable def parseFloat (s : List Char) : Option (F64 L) := inRange (readFloat s).1 (F64.round false ((readFloat s).2 : ℝ))

/-- what strconv promises of the digits `d` and the exponent `e` that it prints with precision -1: `d * 10^e` is read back as `x`, and no shorter row of digits is. (strconv, under /repo/field/FieldProcess.go:10-17 and /repo/main.go:191,212,253) -/
def Shortest (x : ℝ) (d : Nat) (e : Int) : Prop :=
  rnd64 (d * (10:ℝ) ^ e) = x ∧ ∀ (d' : Nat) (e' : Int), rnd64 (d' * (10:ℝ) ^ e') = x → (Nat.toDigits 10 d).length ≤ (Nat.toDigits 10 d').length

/-- an implementation of the shortest digits for positive numbers. (strconv, under /repo/field/FieldProcess.go:10-17 and /repo/main.go:191,212,253) -/
structure Digits where
  digits : ℝ → Nat
  exp    : ℝ → Int
  short  : ∀ x, IsF64 x → 0 < x → Shortest x (digits x) (exp x)

/-- `fmtF` with precision -1: the digits `ds` with the point after `dp` of them. (strconv, under /repo/field/FieldProcess.go:10-17 and /repo/main.go:191,212,253) -/
def fmtF (ds : List Char) (dp : Int) : List Char :=
  if dp ≤ 0 then '0' :: '.' :: (List.replicate (-dp).toNat '0' ++ ds)
  else if ds.length ≤ dp then ds ++ List.replicate (dp - ds.length).toNat '0'
  else ds.take dp.toNat ++ '.' :: ds.drop dp.toNat

/-- the exponent in `fmtE`: a sign and at least two digits. (strconv, under /repo/field/FieldProcess.go:10-17 and /repo/main.go:191,212,253) -/
def fmtExp (exp : Int) : List Char :=
  'e' :: (if exp < 0 then '-' else '+') :: (if exp.natAbs < 10 then '0' :: Nat.toDigits 10 exp.natAbs else Nat.toDigits 10 exp.natAbs)

/-- `fmtE` with precision -1. (strconv, under /repo/field/FieldProcess.go:10-17 and /repo/main.go:191,212,253) -/
def fmtE (ds : List Char) (dp : Int) : List Char :=
  ds.take 1 ++ ((if ds.length ≤ 1 then [] else '.' :: ds.drop 1) ++ fmtExp (dp - 1))

/-- `e-09` to `e-9`, as encoding/json cleans it up. (strconv, under /repo/field/FieldProcess.go:10-17 and /repo/main.go:191,212,253) -/
def cleanExp (b : List Char) : List Char :=
  match b.reverse with
  | x :: '0' :: '-' :: 'e' :: r => (x :: '-' :: 'e' :: r).reverse
  | _ => b

/-- the digits of a positive number and where its point is. (strconv, under /repo/field/FieldProcess.go:10-17 and /repo/main.go:191,212,253) -/
noncomputable def Digits.decimal (D : Digits) (x : ℝ) : List Char × Int :=
  (Nat.toDigits 10 (D.digits x), (Nat.toDigits 10 (D.digits x)).length + D.exp x)

open Classical in
/-- `float64Encoder` of encoding/json for a positive number: format `e` below `1e-6` and from `1e21` on, `f` between. (strconv, under /repo/field/FieldProcess.go:10-17 and /repo/main.go:191,212,253) -/
noncomputable def Digits.jsonText (D : Digits) (x : ℝ) : List Char :=
  if x < rnd64 (1 / 10^6) ∨ rnd64 (10^21) ≤ x then cleanExp (fmtE (D.decimal x).1 (D.decimal x).2) else fmtF (D.decimal x).1 (D.decimal x).2

/-- format `g` with precision -1, as fmt uses it for the verb `v`: format `e` for exponents below -4 and from 6 on. (strconv, under /repo/field/FieldProcess.go:10-17 and /repo/main.go:191,212,253) -/
noncomputable def Digits.fmtText (D : Digits) (x : ℝ) : List Char :=
  if (D.decimal x).2 - 1 < -4 ∨ 6 ≤ (D.decimal x).2 - 1 then fmtE (D.decimal x).1 (D.decimal x).2 else fmtF (D.decimal x).1 (D.decimal x).2

open Classical in
/-- a number that is printed with its sign; `-0` has one. (strconv, under /repo/field/FieldProcess.go:10-17 and /repo/main.go:191,212,253) -/
noncomputable def signed (text : ℝ → List Char) : F64 L → List Char
  | .zero s => (if s then ['-'] else []) ++ ['0']
  | .fin x _ _ => if x < 0 then '-' :: text (-x) else text x
  | .inf s => (if s then '-' else '+') :: ['I', 'n', 'f']
  | .nan => ['N', 'a', 'N']

/-- json.Marshal's printer of float64. (strconv, under /repo/field/FieldProcess.go:10-17 and /repo/main.go:191,212,253) -/
noncomputable def Digits.printer (D : Digits) (L : MathLog) : Http.Printer (F64 L) where
  finite x := match x with | .zero _ => true | .fin _ _ _ => true | _ => false
  text := signed D.jsonText

/-- which numbers json.Unmarshal accepts. (strconv, under /repo/field/FieldProcess.go:10-17 and /repo/main.go:191,212,253) -/
noncomputable def numOk (L : MathLog) (lit : List Char) : Bool := (parseFloat (L := L) lit).isSome

/-- what fmt prints with verb `v` for the float64 of a literal. (strconv, under /repo/field/FieldProcess.go:10-17 and /repo/main.go:191,212,253) -/
noncomputable def Digits.fmtNum (D : Digits) (L : MathLog) (lit : List Char) : String :=
  match parseFloat (L := L) lit with
  | some x => String.ofList (signed D.fmtText x)
  | none => ""

end Strconv
end Goir
