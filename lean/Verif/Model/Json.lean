/-!
# Package encoding/json, as far as goirlib uses it

`json.Unmarshal` into a `map[string]interface{}` (/repo/field/FieldProcess.go:10-17, /repo/main.go:241) and into a struct of strings
(/repo/testecolection/Teste.go:174-178), and `json.Marshal` of such a struct (/repo/testecolection/Teste.go:101), as Go 1.19 documents them.

Simplifications: a text is a sequence of Unicode characters (Go replaces invalid UTF-8 inside a string by U+FFFD); numbers keep the text of the literal
(Go makes a float64 of it; whether `strconv.ParseFloat` accepts a literal is a parameter where it matters).  The limit on the depth of nesting is checked
after reading a value; Go gives up when it meets the bracket that is too deep, which is an error in both cases.
-/
namespace Goir

mutual
/-- a JSON value. (encoding/json, called at /repo/field/FieldProcess.go:10-17 and /repo/testecolection/Teste.go:98-185) -/
inductive JVal where
  | null
  | bool (b : Bool)
  | num (lit : List Char)
  | str (s : String)
  | arr (es : JElems)
  | obj (ms : JMems)
/-- the elements of an array. (encoding/json, called at /repo/field/FieldProcess.go:10-17 and /repo/testecolection/Teste.go:98-185) -/
inductive JElems where
  | nil
  | cons (v : JVal) (es : JElems)
/-- the members of an object, in the order of the text. (encoding/json, called at /repo/field/FieldProcess.go:10-17 and /repo/testecolection/Teste.go:98-185) -/
inductive JMems where
  | nil
  | cons (k : String) (v : JVal) (ms : JMems)
end

mutual
/-- how deep arrays and objects are nested in a value. (encoding/json, called at /repo/field/FieldProcess.go:10-17 and /repo/testecolection/Teste.go:98-185) -/
def JVal.depth : JVal → Nat
  | .arr es => es.depth + 1
  | .obj ms => ms.depth + 1
  | _ => 0
/-- … in the elements of an array. (encoding/json, called at /repo/field/FieldProcess.go:10-17 and /repo/testecolection/Teste.go:98-185) -/
def JElems.depth : JElems → Nat
  | .nil => 0
  | .cons v es => max v.depth es.depth
/-- … in the members of an object. (encoding/json, called at /repo/field/FieldProcess.go:10-17 and /repo/testecolection/Teste.go:98-185) -/
def JMems.depth : JMems → Nat
  | .nil => 0
  | .cons _ v ms => max v.depth ms.depth
end

mutual
/-- the literals of all numbers in a value. (encoding/json, called at /repo/field/FieldProcess.go:10-17 and /repo/testecolection/Teste.go:98-185) -/
def JVal.nums : JVal → List (List Char)
  | .num lit => [lit]
  | .arr es => es.nums
  | .obj ms => ms.nums
  | _ => []
/-- … in the elements of an array. (encoding/json, called at /repo/field/FieldProcess.go:10-17 and /repo/testecolection/Teste.go:98-185) -/
def JElems.nums : JElems → List (List Char)
  | .nil => []
  | .cons v es => v.nums ++ es.nums
/-- … in the members of an object. (encoding/json, called at /repo/field/FieldProcess.go:10-17 and /repo/testecolection/Teste.go:98-185) -/
def JMems.nums : JMems → List (List Char)
  | .nil => []
  | .cons _ v ms => v.nums ++ ms.nums
end

namespace Json

/-- `maxNestingDepth` of encoding/json (scanner.go). (encoding/json, called at /repo/field/FieldProcess.go:10-17 and /repo/testecolection/Teste.go:98-185) -/
def maxDepth : Nat := 10000

/-- a hexadecimal digit as json.Marshal writes it. (encoding/json, called at /repo/field/FieldProcess.go:10-17 and /repo/testecolection/Teste.go:98-185) -/
def hexDigit (n : Nat) : Char := if n < 10 then Char.ofNat (48 + n) else Char.ofNat (87 + n)

/-- `\uXXXX`. (encoding/json, called at /repo/field/FieldProcess.go:10-17 and /repo/testecolection/Teste.go:98-185) -/
def hexEscape (n : Nat) : List Char := ['\\', 'u', hexDigit (n / 4096 % 16), hexDigit (n / 256 % 16), hexDigit (n / 16 % 16), hexDigit (n % 16)]

/-- what json.Marshal writes for a character of a string (with its default of escaping HTML). (encoding/json, called at /repo/field/FieldProcess.go:10-17 and /repo/testecolection/Teste.go:98-185) -/
def quoteChar (c : Char) : List Char :=
  if c = '"' then ['\\', '"']
  else if c = '\\' then ['\\', '\\']
  else if c = '\n' then ['\\', 'n']
  else if c = '\r' then ['\\', 'r']
  else if c = '\t' then ['\\', 't']
  else if c.toNat < 32 ∨ c = '<' ∨ c = '>' ∨ c = '&' ∨ c.toNat = 0x2028 ∨ c.toNat = 0x2029 then hexEscape c.toNat
  else [c]

/-- a string in quotes, as json.Marshal writes it. (encoding/json, called at /repo/field/FieldProcess.go:10-17 and /repo/testecolection/Teste.go:98-185) -/
def quote (s : String) : List Char := '"' :: (s.toList.flatMap quoteChar ++ ['"'])

/-- the value of a hexadecimal digit, in either case. (encoding/json, called at /repo/field/FieldProcess.go:10-17 and /repo/testecolection/Teste.go:98-185) -/
def hexVal (c : Char) : Option Nat :=
  if 48 ≤ c.toNat ∧ c.toNat ≤ 57 then some (c.toNat - 48)
  else if 97 ≤ c.toNat ∧ c.toNat ≤ 102 then some (c.toNat - 87)
  else if 65 ≤ c.toNat ∧ c.toNat ≤ 70 then some (c.toNat - 55)
  else none

/-- four hexadecimal digits. (encoding/json, called at /repo/field/FieldProcess.go:10-17 and /repo/testecolection/Teste.go:98-185) -/
def hex4 (a b c d : Char) : Option Nat := do
  return ((← hexVal a) * 16 + (← hexVal b)) * 256 + (← hexVal c) * 16 + (← hexVal d)

/-- the characters after a backslash, other than `u`. (encoding/json, called at /repo/field/FieldProcess.go:10-17 and /repo/testecolection/Teste.go:98-185) -/
def escChar (c : Char) : Option Char :=
  if c = '"' then some '"' else if c = '\\' then some '\\' else if c = '/' then some '/' else if c = 'b' then some '\x08'
  else if c = 'f' then some '\x0c' else if c = 'n' then some '\n' else if c = 'r' then some '\r' else if c = 't' then some '\t' else none

/-- a part of a string: a character, or the number of a `\uXXXX`. (encoding/json, called at /repo/field/FieldProcess.go:10-17 and /repo/testecolection/Teste.go:98-185) -/
inductive SUnit where
  | char (c : Char)
  | code (n : Nat)

/-- the parts of a string up to the closing quote, and what follows it. (encoding/json, called at /repo/field/FieldProcess.go:10-17 and /repo/testecolection/Teste.go:98-185) -/
def strUnits : List Char → Option (List SUnit × List Char)
  | [] => none
  | '"' :: r => some ([], r)
  | '\\' :: 'u' :: a :: b :: c :: d :: r => do
      let n ← hex4 a b c d
      let (us, rest) ← strUnits r
      return (.code n :: us, rest)
  | '\\' :: e :: r => do
      let c ← escChar e
      let (us, rest) ← strUnits r
      return (.char c :: us, rest)
  | c :: r => if c.toNat < 32 ∨ c = '\\' then none else do
      let (us, rest) ← strUnits r
      return (.char c :: us, rest)

/-- the character of a `\uXXXX` that is not part of a pair: U+FFFD for a surrogate. (encoding/json, called at /repo/field/FieldProcess.go:10-17 and /repo/testecolection/Teste.go:98-185) -/
def codeChar (n : Nat) : Char := if 0xD800 ≤ n ∧ n ≤ 0xDFFF then '\uFFFD' else Char.ofNat n

/-- the characters of the parts: two `\uXXXX` that are a surrogate pair are one character. (encoding/json, called at /repo/field/FieldProcess.go:10-17 and /repo/testecolection/Teste.go:98-185) -/
def unitChars : List SUnit → List Char
  | [] => []
  | .char c :: us => c :: unitChars us
  | .code h :: .code l :: us =>
      if 0xD800 ≤ h ∧ h ≤ 0xDBFF ∧ 0xDC00 ≤ l ∧ l ≤ 0xDFFF then
        Char.ofNat (0x10000 + (h - 0xD800) * 1024 + (l - 0xDC00)) :: unitChars us
      else codeChar h :: unitChars (.code l :: us)
  | .code n :: us => codeChar n :: unitChars us

/-- a string after its opening quote. (encoding/json, called at /repo/field/FieldProcess.go:10-17 and /repo/testecolection/Teste.go:98-185) -/
def pstring (s : List Char) : Option (String × List Char) := do
  let (us, rest) ← strUnits s
  return (String.ofList (unitChars us), rest)

/-- white space. (encoding/json, called at /repo/field/FieldProcess.go:10-17 and /repo/testecolection/Teste.go:98-185) -/
def isWs (c : Char) : Bool := c = ' ' ∨ c = '\t' ∨ c = '\n' ∨ c = '\r'

/-- skips white space. (encoding/json, called at /repo/field/FieldProcess.go:10-17 and /repo/testecolection/Teste.go:98-185) -/
def ws (s : List Char) : List Char := s.dropWhile isWs

/-- a decimal digit. (encoding/json, called at /repo/field/FieldProcess.go:10-17 and /repo/testecolection/Teste.go:98-185) -/
def isDigit (c : Char) : Bool := 48 ≤ c.toNat ∧ c.toNat ≤ 57

/-- one or more digits. (encoding/json, called at /repo/field/FieldProcess.go:10-17 and /repo/testecolection/Teste.go:98-185) -/
def pdigits (s : List Char) : Option (List Char × List Char) :=
  if (s.takeWhile isDigit).isEmpty then none else some (s.takeWhile isDigit, s.dropWhile isDigit)

/-- the integer part of a number: no leading zeros. (encoding/json, called at /repo/field/FieldProcess.go:10-17 and /repo/testecolection/Teste.go:98-185) -/
def pint (s : List Char) : Option (List Char × List Char) :=
  match s with
  | '0' :: r => some (['0'], r)
  | _ => pdigits s

/-- the fraction of a number, if any. (encoding/json, called at /repo/field/FieldProcess.go:10-17 and /repo/testecolection/Teste.go:98-185) -/
def pfrac (s : List Char) : Option (List Char × List Char) :=
  match s with
  | '.' :: r => do let (ds, rest) ← pdigits r; return ('.' :: ds, rest)
  | _ => some ([], s)

/-- the exponent of a number, if any. (encoding/json, called at /repo/field/FieldProcess.go:10-17 and /repo/testecolection/Teste.go:98-185) -/
def pexp (s : List Char) : Option (List Char × List Char) :=
  match s with
  | e :: r =>
    if e = 'e' ∨ e = 'E' then
      match r with
      | sg :: r' => if sg = '+' ∨ sg = '-' then do let (ds, rest) ← pdigits r'; return (e :: sg :: ds, rest)
          else do let (ds, rest) ← pdigits r; return (e :: ds, rest)
      | [] => none
    else some ([], s)
  | [] => some ([], s)

/-- a number: the literal and what follows. (encoding/json, called at /repo/field/FieldProcess.go:10-17 and /repo/testecolection/Teste.go:98-185) -/
def pnumber (s : List Char) : Option (List Char × List Char) := do
  let (sg, s) := match s with
    | '-' :: r => (['-'], r)
    | _ => ([], s)
  let (i, s) ← pint s
  let (f, s) ← pfrac s
  let (e, s) ← pexp s
  return (sg ++ i ++ f ++ e, s)

/-- a literal name. (encoding/json, called at /repo/field/FieldProcess.go:10-17 and /repo/testecolection/Teste.go:98-185) -/
def pname (name : List Char) (v : JVal) (s : List Char) : Option (JVal × List Char) :=
  if name.isPrefixOf s then some (v, s.drop name.length) else none

mutual
/-- a value, without white space before it (`fuel` bounds the number of calls; the length of the text is enough). (encoding/json, called at /repo/field/FieldProcess.go:10-17 and /repo/testecolection/Teste.go:98-185) -/
def pvalue : Nat → List Char → Option (JVal × List Char)
  | 0, _ => none
  | fuel + 1, s =>
    match s with
    | '"' :: r => do let (t, rest) ← pstring r; return (.str t, rest)
    | '{' :: r =>
      match ws r with
      | '}' :: rest => some (.obj .nil, rest)
      | r' => do let (ms, rest) ← pmembers fuel r'; return (.obj ms, rest)
    | '[' :: r =>
      match ws r with
      | ']' :: rest => some (.arr .nil, rest)
      | r' => do let (es, rest) ← pelems fuel r'; return (.arr es, rest)
    | 't' :: _ => pname ['t', 'r', 'u', 'e'] (.bool true) s
    | 'f' :: _ => pname ['f', 'a', 'l', 's', 'e'] (.bool false) s
    | 'n' :: _ => pname ['n', 'u', 'l', 'l'] .null s
    | _ => do let (l, rest) ← pnumber s; return (.num l, rest)
/-- one or more elements of an array and the closing bracket. (encoding/json, called at /repo/field/FieldProcess.go:10-17 and /repo/testecolection/Teste.go:98-185) -/
def pelems : Nat → List Char → Option (JElems × List Char)
  | 0, _ => none
  | fuel + 1, s => do
    let (v, r) ← pvalue fuel s
    match ws r with
    | ',' :: r' => do let (es, rest) ← pelems fuel (ws r'); return (.cons v es, rest)
    | ']' :: rest => some (.cons v .nil, rest)
    | _ => none
/-- one or more members of an object and the closing brace. (encoding/json, called at /repo/field/FieldProcess.go:10-17 and /repo/testecolection/Teste.go:98-185) -/
def pmembers : Nat → List Char → Option (JMems × List Char)
  | 0, _ => none
  | fuel + 1, s =>
    match s with
    | '"' :: r => do
      let (k, r) ← pstring r
      match ws r with
      | ':' :: r => do
        let (v, r) ← pvalue fuel (ws r)
        match ws r with
        | ',' :: r' => do let (ms, rest) ← pmembers fuel (ws r'); return (.cons k v ms, rest)
        | '}' :: rest => some (.cons k v .nil, rest)
        | _ => none
      | _ => none
    | _ => none
end

/-- the value that a text is (`none` is a syntax error). (encoding/json, called at /repo/field/FieldProcess.go:10-17 and /repo/testecolection/Teste.go:98-185) -/
def parseText (s : List Char) : Option JVal := do
  let (v, rest) ← pvalue (2 * s.length + 2) (ws s)
  if (ws rest).isEmpty then return v else none

/-- … if it is not nested too deep. (encoding/json, called at /repo/field/FieldProcess.go:10-17 and /repo/testecolection/Teste.go:98-185) -/
def parse (s : List Char) : Option JVal := do
  let v ← parseText s
  if v.depth ≤ maxDepth then return v else none

mutual
/-- the text json.Marshal writes for a value: no white space, members in the given order. (encoding/json, called at /repo/field/FieldProcess.go:10-17 and /repo/testecolection/Teste.go:98-185) -/
def render : JVal → List Char
  | .null => ['n', 'u', 'l', 'l']
  | .bool true => ['t', 'r', 'u', 'e']
  | .bool false => ['f', 'a', 'l', 's', 'e']
  | .num lit => lit
  | .str s => quote s
  | .arr .nil => ['[', ']']
  | .arr (.cons v es) => '[' :: (render v ++ renderElems es)
  | .obj .nil => ['{', '}']
  | .obj (.cons k v ms) => '{' :: (quote k ++ ':' :: (render v ++ renderMems ms))
/-- the elements after the first, and the closing bracket. (encoding/json, called at /repo/field/FieldProcess.go:10-17 and /repo/testecolection/Teste.go:98-185) -/
def renderElems : JElems → List Char
  | .nil => [']']
  | .cons v es => ',' :: (render v ++ renderElems es)
/-- the members after the first, and the closing brace. (encoding/json, called at /repo/field/FieldProcess.go:10-17 and /repo/testecolection/Teste.go:98-185) -/
def renderMems : JMems → List Char
  | .nil => ['}']
  | .cons k v ms => ',' :: (quote k ++ ':' :: (render v ++ renderMems ms))
end


/-- how encoding/json compares the key of a member with the name of a field, if no field has exactly this name: ignoring the case of ASCII letters
and equating the long s and the Kelvin sign with s and k. (encoding/json, called at /repo/field/FieldProcess.go:10-17 and /repo/testecolection/Teste.go:98-185) -/
def foldChar (c : Char) : Char :=
  if c.toNat = 0x17F then 's' else if c.toNat = 0x212A then 'k' else if 65 ≤ c.toNat ∧ c.toNat ≤ 90 then Char.ofNat (c.toNat + 32) else c

/-- the field for a key; the names of the fields are given in lower case, no two are equal. (encoding/json, called at /repo/field/FieldProcess.go:10-17 and /repo/testecolection/Teste.go:98-185) -/
def fieldFor {φ : Type} (fields : List (φ × List Char)) (key : String) : Option φ := (fields.find? fun e => key.toList.map foldChar = e.2).map Prod.fst

/-- json.Unmarshal of the members into a struct of strings: members for other keys are skipped, null leaves the field alone, any other value than a
string is an error. `set d f s` stores `s` in the field `f`. (encoding/json, called at /repo/field/FieldProcess.go:10-17 and /repo/testecolection/Teste.go:98-185) -/
def decode {δ φ : Type} (fields : List (φ × List Char)) (set : δ → φ → String → δ) (d : δ) : JMems → Option δ
  | .nil => some d
  | .cons k v ms =>
    match fieldFor fields k with
    | none => decode fields set d ms
    | some f =>
      match v with
      | .str s => decode fields set (set d f s) ms
      | .null => decode fields set d ms
      | _ => none

end Json
end Goir
