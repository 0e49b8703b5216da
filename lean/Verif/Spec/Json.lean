import Verif.Model.Json
import Mathlib.Data.List.Forall2
/-!
# The grammar of JSON (RFC 8259), as a relation between values and texts
-/
namespace Goir
namespace Json

/-- one or more digits (RFC 8259). -/
def Digits (ds : List Char) : Prop := ds ≠ [] ∧ ∀ c ∈ ds, '0' ≤ c ∧ c ≤ '9'
/-- `int`. -/
def IsInt (i : List Char) : Prop := i = ['0'] ∨ (Digits i ∧ i.head? ≠ some '0')
/-- `[ frac ]`. -/
def IsFrac (f : List Char) : Prop := f = [] ∨ ∃ ds, Digits ds ∧ f = '.' :: ds
/-- `[ exp ]`. -/
def IsExp (e : List Char) : Prop := e = [] ∨ ∃ c sg ds, (c = 'e' ∨ c = 'E') ∧ (sg = [] ∨ sg = ['+'] ∨ sg = ['-']) ∧ Digits ds ∧ e = c :: (sg ++ ds)
/-- `number`. -/
def IsNumber (lit : List Char) : Prop := ∃ sg i f e, (sg = [] ∨ sg = ['-']) ∧ IsInt i ∧ IsFrac f ∧ IsExp e ∧ lit = sg ++ (i ++ (f ++ e))


/-- white space. -/
def IsSpace (w : List Char) : Prop := ∀ c ∈ w, c = ' ' ∨ c = '\t' ∨ c = '\n' ∨ c = '\r'

/-- a hexadecimal digit, in either case. -/
def IsHex (c : Char) (n : Nat) : Prop := "0123456789abcdef".toList[n]? = some c ∨ "0123456789ABCDEF".toList[n]? = some c

/-- the escapes of two characters. -/
def escapes : List (Char × Char) :=
  [('"', '"'), ('\\', '\\'), ('/', '/'), ('b', '\x08'), ('f', '\x0c'), ('n', '\n'), ('r', '\r'), ('t', '\t')]

/-- `char`: a character, a backslash and a character, or a backslash, `u` and four digits. -/
inductive IsUnit : SUnit → List Char → Prop
  | plain {c : Char} (h1 : c ≠ '"') (h2 : c ≠ '\\') (h3 : 0x20 ≤ c.toNat) : IsUnit (.char c) [c]
  | escape {e c : Char} (h : (e, c) ∈ escapes) : IsUnit (.char c) ['\\', e]
  | code {a b c d : Char} {x y z w : Nat} (ha : IsHex a x) (hb : IsHex b y) (hc : IsHex c z) (hd : IsHex d w) :
      IsUnit (.code (x * 0x1000 + y * 0x100 + z * 0x10 + w)) ['\\', 'u', a, b, c, d]

/-- the first half of a surrogate pair. -/
def High (n : Nat) : Prop := 0xD800 ≤ n ∧ n ≤ 0xDBFF
/-- the second half of a surrogate pair. -/
def Low (n : Nat) : Prop := 0xDC00 ≤ n ∧ n ≤ 0xDFFF

/-- the characters that the parts of a string mean: UTF-16 for the codes, with U+FFFD for half a pair. -/
inductive Means : List SUnit → List Char → Prop
  | nil : Means [] []
  | char {c : Char} {us : List SUnit} {cs : List Char} (h : Means us cs) : Means (.char c :: us) (c :: cs)
  | code {n : Nat} {c : Char} {us : List SUnit} {cs : List Char} (h1 : ¬ High n) (h2 : ¬ Low n) (hc : c.toNat = n) (h : Means us cs) :
      Means (.code n :: us) (c :: cs)
  | pair {h l : Nat} {c : Char} {us : List SUnit} {cs : List Char} (hh : High h) (hl : Low l)
      (hc : c.toNat = 0x10000 + (h - 0xD800) * 0x400 + (l - 0xDC00)) (ht : Means us cs) : Means (.code h :: .code l :: us) (c :: cs)
  | half {n : Nat} {us : List SUnit} {cs : List Char} (h1 : High n ∨ Low n) (h2 : ¬ (High n ∧ ∃ l us', us = .code l :: us' ∧ Low l)) (h : Means us cs) :
      Means (.code n :: us) ('\uFFFD' :: cs)

/-- `string`, without the quotes. -/
def IsString (s : String) (t : List Char) : Prop := ∃ us, Units us t ∧ Means us s.toList
where
  /-- the parts one after the other. -/
  Units : List SUnit → List Char → Prop
    | [], t => t = []
    | u :: us, t => ∃ a b, IsUnit u a ∧ Units us b ∧ t = a ++ b

mutual
/-- `value`. -/
inductive IsValue : JVal → List Char → Prop
  | null : IsValue .null ['n', 'u', 'l', 'l']
  | true : IsValue (.bool true) ['t', 'r', 'u', 'e']
  | false : IsValue (.bool false) ['f', 'a', 'l', 's', 'e']
  | num {lit : List Char} (h : IsNumber lit) : IsValue (.num lit) lit
  | str {s : String} {t : List Char} (h : IsString s t) : IsValue (.str s) ('"' :: (t ++ ['"']))
  | arrNil {w : List Char} (hw : IsSpace w) : IsValue (.arr .nil) ('[' :: (w ++ [']']))
  | arr {es : JElems} {t : List Char} (h : IsElems es t) : IsValue (.arr es) ('[' :: (t ++ [']']))
  | objNil {w : List Char} (hw : IsSpace w) : IsValue (.obj .nil) ('{' :: (w ++ ['}']))
  | obj {ms : JMems} {t : List Char} (h : IsMems ms t) : IsValue (.obj ms) ('{' :: (t ++ ['}']))
/-- the elements of an array, separated by commas. -/
inductive IsElems : JElems → List Char → Prop
  | last {v : JVal} {w t w' : List Char} (hw : IsSpace w) (hv : IsValue v t) (hw' : IsSpace w') : IsElems (.cons v .nil) (w ++ (t ++ w'))
  | more {v : JVal} {es : JElems} {w t w' r : List Char} (hw : IsSpace w) (hv : IsValue v t) (hw' : IsSpace w') (hr : IsElems es r) :
      IsElems (.cons v es) (w ++ (t ++ (w' ++ ',' :: r)))
/-- the members of an object, separated by commas. -/
inductive IsMems : JMems → List Char → Prop
  | last {k : String} {v : JVal} {m : List Char} (hm : IsMember k v m) : IsMems (.cons k v .nil) m
  | more {k : String} {v : JVal} {ms : JMems} {m r : List Char} (hm : IsMember k v m) (hr : IsMems ms r) : IsMems (.cons k v ms) (m ++ ',' :: r)
/-- `member`. -/
inductive IsMember : String → JVal → List Char → Prop
  | mk {k : String} {v : JVal} {w s w1 w2 t w3 : List Char} (hw : IsSpace w) (hs : IsString k s) (hw1 : IsSpace w1) (hw2 : IsSpace w2) (hv : IsValue v t)
      (hw3 : IsSpace w3) : IsMember k v (w ++ '"' :: (s ++ '"' :: (w1 ++ ':' :: (w2 ++ (t ++ w3)))))
end

/-- `JSON-text`: a value with white space around it. -/
def IsText (v : JVal) (s : List Char) : Prop := ∃ w t w', IsSpace w ∧ IsValue v t ∧ IsSpace w' ∧ s = w ++ (t ++ w')


/-- encoding/json takes the character of a key for the (lower-case) letter of a field's name: the same, its upper case, the long s for s, the Kelvin
sign for k. -/
def SameLetter (c n : Char) : Prop := c = n ∨ c = n.toUpper ∨ (c = '\u017F' ∧ n = 's') ∨ (c = '\u212A' ∧ n = 'k')

/-- the key is the name (given in lower case), regardless of case. -/
def SameName (key : String) (name : List Char) : Prop := List.Forall₂ SameLetter key.toList name

end Json

/-- the members as a list. -/
def JMems.toList : JMems → List (String × JVal)
  | .nil => []
  | .cons k v ms => (k, v) :: ms.toList

namespace Json

/-- the last string among the members for a field. -/
def LastString (name : List Char) (ms : JMems) (s : String) : Prop :=
  ∃ before k after, ms.toList = before ++ (k, .str s) :: after ∧ SameName k name ∧ ∀ e ∈ after, SameName e.1 name → ∀ s', e.2 ≠ .str s'

/-- the texts that the members give to fields with these names: every member for a field is a string or null; each field is the last string for it, or
empty. -/
def Describes {φ : Type} (name : φ → List Char) (ms : JMems) (text : φ → String) : Prop :=
  (∀ e ∈ ms.toList, ∀ f, SameName e.1 (name f) → e.2 = .null ∨ ∃ s, e.2 = .str s) ∧
  ∀ f, LastString (name f) ms (text f) ∨ (text f = "" ∧ ∀ s, ¬ LastString (name f) ms s)

end Json
end Goir
