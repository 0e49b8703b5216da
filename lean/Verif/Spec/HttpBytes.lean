import Verif.Spec.Json
import Verif.Spec.Utf8
/-!
# Specification vocabulary: query strings and the answers of GET /nir
-/
namespace Goir
namespace Spec

/-- the two digits of a byte in hexadecimal, in either case. -/
def HexOf (b : UInt8) (x y : UInt8) : Prop :=
  ∃ i j : Nat, b.toNat = i * 16 + j ∧ Digit i x ∧ Digit j y
where
  /-- the digit for a number. -/
  Digit (i : Nat) (x : UInt8) : Prop :=
    ("0123456789abcdef".toList.map Char.toUInt8)[i]? = some x ∨ ("0123456789ABCDEF".toList.map Char.toUInt8)[i]? = some x

/-- `UrlEncodes bs e`: `e` stands for the bytes `bs` in a query string: `%` and two hexadecimal digits for any byte, `+` for a space, every other byte except
`&` and `;` for itself. -/
inductive UrlEncodes : List UInt8 → List UInt8 → Prop
  | nil : UrlEncodes [] []
  | plain {c : UInt8} {bs e : List UInt8} (h1 : c ≠ '%'.toUInt8) (h2 : c ≠ '+'.toUInt8) (h3 : c ≠ '&'.toUInt8) (h4 : c ≠ ';'.toUInt8) (h : UrlEncodes bs e) :
      UrlEncodes (c :: bs) (c :: e)
  | space {bs e : List UInt8} (h : UrlEncodes bs e) : UrlEncodes (' '.toUInt8 :: bs) ('+'.toUInt8 :: e)
  | percent {b x y : UInt8} {bs e : List UInt8} (hx : HexOf b x y) (h : UrlEncodes bs e) : UrlEncodes (b :: bs) ('%'.toUInt8 :: x :: y :: e)

/-- the bytes of `query`. -/
def queryName : List UInt8 := "query".toList.map Char.toUInt8

/-- a parameter for `query` that stands for the bytes `bs`; without `=` they are none. -/
def ForQuery (p : List UInt8) (bs : List UInt8) : Prop :=
  ∃ k v, (p = k ++ '='.toUInt8 :: v ∨ (p = k ∧ v = [])) ∧ '='.toUInt8 ∉ k ∧ UrlEncodes queryName k ∧ UrlEncodes bs v

/-- anything else between two `&`: a parameter with another name, or one that is malformed. -/
def Other (p : List UInt8) : Prop := '&'.toUInt8 ∉ p ∧ ∀ bs, ¬ ForQuery p bs

/-- the parameters joined with `&`. -/
def joinParams : List (List UInt8) → List UInt8
  | [] => []
  | [p] => p
  | p :: ps => p ++ '&'.toUInt8 :: joinParams ps

/-- `Asks raw bs`: the first parameter for `query` in the query string stands for the bytes `bs`; if there is none, `bs` is empty. -/
def Asks (raw : List UInt8) (bs : List UInt8) : Prop :=
  (∃ before p after, (∀ p ∈ before, Other p) ∧ ForQuery p bs ∧ (∀ p ∈ after, '&'.toUInt8 ∉ p) ∧ raw = joinParams (before ++ p :: after)) ∨
  (bs = [] ∧ ∃ params, (∀ p ∈ params, Other p) ∧ raw = joinParams params)

/-- the value of the first member with a name. -/
def member (v : JVal) (name : String) : Option JVal :=
  match v with
  | .obj ms => (ms.toList.find? fun e => e.1 = name).map Prod.snd
  | _ => none

/-- the elements of an array as a list. -/
def elements : JElems → List JVal
  | .nil => []
  | .cons v es => v :: elements es

/-- the body of an answer says: this total, this algorithm, and (unless it says null) these results: id and similarity, in this order. -/
def Tells (body : List UInt8) (total : Nat) (algorithm : String) (results : Option (List (String × List Char))) : Prop :=
  ∃ text v, Decodes body text ∧ Json.IsText v text ∧
    member v "total" = some (.num (Nat.toDigits 10 total)) ∧ member v "algorithm" = some (.str algorithm) ∧
    member v "semanticSearch" = some (.bool false) ∧
    match results with
    | none => member v "queryResults" = some .null
    | some rs => ∃ es, member v "queryResults" = some (.arr es) ∧
        (elements es).map (fun e => ((member e "document").bind fun d => member d "id", member e "similarity")) =
          rs.map fun r => (some (.str r.1), some (.num r.2))

end Spec
end Goir
