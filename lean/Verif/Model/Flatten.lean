import Verif.Model.GoMap
/-!
# Package `field`: Flatten and GetID (/repo/field/FieldProcess.go)

A JSON object is its list of entries in the order in which Go's `range` happens to visit them; a different iteration order
is a different `JObj`.  A value is either a nested object or a leaf; leaves (null, booleans, numbers, strings, arrays) have
an arbitrary type `A`.  `StringToObject` (json.Unmarshal) is in Model/Collection.
-/
namespace Goir

/-- `map[string]interface{}` with its entries in iteration order. (/repo/field/FieldProcess.go:10-47) -/
inductive JObj (A : Type) where
  | nil
  /-- an entry `k: v` whose value is not an object -/
  | leaf (k : String) (v : A) (rest : JObj A)
  /-- an entry `k: o` whose value is an object -/
  | sub (k : String) (o : JObj A) (rest : JObj A)

namespace JObj
variable {A : Type}

/-- `key := k; if prefix != "" { key = prefix + "." + k }` (/repo/field/FieldProcess.go:35-38). -/
def goKey (pfx k : String) : String := if pfx ≠ "" then pfx ++ "." ++ k else k

/-- `recFlatten` (/repo/field/FieldProcess.go:33-47). -/
def recFlatten : JObj A → GoMap String A → String → GoMap String A
  | nil, output, _ => output
  | leaf k v rest, output, pfx => recFlatten rest (output.set (goKey pfx k) v) pfx
  | sub k o rest, output, pfx => recFlatten rest (recFlatten o output (goKey pfx k)) pfx

/-- `Flatten` (/repo/field/FieldProcess.go:27-31). -/
def flatten (input : JObj A) : GoMap String A := recFlatten input [] ""

/-- `GetID` (/repo/field/FieldProcess.go:18-25): scan the map in iteration order; `fmtS` is `fmt.Sprintf("%s", ·)`. -/
def getID (fmtS : A → String) : GoMap String A → String
  | [] => ""
  | (k, v) :: input => if k = "Id" then fmtS v else getID fmtS input

/-- the keys at the top level. (/repo/field/FieldProcess.go:19-47) -/
def topKeys : JObj A → List String
  | nil => []
  | leaf k _ rest => k :: topKeys rest
  | sub k _ rest => k :: topKeys rest

/-- Go maps have each key once, at every level. (/repo/field/FieldProcess.go:19-47) -/
def WF : JObj A → Prop
  | nil => True
  | leaf k _ rest => k ∉ topKeys rest ∧ WF rest
  | sub k o rest => k ∉ topKeys rest ∧ WF o ∧ WF rest

end JObj
end Goir
