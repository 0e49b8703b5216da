import Verif.Model.Collection
import Verif.Model.Http
/-!
# The body of a POST request (/repo/main.go:122-137)

`c.ShouldBindJSON` of gin v1.9.1 (binding/json.go) is `json.NewDecoder(body).Decode(&document)`: it reads the first JSON value of the body, and never looks at
what follows. The struct has no binding tags, so nothing else is checked.
-/
namespace Goir
namespace Http

/-- the fields of `Document` (/repo/main.go:22-26). -/
inductive HField where
  | id | title | text
  deriving DecidableEq

/-- their names in JSON: the tags `json:"id"` and so on (/repo/main.go:23-25). -/
def docFields : List (HField × List Char) := [(.id, ['i', 'd']), (.title, ['t', 'i', 't', 'l', 'e']), (.text, ['t', 'e', 'x', 't'])]

/-- storing a string in a field. (/repo/main.go:122-137) -/
def Document.setField (d : Document) (f : HField) (s : String) : Document :=
  match f with
  | .id => { d with id := s }
  | .title => { d with title := s }
  | .text => { d with text := s }

/-- `c.ShouldBindJSON(&document)` (/repo/main.go:127); `none` is an error. (`null` leaves the document empty; after a value that is no object the decoder also
looks at the next character, but the answer of the handler is 400 anyway.) -/
def shouldBindJSON (body : List UInt8) : Option Document := do
  let s := Collection.chars body
  let (v, _) ← Json.pvalue (2 * s.length + 2) (Json.ws s)
  if v.depth > Json.maxDepth then none else
  match v with
  | .obj ms => Json.decode docFields Document.setField ⟨"", "", ""⟩ ms
  | .null => some ⟨"", "", ""⟩
  | _ => none

/-- the handler of POST /nir on the body (/repo/main.go:124-161). -/
def postBody (env : TextEnv) (m : Memory) (body : List UInt8) : Option (Memory × Nat) := post env m (shouldBindJSON body)

end Http
end Goir
