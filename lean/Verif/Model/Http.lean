import Verif.Model.Text
import Verif.Model.Memory
import Verif.Model.Search
/-!
# The HTTP handlers of `main` (/repo/main.go:113-219)

A handler is a function from the decoded request; gin, JSON and the clock are not modelled.  The store behind the index is a Memory store
here (main uses a Disk store; C22 is about the difference).  `none` is a panic in the handler: gin.New() installs no recovery
middleware, net/http closes the connection and the client gets no response.
-/
namespace Goir
namespace Http

/-- `Document` (/repo/main.go:22-26). -/
structure Document where
  id    : String
  title : String
  text  : String
deriving DecidableEq, Repr

/-- `isNotDocumentComplete` (/repo/main.go:42-47). -/
def isNotDocumentComplete (doc : Document) : Bool := doc.id == ""

/-- the handler of POST /nir (/repo/main.go:126-161). `none` as request body: ShouldBindJSON failed. The result: the store afterwards and
the status code. -/
def post (env : TextEnv) (m : Memory) (body : Option Document) : Option (Memory × Nat) :=
  match body with
  | none => some (m, 400)
  | some document =>
    if isNotDocumentComplete document then some (m, 400)
    else do
      let pId ← Text.preprocessing env document.id
      let pTitle ← Text.preprocessing env document.title
      let pText ← Text.preprocessing env document.text
      return (m.indexDocument document.id ⟨[Text.makeField "id" pId, Text.makeField "title" pTitle, Text.makeField "text" pText]⟩, 201)

/-- the queries of GET /nir (/repo/main.go:167-179). -/
def queries {F : Type} [GoFloat F] (terms : List String) : List (Query F) :=
  [⟨"title", GoFloat.lit 1, terms⟩, ⟨"text", GoFloat.lit 1, terms⟩]

/-- `Result` (/repo/main.go:28-40), without the duration; a QueryResult is an id with its similarity. -/
structure Response (F : Type) where
  total          : Nat
  algorithm      : String
  semanticSearch : Bool
  queryResults   : List (String × F)

/-- the Go slice expression `s[0:k]` on a slice whose capacity is its length; `none` is the panic. (/repo/main.go:164-215) -/
def sliceTo {α : Type} (s : List α) (k : Nat) : Option (List α) := if k ≤ s.length then some (s.take k) else none

/-- the handler of GET /nir after the search returned `rs` (/repo/main.go:181-213). -/
def respond {F : Type} (rs : Scores F) : Option (Response F) :=
  if rs.length = 0 then some { total := rs.length, algorithm := "B25F", semanticSearch := false, queryResults := [] }
  else do
    let queryResults ← sliceTo (rs.map fun score => (score.1, score.2)) 10
    return { total := 10, algorithm := "BM25", semanticSearch := false, queryResults := queryResults }

/-- a possible outcome of GET /nir?query=q (/repo/main.go:162-213). -/
def Gets {F : Type} [GoFloat F] (env : TextEnv) (st : Reads) (cpus : Nat) (q : String) (out : Option (Response F)) : Prop :=
  ∃ terms rs, Text.preprocessing env q = some terms ∧ SState.Returns st (queries terms) cpus rs ∧ out = respond rs

end Http
end Goir
