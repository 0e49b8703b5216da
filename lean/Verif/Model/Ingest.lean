import Verif.Model.Http
import Verif.Model.Flatten
/-!
# Indexing JSON documents (`mainxcrt`, /repo/main.go:230-267)

What a program does that indexes arbitrary JSON documents: StringToObject, Flatten, GetID, a field per entry, IndexDocument.
Here a document is given as the object it decodes to; `json.Unmarshal` is in Model/Collection. The store is a Memory store; main uses a Disk store (C78).
-/
namespace Goir

/-- a JSON value as `json.Unmarshal` puts it in an `interface{}`. `num` carries what fmt prints for the float64 with the verb `v`; `obj` is an object in
an array (the others are maps of their own, see Model/Flatten), with the entries of the map in any order. (/repo/main.go:229-267) -/
inductive JLeaf where
  | null
  | bool (b : Bool)
  | num (printed : String)
  | str (s : String)
  | arr (elems : List JLeaf)
  | obj (ents : List (String × JLeaf))

/-- texts, separated by spaces. (package fmt, called at /repo/main.go:253) -/
def joinSpace : List String → String
  | [] => ""
  | [x] => x
  | x :: y :: xs => x ++ " " ++ joinSpace (y :: xs)

/-- insertion into a list that is sorted by key. (package fmt, called at /repo/main.go:253) -/
def insertKey (e : String × String) : List (String × String) → List (String × String)
  | [] => [e]
  | f :: es => if e.1 ≤ f.1 then e :: f :: es else f :: insertKey e es

/-- `fmtsort.Sort`: package fmt prints the entries of a map by increasing key. (package fmt, called at /repo/main.go:253) -/
def sortKeys : List (String × String) → List (String × String)
  | [] => []
  | e :: es => insertKey e (sortKeys es)

mutual
/-- what fmt prints, with the verb `s`, for a value in an array or a map (pp.printValue): it reports the wrong verb for booleans and numbers, and prints
arrays and maps entry by entry. (package fmt, called at /repo/main.go:253) -/
def JLeaf.printV : JLeaf → String
  | .null => "<nil>"
  | .bool b => "%!s(bool=" ++ (if b then "true" else "false") ++ ")"
  | .num printed => "%!s(float64=" ++ printed ++ ")"
  | .str s => s
  | .arr elems => "[" ++ joinSpace (JLeaf.printElems elems) ++ "]"
  | .obj ents => "map[" ++ joinSpace ((sortKeys (JLeaf.printEnts ents)).map fun e => e.1 ++ ":" ++ e.2) ++ "]"
/-- the elements of an array. (package fmt, called at /repo/main.go:253) -/
def JLeaf.printElems : List JLeaf → List String
  | [] => []
  | v :: vs => v.printV :: JLeaf.printElems vs
/-- the entries of a map. (package fmt, called at /repo/main.go:253) -/
def JLeaf.printEnts : List (String × JLeaf) → List (String × String)
  | [] => []
  | (k, v) :: es => (k, v.printV) :: JLeaf.printEnts es
end

/-- `fmt.Sprintf("%s", v)` (called at /repo/main.go:253 and /repo/field/FieldProcess.go:21): nil alone is also reported as the wrong verb. -/
def JLeaf.sprintS : JLeaf → String
  | .null => "%!s(<nil>)"
  | v => v.printV

namespace Ingest

/-- the loop that makes the fields (/repo/main.go:251-259), in iteration order. -/
def fields (env : TextEnv) (flatted : GoMap String JLeaf) : Option (List Field) :=
  flatted.foldlM (fun fields e => do
    let r ← Text.preprocessing env e.2.sprintS
    return fields ++ [Text.makeField e.1 r]) []

/-- the id of a document (/repo/main.go:244-248); `uuid` is what `uuid.New().String()` returns. -/
def docId (uuid : String) (flatted : GoMap String JLeaf) : String :=
  let id := JObj.getID JLeaf.sprintS flatted
  if id = "" then uuid else id

/-- one iteration of the loop over the documents (/repo/main.go:239-263): a possible store afterwards (`none` is a panic). Each of the two
`range` loops over the flattened map has its own iteration order. -/
def Indexes (env : TextEnv) (uuid : String) (m : Memory) (obs : JObj JLeaf) (out : Option Memory) : Prop :=
  ∃ order₁ order₂ : GoMap String JLeaf, order₁.Perm (JObj.flatten obs) ∧ order₂.Perm (JObj.flatten obs) ∧
    out = (fields env order₂).map fun fs => m.indexDocument (docId uuid order₁) ⟨fs⟩

end Ingest
end Goir
