import Verif.Model.Json
import Verif.Model.Ingest
/-!
# Package `testecolection` and `field.StringToObject`

The test collection is a file with a JSON object per line (/repo/testecolection/Teste.go); `mainxcrt` (/repo/main.go:229-267) indexes it.
The file is a sequence of bytes. Not modelled: the download of the feed and its XML (GetArvixData, xml.Unmarshal), errors of opening the file.
-/
namespace Goir

/-- the keys of an object. (/repo/field/FieldProcess.go:10-17) -/
def JMems.keys : JMems → List String
  | .nil => []
  | .cons k _ ms => k :: ms.keys

mutual
/-- what json.Unmarshal makes of a value in an `interface{}`. `fmtNum` is what fmt prints (verb `v`) for the float64 of a literal. (/repo/field/FieldProcess.go:10-17) -/
def JVal.toLeaf (fmtNum : List Char → String) : JVal → JLeaf
  | .null => .null
  | .bool b => .bool b
  | .num lit => .num (fmtNum lit)
  | .str s => .str s
  | .arr es => .arr (es.toLeaves fmtNum)
  | .obj ms => .obj (ms.toEnts fmtNum)
/-- … of the elements of an array. (/repo/field/FieldProcess.go:10-17) -/
def JElems.toLeaves (fmtNum : List Char → String) : JElems → List JLeaf
  | .nil => []
  | .cons v es => v.toLeaf fmtNum :: es.toLeaves fmtNum
/-- … of the members of an object in an array: of two with the same key the last one stays. (/repo/field/FieldProcess.go:10-17) -/
def JMems.toEnts (fmtNum : List Char → String) : JMems → List (String × JLeaf)
  | .nil => []
  | .cons k v ms => if k ∈ ms.keys then ms.toEnts fmtNum else (k, v.toLeaf fmtNum) :: ms.toEnts fmtNum
end

/-- … of an object that is not in an array: a `map[string]interface{}`; of two members with the same key the last one stays. (The entries are in the order of the text,
one of the orders in which `range` may visit them.) (/repo/field/FieldProcess.go:10-17). -/
def JMems.toObj (fmtNum : List Char → String) : JMems → JObj JLeaf
  | .nil => .nil
  | .cons k (.obj o) ms => if k ∈ ms.keys then ms.toObj fmtNum else .sub k (o.toObj fmtNum) (ms.toObj fmtNum)
  | .cons k v ms => if k ∈ ms.keys then ms.toObj fmtNum else .leaf k (v.toLeaf fmtNum) (ms.toObj fmtNum)

namespace Collection

/-- UTF-8. (/repo/testecolection/Teste.go:98-185) -/
def utf8 (cs : List Char) : List UInt8 := cs.flatMap String.utf8EncodeChar

/-- the characters that Go finds in a sequence of bytes (utf8.DecodeRune, which encoding/json uses for what is in strings): those of UTF-8, and U+FFFD for
a byte at which none begins. (Outside of strings, where encoding/json looks at the bytes, neither U+FFFD nor any other character beyond ASCII is accepted.) (/repo/testecolection/Teste.go:98-185). -/
def chars : List UInt8 → List Char
  | [] => []
  | b :: bs =>
    match ByteArray.utf8DecodeChar? (b :: bs).toByteArray 0 with
    | some c => c :: chars ((b :: bs).drop c.utf8Size)
    | none => '\uFFFD' :: chars bs
termination_by bs => bs.length
decreasing_by
  all_goals first
    | (have := c.utf8Size_pos; simp only [List.length_drop, List.length_cons]; omega)
    | simp

/-- `StringToObject` (/repo/field/FieldProcess.go:10-17); `none` is its panic. `null` gives an empty map. `numOk` tells whether strconv.ParseFloat
accepts a literal (it refuses those beyond the range of float64, and json.Unmarshal then returns an error). -/
def stringToObject (numOk : List Char → Bool) (fmtNum : List Char → String) (document : List UInt8) : Option (JObj JLeaf) := do
  let v ← Json.parse (chars document)
  if v.nums.all numOk then
    match v with
    | .obj ms => some (ms.toObj fmtNum)
    | .null => some .nil
    | _ => none
  else none

/-- `Document` (/repo/testecolection/Teste.go:57-62). -/
structure Doc where
  id      : String := ""
  title   : String := ""
  summary : String := ""
  author  : String := ""
  deriving DecidableEq, Repr

/-- the object that json.Marshal writes for a document: its fields in the order of the struct. (/repo/testecolection/Teste.go:98-185) -/
def Doc.object (d : Doc) : JVal :=
  .obj (.cons "Id" (.str d.id) (.cons "Title" (.str d.title) (.cons "Summary" (.str d.summary) (.cons "Author" (.str d.author) .nil))))

/-- `string(marshal) + "\n"` (/repo/testecolection/Teste.go:101-103). -/
def Doc.line (d : Doc) : List UInt8 := utf8 (Json.render d.object ++ ['\n'])

/-- `GravarLinhasNoArquivo` (/repo/testecolection/Teste.go:97-113), if the file takes `n` bytes: an error of writing is printed, and the rest of
the line is dropped. -/
def gravarN (n : Nat) (file : List UInt8) (d : Doc) : List UInt8 := file ++ d.line.take n

/-- `GravarLinhasNoArquivo` without an error. (/repo/testecolection/Teste.go:98-185) -/
def gravar (file : List UInt8) (d : Doc) : List UInt8 := file ++ d.line

/-- `CriarArquivo` (/repo/testecolection/Teste.go:64-95): os.Create empties the file; then the documents of the feed (with new ids) are written. -/
def criarArquivo (docs : List Doc) : List UInt8 := docs.foldl gravar []

/-- the loop of `ReadString('\n')` (/repo/testecolection/Teste.go:131-143, 163-182): the lines with their newlines; bytes after the last newline
come with the error EOF and are dropped. `line` is what has been read of the current line. -/
def readLines (line : List UInt8) : List UInt8 → List (List UInt8)
  | [] => []
  | b :: r => if b = 10 then (line ++ [b]) :: readLines [] r else readLines (line ++ [b]) r

/-- `GetTextDocuments` (/repo/testecolection/Teste.go:115-145). -/
def getTextDocuments (file : List UInt8) : List (List UInt8) := readLines [] file

/-- the field of `Document` that a member is for. (/repo/testecolection/Teste.go:98-185) -/
inductive DField where
  | id | title | summary | author
  deriving DecidableEq

/-- the fields and their names in lower case. (/repo/testecolection/Teste.go:98-185) -/
def docFields : List (DField × List Char) :=
  [(.id, ['i', 'd']), (.title, ['t', 'i', 't', 'l', 'e']), (.summary, ['s', 'u', 'm', 'm', 'a', 'r', 'y']), (.author, ['a', 'u', 't', 'h', 'o', 'r'])]

/-- storing a string in a field. (/repo/testecolection/Teste.go:98-185) -/
def Doc.setField (d : Doc) (f : DField) (s : String) : Doc :=
  match f with
  | .id => { d with id := s }
  | .title => { d with title := s }
  | .summary => { d with summary := s }
  | .author => { d with author := s }

/-- `json.Unmarshal([]byte(linha), &document)` (/repo/testecolection/Teste.go:173-178); `none` is the panic. -/
def decodeLine (line : List UInt8) : Option Doc := do
  match ← Json.parse (chars line) with
  | .obj ms => Json.decode docFields Doc.setField {} ms
  | .null => some {}
  | _ => none

/-- `GetDocuments` (/repo/testecolection/Teste.go:147-185); `none` is a panic. -/
def getDocuments (file : List UInt8) : Option (List Doc) := (readLines [] file).mapM decodeLine

/-- what `mainxcrt` reads (/repo/main.go:237-242): the lines, as objects; `none` is a panic. -/
def objects (numOk : List Char → Bool) (fmtNum : List Char → String) (file : List UInt8) : Option (List (JObj JLeaf)) :=
  (getTextDocuments file).mapM (stringToObject numOk fmtNum)

end Collection
end Goir
