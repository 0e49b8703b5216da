import Verif.Model.Collection
/-!
# The feed of CriarArquivo (/repo/testecolection/Teste.go:15-95)

Simplifications: an XML document is the tree of its elements (package encoding/xml reads the text; that is not modelled), comments and processing instructions
left out, attributes left out (only `Link` reads them, and nothing reads `Link`), names without their name space, which these struct tags ignore. Text is what encoding/xml
makes of character data, references replaced. What is printed is not modelled.
-/
namespace Goir
namespace Collection

/-- a piece of an XML document. (/repo/testecolection/Teste.go:15-95) -/
inductive XNode where
  | text (s : String)
  | elem (name : String) (body : List XNode)

namespace Feed

/-- what xml.Unmarshal does with a piece of an element that is read into a string: character data is collected (`saveData`), an element is skipped. (/repo/testecolection/Teste.go:15-95) -/
def dataStep (s : String) : XNode → String
  | .text t => s ++ t
  | .elem _ _ => s

/-- the string. (/repo/testecolection/Teste.go:15-95) -/
def data (body : List XNode) : String := body.foldl dataStep ""

/-- `Author` (/repo/testecolection/Teste.go:28-30): an element `name` sets Name. -/
def authorStep (name : String) : XNode → String
  | .text _ => name
  | .elem k b => if k = "name" then data b else name

/-- xml.Unmarshal of an author. (/repo/testecolection/Teste.go:15-95) -/
def author (name : String) (body : List XNode) : String := body.foldl authorStep name

/-- `Entry` (/repo/testecolection/Teste.go:21-26), without the links. -/
structure Entry where
  title   : String := ""
  summary : String := ""
  author  : String := ""
deriving DecidableEq, Repr

/-- xml.Unmarshal of one piece of an entry: an element sets the field with its name (an `author` is read into the same struct each time); others are skipped. (/repo/testecolection/Teste.go:15-95) -/
def entryStep (e : Entry) : XNode → Entry
  | .text _ => e
  | .elem k b =>
    if k = "title" then { e with title := data b }
    else if k = "summary" then { e with summary := data b }
    else if k = "author" then { e with author := author e.author b }
    else e

/-- xml.Unmarshal of an entry. (/repo/testecolection/Teste.go:15-95) -/
def entry (body : List XNode) : Entry := body.foldl entryStep {}

/-- `Feed` (/repo/testecolection/Teste.go:15-19), without its title, which is only printed: each element `entry` is appended. -/
def feedStep (es : List Entry) : XNode → List Entry
  | .text _ => es
  | .elem k b => if k = "entry" then es ++ [entry b] else es

/-- xml.Unmarshal of the feed. (/repo/testecolection/Teste.go:15-95) -/
def entries (body : List XNode) : List Entry := body.foldl feedStep []

/-- `xml.Unmarshal([]byte(xmlData), &feed)` (/repo/testecolection/Teste.go:69): the first element must have the name of the tag of XMLName. `none` is an error. -/
def unmarshal : XNode → Option (List Entry)
  | .text _ => none
  | .elem k b => if k = "feed" then some (entries b) else none

/-- what http.Get gives (/repo/testecolection/Teste.go:36-47): an error; a body that is no XML document; or one. -/
inductive Response where
  | failed
  | malformed
  | document (root : XNode)

/-- the loop (/repo/testecolection/Teste.go:87-94): a document with a new id for each entry; `uuids` are what `uuid.New().String()` returns. -/
def documents : List Entry → List String → List Doc
  | [], _ => []
  | e :: es, uuids => { id := uuids.headD "", title := e.title, summary := e.summary, author := e.author } :: documents es uuids.tail

/-- `CriarArquivo` (/repo/testecolection/Teste.go:64-95): the new content of the file. `none` is a panic: after an error of http.Get, `resp` is nil, and `resp.Body`
(line 42) is read all the same. After an error of xml.Unmarshal the file is left as it was. -/
def criarArquivo (uuids : List String) (file : List UInt8) : Response → Option (List UInt8)
  | .failed => none
  | .malformed => some file
  | .document root =>
    match unmarshal root with
    | none => some file
    | some es => some (Collection.criarArquivo (documents es uuids))

end Feed
end Collection
end Goir
