import Verif.Model.Types
/-!
# Package `storage`: the in-memory implementation (`storage/Memory.go`)

Nested maps are values here; where the Go code mutates a nested map through its reference, the model writes the new value
back under the same key.  (References that escape to the caller are the subject of `Verif.Model.Alias`.)
-/
namespace Goir

/-- `storage.Memory` (/repo/storage/Memory.go:7-13). -/
structure Memory where
  index           : GoMap String (GoMap String GoSet) := []
  fieldDocument   : GoMap String (GoMap String Field) := []
  fieldLength     : GoMap String Int := []
  fieldSize       : GoMap String Int := []
  numberFieldTerm : GoMap String (GoMap String Int) := []
deriving DecidableEq, Repr

namespace Memory

/-- `NewMemory` (/repo/storage/Memory.go:38-46). -/
def new : Memory := {}

/-- One iteration of the loop in `UpdateIndex` (/repo/storage/Memory.go:26-35; the same loop without the channel sends is
/repo/storage/DiskStorage.go:199-218): `set := indexField[key]`, create it if nil, add the document. -/
def addPosting (documentId : String) (indexField : GoMap String GoSet) (key : String) : GoMap String GoSet :=
  match indexField.get? key with
  | none     => indexField.set key (GoSet.new.add documentId)
  | some set => indexField.set key (GoSet.add set documentId)

/-- `UpdateIndex` (/repo/storage/Memory.go:15-36). -/
def updateIndex (m : Memory) (documentId : String) (field : Field) : Memory :=
  let indexField := (m.index.get? field.name).getD []
  { m with
    fieldSize   := m.fieldSize.set field.name (m.fieldSize.getD field.name 0 + 1)
    fieldLength := m.fieldLength.set field.name (m.fieldLength.getD field.name 0 + field.length)
    index       := m.index.set field.name (field.tf.keys.foldl (addPosting documentId) indexField) }

/-- `createFieldDocument` (/repo/storage/Memory.go:114-120). -/
def createFieldDocument (m : Memory) (documentId : String) (field : Field) : Memory :=
  match m.fieldDocument.get? documentId with
  | some fieldIndex => { m with fieldDocument := m.fieldDocument.set documentId (fieldIndex.set field.name field) }
  | none            => { m with fieldDocument := m.fieldDocument.set documentId [(field.name, field)] }

/-- the loop `for term := range field.TF { fieldTerm[term] += 1 }` (/repo/storage/Memory.go:107-109, also
/repo/storage/DiskStorage.go:158-165 without the sends). -/
def bumpTerm (fieldTerm : GoMap String Int) (term : String) : GoMap String Int :=
  fieldTerm.set term (fieldTerm.getD term 0 + 1)

/-- `SaveOrUpdate` (/repo/storage/Memory.go:96-112). -/
def saveOrUpdate (m : Memory) (documentId : String) (field : Field) : Memory :=
  let m := m.createFieldDocument documentId field
  let m := m.updateIndex documentId field
  let fieldTerm := (m.numberFieldTerm.get? field.name).getD []
  { m with numberFieldTerm := m.numberFieldTerm.set field.name (field.tf.keys.foldl bumpTerm fieldTerm) }

/-- `GetNumberFieldTerm` (/repo/storage/Memory.go:48-54). -/
def getNumberFieldTerm (m : Memory) (fieldName : String) (terms : List String) : GoMap String Int :=
  terms.foldl (fun temp term => temp.set term (((m.numberFieldTerm.get? fieldName).getD []).getD term 0)) []

/-- `GetFieldLength` (/repo/storage/Memory.go:56-58). -/
def getFieldLength (m : Memory) (fieldName : String) : Int := m.fieldLength.getD fieldName 0

/-- `GetFieldSize` (/repo/storage/Memory.go:60-62). -/
def getFieldSize (m : Memory) (fieldName : String) : Int := m.fieldSize.getD fieldName 0

/-- `GetFieldDocumentTest` (/repo/storage/Memory.go:64-66). -/
def getFieldDocumentTest (m : Memory) (documentId : String) : GoMap String Field :=
  (m.fieldDocument.get? documentId).getD []

/-- `GetIndex` (/repo/storage/Memory.go:68-70); a nil map reads as empty. -/
def getIndex (m : Memory) (fieldName : String) : GoMap String GoSet := (m.index.get? fieldName).getD []

/-- `GetDocuments` (/repo/storage/Memory.go:72-79). -/
def getDocuments (m : Memory) (fieldName term : String) : GoSet × Bool :=
  match m.index.get? fieldName with
  | some indexField =>
    match indexField.get? term with
    | some set => (set, true)
    | none     => ([], false)
  | none => ([], false)

/-- One iteration of the loop in `GetFields` (/repo/storage/Memory.go:84-90). -/
def getFieldsStep (m : Memory) (fieldName : String) (fields : GoMap String Field) (id : String) : GoMap String Field :=
  match m.fieldDocument.get? id with
  | some fieldDocument =>
    match fieldDocument.get? fieldName with
    | some field => fields.set id field
    | none       => fields
  | none => fields

/-- `GetFields` (/repo/storage/Memory.go:81-94). -/
def getFields (m : Memory) (documentId : List String) (fieldName : String) : GoMap String Field :=
  documentId.foldl (m.getFieldsStep fieldName) []

end Memory

/-- A mutating call through the `Storage` interface (/repo/storage/Storage.go:11,21). -/
inductive StoreOp where
  | save (documentId : String) (field : Field)          -- SaveOrUpdate
  | updateIndex (documentId : String) (field : Field)   -- UpdateIndex
deriving DecidableEq, Repr

namespace StoreOp
/-- the document id argument. (the calls of /repo/storage/Memory.go:15-120) -/
def doc : StoreOp → String | save d _ => d | updateIndex d _ => d
/-- the field argument. (the calls of /repo/storage/Memory.go:15-120) -/
def field : StoreOp → Field | save _ f => f | updateIndex _ f => f
/-- is this a `SaveOrUpdate` call? (the calls of /repo/storage/Memory.go:15-120). -/
def isSave : StoreOp → Bool | save .. => true | updateIndex .. => false
end StoreOp

namespace Memory
/-- dispatch of one call on a Memory store. (the calls of /repo/storage/Memory.go:15-120) -/
def apply (m : Memory) : StoreOp → Memory
  | .save d f => m.saveOrUpdate d f
  | .updateIndex d f => m.updateIndex d f

/-- the state after a history of calls, oldest first. (the calls of /repo/storage/Memory.go:15-120) -/
def run (h : List StoreOp) : Memory := h.foldl apply new

/-- `InvertedIndex.IndexDocument` over a Memory store (/repo/index/InvertedIndex.go:123-128). -/
def indexDocument (m : Memory) (documentId : String) (document : NormalizedDocument) : Memory :=
  document.fields.foldl (fun m field => m.saveOrUpdate documentId field) m
end Memory

end Goir
