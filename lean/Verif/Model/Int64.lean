import Verif.Model.Memory
/-!
# The Memory store with Go's 64-bit `int`

The counters of Model/Memory are unbounded; here every addition wraps around as Go's `int` does on a 64-bit machine. The length of a field and its frequencies are
arguments of the caller and are stored as they are.
-/
namespace Goir

/-- the value of a 64-bit `int` after an operation whose exact result is `x` (Go specification, "Integer overflow"). (the additions of /repo/storage/Memory.go:15-120) -/
def wrap64 (x : Int) : Int := Int.bmod x (2^64)

namespace Memory

/-- `UpdateIndex` (/repo/storage/Memory.go:15-36), the additions of lines 16-17. -/
def updateIndex64 (m : Memory) (documentId : String) (field : Field) : Memory :=
  let indexField := (m.index.get? field.name).getD []
  { m with
    fieldSize   := m.fieldSize.set field.name (wrap64 (m.fieldSize.getD field.name 0 + 1))
    fieldLength := m.fieldLength.set field.name (wrap64 (m.fieldLength.getD field.name 0 + field.length))
    index       := m.index.set field.name (field.tf.keys.foldl (addPosting documentId) indexField) }

/-- the loop over TF (/repo/storage/Memory.go:107-109). -/
def bumpTerm64 (fieldTerm : GoMap String Int) (term : String) : GoMap String Int :=
  fieldTerm.set term (wrap64 (fieldTerm.getD term 0 + 1))

/-- `SaveOrUpdate` (/repo/storage/Memory.go:96-112). -/
def saveOrUpdate64 (m : Memory) (documentId : String) (field : Field) : Memory :=
  let m := m.createFieldDocument documentId field
  let m := m.updateIndex64 documentId field
  let fieldTerm := (m.numberFieldTerm.get? field.name).getD []
  { m with numberFieldTerm := m.numberFieldTerm.set field.name (field.tf.keys.foldl bumpTerm64 fieldTerm) }

/-- dispatch of one call. (the additions of /repo/storage/Memory.go:15-120) -/
def apply64 (m : Memory) : StoreOp → Memory
  | .save d f => m.saveOrUpdate64 d f
  | .updateIndex d f => m.updateIndex64 d f

/-- the state after a history of calls, oldest first. (the additions of /repo/storage/Memory.go:15-120) -/
def run64 (h : List StoreOp) : Memory := h.foldl apply64 new

end Memory
end Goir
