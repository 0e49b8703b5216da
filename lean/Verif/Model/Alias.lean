import Verif.Model.Memory
/-!
# Sets with identity: what a caller of GetDocuments holds

`model.Set` is a struct with one field, a Go map, which is a reference.  `GetDocuments` returns a copy of the struct
(`return *set, true`, /repo/storage/Memory.go:75 and /repo/storage/DiskStorage.go:112): the copy refers to the same map.  Here the maps live
in a heap and the index holds their addresses.  (Each `*model.Set` of the index keeps the same map for ever: no method assigns
`data`; so the address of the map stands for the pointer to the struct too.)

The index loop is the same in Memory and in Disk (/repo/storage/Memory.go:22-35, /repo/storage/DiskStorage.go:193-218); the rest of the stores
does not touch sets and is left out.
-/
namespace Goir

/-- the sets, and the index of a store. (storage of /repo/storage/Memory.go:7-46) -/
structure AMem where
  heap  : List GoSet := []
  index : GoMap String (GoMap String Nat) := []
deriving DecidableEq, Repr

namespace AMem

/-- read a set. (/repo/model/Set.go:5-32) -/
def deref (s : AMem) (r : Nat) : GoSet := (s.heap[r]?).getD []

/-- the address of the posting set of a term: `d.index[fieldName][term]`. (storage of /repo/storage/Memory.go:7-46) -/
def ref (s : AMem) (f t : String) : Option Nat := (s.index.get? f).bind fun indexField => GoMap.get? indexField t

/-- one iteration of the loop of `UpdateIndex` (/repo/storage/Memory.go:26-35). -/
def addPosting (documentId f : String) (s : AMem) (key : String) : AMem :=
  let indexField := (s.index.get? f).getD []
  match GoMap.get? indexField key with
  | none   => { heap := s.heap ++ [GoSet.new.add documentId], index := s.index.set f (indexField.set key s.heap.length) }
  | some r => { s with heap := s.heap.set r ((s.deref r).add documentId) }

/-- `UpdateIndex` (/repo/storage/Memory.go:15-36). -/
def updateIndex (s : AMem) (documentId : String) (field : Field) : AMem :=
  let s := match s.index.get? field.name with
    | some _ => s
    | none   => { s with index := s.index.set field.name [] }
  field.tf.keys.foldl (addPosting documentId field.name) s

/-- `GetDocuments` (/repo/storage/Memory.go:72-79): the map inside the returned struct (`none` is the nil map of `model.Set{}`) and
the flag. -/
def getDocuments (s : AMem) (fieldName term : String) : Option Nat × Bool :=
  match s.index.get? fieldName with
  | some indexField =>
    match GoMap.get? indexField term with
    | some set => (some set, true)
    | none     => (none, false)
  | none => (none, false)

/-- `GetData` of a returned set (/repo/model/Set.go:13-15); a nil map reads as empty. -/
def getData (s : AMem) : Option Nat → GoSet
  | some r => s.deref r
  | none   => []

/-- a call: on the store, or on a set returned by GetDocuments. (/repo/storage/Memory.go:15-120, /repo/model/Set.go:5-32) -/
inductive Op where
  | store (op : StoreOp)
  | setAdd (set : Option Nat) (e : String)
  | setRemove (set : Option Nat) (e : String)
deriving DecidableEq, Repr

/-- perform a call; `none` is a panic. Adding to a nil map panics, deleting from one does nothing (/repo/model/Set.go:17-23). -/
def exec (s : AMem) : Op → Option AMem
  | .store op => some (s.updateIndex op.doc op.field)
  | .setAdd none _ => none
  | .setAdd (some r) e => some { s with heap := s.heap.set r ((s.deref r).add e) }
  | .setRemove none _ => some s
  | .setRemove (some r) e => some { s with heap := s.heap.set r ((s.deref r).remove e) }

/-- a sequence of calls. (storage of /repo/storage/Memory.go:7-46) -/
def run (s : AMem) (ops : List Op) : Option AMem := ops.foldlM exec s

end AMem
end Goir
