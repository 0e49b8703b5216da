import Verif.Model.Flusher
import Verif.Model.LRU
/-!
# The stored documents of the disk store

The LRU cache of field maps, the document writer goroutine and the files under `docs/metrics`
(/repo/storage/DiskStorage.go:118-139, 171-189, DiskIO.go:62-69, 189-220).

A Go map is a reference: the cache, the channel message and the writer's buffer hold the *same* map, which later saves change in
place.  So maps live in a heap and everything else holds indices into it.

Simplifications: one client goroutine; a call of `cache.Get`/`Put`, reading a document file and serializing a map are each one
step (serializing while a save writes the same map is a data race, see C75); the `TF` map inside a stored `Field` is not changed
by the caller after the save; document ids are single path components and none is another one followed by `_temp` or `_old`
(C42–C44).
-/
namespace Goir

/-- the state. `send`: the client is blocked in the send on the unbuffered documentFieldCh (/repo/storage/DiskStorage.go:30, 184). -/
structure DcState where
  up    : Bool := false
  heap  : List (GoMap String Field) := []     -- every map[string]model.Field made so far
  cache : LRU Nat := LRU.new 0                -- Disk.fieldDocumentCache
  send  : Option (String × Nat) := none
  fl    : Flusher Nat := {}                   -- SaveDocumentFieldOnDisk: localBuffer.data and the files
deriving DecidableEq, Repr

namespace DcState

/-- the map behind a reference. (/repo/storage/DiskStorage.go:118-139, 171-189, /repo/storage/DiskIO.go:62-69, 189-220) -/
def deref (s : DcState) (r : Nat) : GoMap String Field := s.heap.getD r []

/-- `SerializeFieldMap(fieldMap)` at the moment the writer does it (/repo/storage/DiskIO.go:210). -/
def ser (s : DcState) (_ : String) (r : Nat) : Option FB.Buf := serializeFieldMap (s.deref r)

/-- `LoadFieldDocumentOnHD` (/repo/storage/DiskIO.go:62-69): `none` is a panic, `some none` is the result false. -/
def load (s : DcState) (d : String) : Option (Option (GoMap String Field)) :=
  match (s.fl.file d).cur with
  | none => some none
  | some .torn => none
  | some (.full b) => (deserializeFieldMap b).map some

/-- `UpdateFieldDocument` up to the send (/repo/storage/DiskStorage.go:171-183); `none` is a panic. -/
def save (s : DcState) (d : String) (f : Field) : Option DcState :=
  match s.cache.get d with
  | (c, some r) =>
    (c.put d r).map fun c => { s with cache := c, heap := s.heap.set r ((s.deref r).set f.name f), send := some (d, r) }
  | (c, none) =>
    (c.put d s.heap.length).map fun c =>
      { s with cache := c, heap := s.heap ++ [GoMap.set [] f.name f], send := some (d, s.heap.length) }

/-- one iteration of `GetFields` (/repo/storage/DiskStorage.go:121-135) for document `d`: the new state and what is found under
`name`; `none` is a panic. -/
def getField (s : DcState) (d name : String) : Option (DcState × Option Field) :=
  match s.cache.get d with
  | (c, some r) => some ({ s with cache := c }, (s.deref r).get? name)
  | (c, none) =>
    match s.load d with
    | none => none
    | some none => some ({ s with cache := c }, none)
    | some (some m) =>
      (c.put d s.heap.length).map fun c => ({ s with cache := c, heap := s.heap ++ [m] }, m.get? name)

/-- `GetFields(ids, name)` (/repo/storage/DiskStorage.go:118-139), with nothing else happening during the call. -/
def getFields (s : DcState) (ids : List String) (name : String) : Option (DcState × GoMap String Field) :=
  ids.foldlM (fun (acc : DcState × GoMap String Field) d =>
    (acc.1.getField d name).map fun x =>
      (x.1, match x.2 with
        | some f => acc.2.set d f
        | none => acc.2)) (s, [])

/-- what can happen next. (/repo/storage/DiskStorage.go:118-139, 171-189, /repo/storage/DiskIO.go:62-69, 189-220) -/
inductive Act where
  | save (d : String) (f : Field)   -- client: UpdateFieldDocument up to the send
  | recv                            -- the send meets the receive (DiskStorage.go:184-187, DiskIO.go:200-203)
  | read (d : String)               -- client: one iteration of GetFields (the name does not matter to the state)
  | tick (order : List String)      -- the writer's ticker fires (DiskIO.go:204-206)
  | step                            -- one step of the writer's flush (DiskIO.go:206-217)
  | crash
  | open_ (cacheSize : Int)         -- NewDiskStore (DiskStorage.go:25-87): a new, empty cache
deriving DecidableEq, Repr

/-- the effect of an action, `none` if it is not possible (or panics). (/repo/storage/DiskStorage.go:118-139, 171-189, /repo/storage/DiskIO.go:62-69, 189-220) -/
def exec (s : DcState) : Act → Option DcState
  | .save d f => if s.up && s.send.isNone then s.save d f else none
  | .recv =>
    match s.send with
    | none => none
    | some (d, r) => (s.fl.recv d fun _ => r).map fun fl => { s with fl := fl, send := none }
  | .read d => if s.up && s.send.isNone then (s.getField d "").map Prod.fst else none
  | .tick order => if s.up then (s.fl.tick order).map fun fl => { s with fl := fl } else none
  | .step => (s.fl.step s.ser).map fun fl => { s with fl := fl }
  | .crash => if s.up then some { fl := s.fl.killed } else none
  | .open_ n => if s.up then none else some { s with up := true, cache := LRU.new n }

/-- a sequence of actions. (/repo/storage/DiskStorage.go:118-139, 171-189, /repo/storage/DiskIO.go:62-69, 189-220) -/
def run (s : DcState) (as : List Act) : Option DcState := as.foldlM exec s

end DcState
end Goir
