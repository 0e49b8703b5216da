import Verif.Model.DiskIndex
import Verif.Model.Counters
import Verif.Model.Docs
/-!
# The whole disk store

`storage.Disk` put together from its three parts: posting lists (`IxState`), counters (`CtState`) and documents (`DcState`), driven
by one client goroutine that runs `SaveOrUpdate` and `UpdateIndex` statement by statement (/repo/storage/DiskStorage.go:141-228).

The parts share no memory and no files, except that the metrics writers also create a field's directory (`mkdir`), so their
background goroutines step independently; the client, a crash, a panic anywhere and opening tie them together.
-/
namespace Goir

/-- the statements of an update, each up to and including the next blocking send. (/repo/storage/DiskStorage.go:141-228) -/
inductive Micro where
  | size (f : String) (len : Int)     -- UpdateFieldSizeLength (DiskStorage.go:141-150)
  | touch (f : String)                -- UpdateIndex before its loop (DiskStorage.go:193-197)
  | post (f t d : String)             -- UpdateIndex, one iteration (DiskStorage.go:199-218)
  | term (f t : String)               -- UpdateNumberFieldTerm, one iteration (DiskStorage.go:158-165)
  | doc (d : String) (field : Field)  -- UpdateFieldDocument (DiskStorage.go:171-189)
deriving DecidableEq, Repr

/-- the store; `prog` is what the update in progress still has to do. (/repo/storage/DiskStorage.go:25-228) -/
structure Disk where
  ix   : IxState := {}
  ct   : CtState := {}
  dc   : DcState := {}
  prog : List Micro := []
deriving DecidableEq, Repr

namespace Disk

/-- the client is blocked in a send on an unbuffered channel. (the sends of /repo/storage/DiskStorage.go:141-228) -/
def blocked (s : Disk) : Bool := s.ct.sendM.isSome || s.ct.sendN.isSome || s.dc.send.isSome

/-- the store is open and the client is between two calls. (/repo/storage/DiskStorage.go:25-228) -/
def idle (s : Disk) : Bool := s.dc.up && !s.blocked && s.prog.isEmpty

/-- actions of the index's own goroutines: the writer, the merge, and directories made by other writers. (/repo/storage/DiskStorage.go:74-84, /repo/storage/DiskIO.go:321-379) -/
def ixBackground : IxState.Act → Bool
  | .recv | .tick _ | .create _ | .write | .flushed | .startMerge | .merge | .mkdir _ => true
  | _ => false

/-- actions of the two counter writers (a receive completes the client's send). (/repo/storage/DiskIO.go:222-306) -/
def ctBackground : CtState.Act → Bool
  | .recvM | .recvN | .tickM _ | .stepM | .tickN _ | .stepN => true
  | _ => false

/-- actions of the document writer. (/repo/storage/DiskIO.go:189-220) -/
def dcBackground : DcState.Act → Bool
  | .recv | .tick _ | .step => true
  | _ => false

/-- the process is gone; the index part has already been stopped. (the end of a process; no code) -/
def stop (s : Disk) (ix : IxState) : Disk :=
  { ix := ix, ct := (s.ct.exec .crash).getD s.ct, dc := (s.dc.exec .crash).getD s.dc, prog := [] }

/-- what can happen next. (/repo/storage/DiskStorage.go:25-228) -/
inductive Act where
  | save (d : String) (f : Field) (o₁ o₂ : List String)   -- SaveOrUpdate is called; `o₁`, `o₂`: iteration orders of the two loops over TF
  | updateIndex (d : String) (f : Field) (o : List String)
  | client                                                -- the client executes the next statement
  | read (d : String)                                     -- one iteration of GetFields
  | ix (a : IxState.Act)
  | ct (a : CtState.Act)
  | dc (a : DcState.Act)
  | crash
  | open_                                                 -- NewDiskStore begins: LoadIndexOnHD (DiskStorage.go:34-38)
  | openRest (cacheSize : Int)                            -- NewDiskStore: the rest (DiskStorage.go:41-87)
deriving DecidableEq, Repr

/-- the statements of `UpdateIndex(d, f)` (/repo/storage/DiskStorage.go:191-220). -/
def updateIndexProg (d : String) (f : Field) (o : List String) : List Micro := .touch f.name :: o.map fun t => .post f.name t d

/-- the statements of `SaveOrUpdate(d, f)` (/repo/storage/DiskStorage.go:222-228). -/
def saveProg (d : String) (f : Field) (o₁ o₂ : List String) : List Micro :=
  .size f.name f.length :: updateIndexProg d f o₁ ++ (o₂.map fun t => .term f.name t) ++ [.doc d f]

/-- one statement. (/repo/storage/DiskStorage.go:141-228) -/
def micro (s : Disk) : Micro → Option Disk
  | .size f len => (s.ct.exec (.addField f len)).map fun ct => { s with ct := ct }
  | .touch f => (s.ix.exec (.touch f)).map fun ix => { s with ix := ix }
  | .post f t d => (s.ix.exec (.post f t d)).map fun ix => { s with ix := ix }
  | .term f t => (s.ct.exec (.addTerm f t)).map fun ct => { s with ct := ct }
  | .doc d field => (s.dc.exec (.save d field)).map fun dc => { s with dc := dc }

/-- the effect of an action, `none` if it is not possible (or the client panics). (/repo/storage/DiskStorage.go:25-228) -/
def exec (s : Disk) : Act → Option Disk
  | .save d f o₁ o₂ => if s.idle ∧ o₁.Perm f.tf.keys ∧ o₂.Perm f.tf.keys then some { s with prog := saveProg d f o₁ o₂ } else none
  | .updateIndex d f o => if s.idle ∧ o.Perm f.tf.keys then some { s with prog := updateIndexProg d f o } else none
  | .client =>
    match s.prog with
    | [] => none
    | m :: rest => if s.blocked then none else (s.micro m).map fun s => { s with prog := rest }
  | .read d => if s.idle then (s.dc.exec (.read d)).map fun dc => { s with dc := dc } else none
  | .ix a =>
    if ixBackground a ∧ (s.dc.up ∨ s.ix.proc = .opening) then
      (s.ix.exec a).map fun ix => if ix.proc = .down then s.stop ix else { s with ix := ix }
    else none
  | .ct a => if ctBackground a ∧ s.dc.up then (s.ct.exec a).map fun ct => { s with ct := ct } else none
  | .dc a => if dcBackground a ∧ s.dc.up then (s.dc.exec a).map fun dc => { s with dc := dc } else none
  | .crash => (s.ix.exec .crash).map s.stop
  | .open_ => (s.ix.exec .open_).map fun ix => { s with ix := ix }
  | .openRest n =>
    if s.ix.proc = .up ∧ s.dc.up = false then
      match s.ct.exec .open_, s.dc.exec (.open_ n) with
      | some ct, some dc => some { s with ct := ct, dc := dc }
      | _, _ => none
    else none

/-- a sequence of actions. (/repo/storage/DiskStorage.go:25-228) -/
def run (s : Disk) (as : List Act) : Option Disk := as.foldlM exec s

/-- `GetDocuments` (/repo/storage/DiskStorage.go:109-116). -/
def getDocuments (s : Disk) (f t : String) : GoSet × Bool := s.ix.getDocuments f t
/-- `GetIndex` (/repo/storage/DiskStorage.go:105-107). -/
def getIndex (s : Disk) (f : String) : GoMap String GoSet := s.ix.getIndex f
/-- `GetFieldSize` (/repo/storage/DiskStorage.go:101-103). -/
def getFieldSize (s : Disk) (f : String) : Int := s.ct.getFieldSize f
/-- `GetFieldLength` (/repo/storage/DiskStorage.go:97-99). -/
def getFieldLength (s : Disk) (f : String) : Int := s.ct.getFieldLength f
/-- `GetNumberFieldTerm` (/repo/storage/DiskStorage.go:89-95). -/
def getNumberFieldTerm (s : Disk) (f : String) (terms : List String) : GoMap String Int :=
  terms.foldl (fun temp term => temp.set term (s.ct.getNumberFieldTerm f term)) []
/-- `GetFields` (/repo/storage/DiskStorage.go:118-139). -/
def getFields (s : Disk) (ids : List String) (name : String) : Option (Disk × GoMap String Field) :=
  (s.dc.getFields ids name).map fun r => ({ s with dc := r.1 }, r.2)

end Disk

/-- the calls made in a run, oldest first. (ghost: the calls of /repo/storage/DiskStorage.go:191-228) -/
def Disk.calls (as : List Disk.Act) : List StoreOp :=
  as.filterMap fun a =>
    match a with
    | .save d f _ _ => some (.save d f)
    | .updateIndex d f _ => some (.updateIndex d f)
    | _ => none

end Goir
