import Verif.Model.Flusher
/-!
# The counters of the disk store

Field sizes and lengths and document frequencies: the in-memory maps (/repo/storage/DiskStorage.go:141-169), their two writer
goroutines (/repo/storage/DiskIO.go:222-306), the files, and loading them when a store is opened
(/repo/storage/DiskIO.go:23-60, DiskStorage.go:41-52).

Simplifications: one client goroutine; opening is one step (nothing else runs then); a new field's document-frequency map is
visible during the loop of UpdateNumberFieldTerm (in Go it is stored in `d.numberFieldTerm` after the loop, line 167).
-/
namespace Goir

/-- the state. `sendM`/`sendN`: the client is blocked in a send on the unbuffered fieldCh / numberFieldTermCh. (/repo/storage/DiskStorage.go:141-169, /repo/storage/DiskIO.go:23-60, 222-306) -/
structure CtState where
  up     : Bool := false
  size   : GoMap String Int := []                     -- Disk.fieldSize
  length : GoMap String Int := []                     -- Disk.fieldLength
  nft    : GoMap String (GoMap String Int) := []      -- Disk.numberFieldTerm
  sendM  : Option String := none
  sendN  : Option (String × String) := none
  mx     : Flusher (Int × Int) := {}                  -- bufferFieldLengthSize: (Size, Length), always set and deleted together
  nf     : Flusher (GoMap String Int) := {}           -- bufferNumberFieldTerm
deriving DecidableEq, Repr

namespace CtState

/-- `SerializeFieldSizeLength(fieldName, int32(size), int32(length))` (/repo/storage/DiskIO.go:292). -/
def serM (f : String) (v : Int × Int) : Option FB.Buf := serializeFieldSizeLength f (toInt32 v.1) (toInt32 v.2)

/-- `SerializeNumberFieldTerm(termSize)` (/repo/storage/DiskIO.go:253). -/
def serN (_ : String) (v : GoMap String Int) : Option FB.Buf := serializeNumberFieldTerm v

/-- one iteration of the loop of LoadFieldSizeLengthOnHD (/repo/storage/DiskIO.go:44-58); `none` is a panic. -/
def loadM1 (acc : GoMap String Int × GoMap String Int) (e : String × SFile) : Option (GoMap String Int × GoMap String Int) :=
  match e.2.cur with
  | none => some acc
  | some .torn => none
  | some (.full b) => (deserializeFieldSizeLength b).map fun (name, size, length) => (acc.1.set name size, acc.2.set name length)

/-- `LoadFieldSizeLengthOnHD` (/repo/storage/DiskIO.go:40-60). -/
def loadM (files : GoMap String SFile) : Option (GoMap String Int × GoMap String Int) := files.foldlM loadM1 ([], [])

/-- one iteration of the loop of LoadNumberFieldTermOnHD (/repo/storage/DiskIO.go:26-36). -/
def loadN1 (acc : GoMap String (GoMap String Int)) (e : String × SFile) : Option (GoMap String (GoMap String Int)) :=
  match e.2.cur with
  | none => some acc
  | some .torn => none
  | some (.full b) => (deserializeNumberFieldTerm b).map fun m => acc.set e.1 m

/-- `LoadNumberFieldTermOnHD` (/repo/storage/DiskIO.go:23-38). -/
def loadN (files : GoMap String SFile) : Option (GoMap String (GoMap String Int)) := files.foldlM loadN1 []

/-- what can happen next. (/repo/storage/DiskStorage.go:141-169, /repo/storage/DiskIO.go:23-60, 222-306) -/
inductive Act where
  | addField (f : String) (len : Int)   -- client: UpdateFieldSizeLength up to the send (DiskStorage.go:142-145)
  | recvM                               -- the send on fieldCh meets the receive (DiskStorage.go:145-149, DiskIO.go:277-281)
  | addTerm (f t : String)              -- client: one iteration of UpdateNumberFieldTerm up to the send (DiskStorage.go:158-159)
  | recvN                               -- the send on numberFieldTermCh meets the receive (DiskStorage.go:160-164, DiskIO.go:234-245)
  | tickM (order : List String)
  | stepM
  | tickN (order : List String)
  | stepN
  | crash
  | open_
deriving DecidableEq, Repr

/-- the client is not blocked. (the sends of /repo/storage/DiskStorage.go:141-169) -/
def free (s : CtState) : Bool := s.up && s.sendM.isNone && s.sendN.isNone

/-- the receive case of SaveNumberFieldTermOnDisk (/repo/storage/DiskIO.go:237-243). -/
def putN (t : String) (n : Int) : Option (GoMap String Int) → GoMap String Int
  | some termSize => termSize.set t n
  | none => [(t, n)]

/-- the effect of an action, `none` if it is not possible. (/repo/storage/DiskStorage.go:141-169, /repo/storage/DiskIO.go:23-60, 222-306) -/
def exec (s : CtState) : Act → Option CtState
  | .addField f len =>
    if s.free then
      some { s with
        size := s.size.set f (s.size.getD f 0 + 1)
        length := s.length.set f (s.length.getD f 0 + len)
        sendM := some f }
    else none
  | .recvM =>
    match s.sendM with
    | none => none
    | some f => (s.mx.recv f fun _ => (s.size.getD f 0, s.length.getD f 0)).map fun mx => { s with mx := mx, sendM := none }
  | .addTerm f t =>
    if s.free then
      let fieldTerm := (s.nft.get? f).getD []
      some { s with nft := s.nft.set f (fieldTerm.set t (fieldTerm.getD t 0 + 1)), sendN := some (f, t) }
    else none
  | .recvN =>
    match s.sendN with
    | none => none
    | some (f, t) => (s.nf.recv f (putN t (((s.nft.get? f).getD []).getD t 0))).map fun nf => { s with nf := nf, sendN := none }
  | .tickM order => if s.up then (s.mx.tick order).map fun mx => { s with mx := mx } else none
  | .stepM => (s.mx.step serM).map fun mx => { s with mx := mx }
  | .tickN order => if s.up then (s.nf.tick order).map fun nf => { s with nf := nf } else none
  | .stepN => (s.nf.step serN).map fun nf => { s with nf := nf }
  | .crash => if s.up then some { mx := s.mx.killed, nf := s.nf.killed } else none
  | .open_ =>
    if s.up then none else
      match loadM s.mx.files, loadN s.nf.files with
      | some (size, length), some nft => some { s with up := true, size := size, length := length, nft := nft }
      | _, _ => none

/-- a sequence of actions. (/repo/storage/DiskStorage.go:141-169, /repo/storage/DiskIO.go:23-60, 222-306) -/
def run (s : CtState) (as : List Act) : Option CtState := as.foldlM exec s

/-- `GetFieldSize` (/repo/storage/DiskStorage.go:101-103). -/
def getFieldSize (s : CtState) (f : String) : Int := s.size.getD f 0
/-- `GetFieldLength` (/repo/storage/DiskStorage.go:97-99). -/
def getFieldLength (s : CtState) (f : String) : Int := s.length.getD f 0
/-- `GetNumberFieldTerm(f, [t])[t]` (/repo/storage/DiskStorage.go:89-95); reading a missing key of a nil map gives 0. -/
def getNumberFieldTerm (s : CtState) (f t : String) : Int := ((s.nft.get? f).getD []).getD t 0

end CtState
end Goir
