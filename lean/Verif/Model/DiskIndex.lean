import Verif.Model.SFile
import Verif.Model.Memory
/-!
# The inverted index of the disk store

The part of `storage.Disk` and `storage.DiskIO` that concerns posting lists: the in-memory index and its channel
(/repo/storage/DiskStorage.go:191-220), the index writer goroutine (/repo/storage/DiskIO.go:321-370), `LoadIndexOnHD`
(/repo/storage/DiskIO.go:71-151) both when a store is opened and in the background merge goroutine
(/repo/storage/DiskStorage.go:74-84), and the files.  It is a state machine: `exec s a` is the state after action `a`, or
`none` if `a` is not possible in `s`.  A run is any list of actions, so it covers every interleaving of the client, the writer
and the merge goroutine and every crash.

Simplifications: one client goroutine; field names are single path components other than "docs" (C44); `uuid.New()` never
returns a name in use; listing a directory, checking and reading a file are single steps; the ticker may fire at any moment.
-/
namespace Goir

/-- the postings of a field: `map[string]*model.Set` (/repo/storage/DiskStorage.go:11-23). -/
abbrev Postings := GoMap String GoSet

/-- the files of one field directory that concern the index: `index`, `index_temp`, `index_old` and the fragments in `temp/`. (/repo/storage/DiskIO.go:92-151) -/
structure FieldFiles where
  index : SFile := {}
  temp  : GoMap String Content := []
deriving DecidableEq, Repr

/-- the index writer goroutine (/repo/storage/DiskIO.go:321-370): in its select, or in the flush loop with the fields still to
be written; `tmpName` is set while the fragment of the first one is being written. -/
inductive WriterPc where
  | idle
  | flushing (rest : List (String × Postings)) (tmpName : Option String)
deriving DecidableEq, Repr

/-- `LoadIndexOnHD` in progress (/repo/storage/DiskIO.go:92-151). `acc` is the map `index` it will return. -/
inductive MergePc where
  | idle
  | dead                                  -- the background goroutine returned because of an error
  | atField (rest : List String) (acc : GoMap String Postings)
  | reading (f : String) (rest seen toRead : List String) (td : Postings) (acc : GoMap String Postings)
  | saving (f : String) (rest files : List String) (td : Postings) (acc : GoMap String Postings) (b : FB.Buf) (pc : SPc)
  | deleting (f : String) (rest toDel : List String) (acc : GoMap String Postings)
deriving DecidableEq, Repr

/-- the process: not running, inside NewDiskStore, or running. (/repo/storage/DiskStorage.go:25-87) -/
inductive Proc where
  | down | opening | up
deriving DecidableEq, Repr

/-- the state: files, then the process. `hist` is a ghost: every posting ever handed to UpdateIndex. (/repo/storage/DiskStorage.go:11-23, /repo/storage/DiskIO.go:309-319) -/
structure IxState where
  dirs     : GoMap String FieldFiles := []
  proc     : Proc := .down
  panicked : Bool := false
  mem      : GoMap String Postings := []            -- Disk.index
  chan     : List (String × String × String) := []  -- indexCh, capacity 100
  buf      : GoMap String Postings := []            -- BufferIndex.buffer
  writer   : WriterPc := .idle
  merger   : MergePc := .idle
  hist     : List (String × String × String) := []
deriving DecidableEq, Repr

namespace IxState

/-- capacity of indexCh (/repo/storage/DiskStorage.go:27). -/
def chanCap : Nat := 100

/-- the files of a field; a directory that does not exist has none. (/repo/storage/DiskIO.go:92-151) -/
def files (s : IxState) (f : String) : FieldFiles := (s.dirs.get? f).getD {}

/-- write back the files of a field (creating its directory). (/repo/storage/DiskIO.go:92-151) -/
def setFiles (s : IxState) (f : String) (ff : FieldFiles) : IxState := { s with dirs := s.dirs.set f ff }

/-- the process is gone: only the files remain. (the end of a process; no code) -/
def killed (s : IxState) : IxState :=
  { s with proc := .down, mem := [], chan := [], buf := [], writer := .idle, merger := .idle }

/-- an unrecovered panic in any goroutine ends the process. (e.g. of /repo/storage/Serialize.go:167-244) -/
def panic (s : IxState) : IxState := { s.killed with panicked := true }

/-- `LoadIndexOnHD` returns an error: NewDiskStore fails (/repo/storage/DiskStorage.go:36-38), or the background goroutine
returns (79-81). -/
def loadError (s : IxState) : IxState :=
  if s.proc = .opening then s.killed else { s with merger := .dead }

/-- the loop of `LoadTermDocumentsFromIndex` (/repo/storage/DiskIO.go:82-88). -/
def loadPostings (p : GoMap String (GoMap String Bool)) : Postings :=
  p.foldl (fun td e => td.set e.1 (e.2.keys.foldl GoSet.add GoSet.new)) []

/-- the loop that merges one fragment (/repo/storage/DiskIO.go:113-123). -/
def mergeInto (td : Postings) (p : GoMap String (GoMap String Bool)) : Postings :=
  p.foldl (fun td e => td.set e.1 (e.2.keys.foldl GoSet.add ((td.get? e.1).getD GoSet.new))) td

/-- one step of `LoadIndexOnHD` (/repo/storage/DiskIO.go:92-151). -/
def mergeStep (s : IxState) : Option IxState :=
  match s.merger with
  | .idle => none
  | .dead => none
  | .atField [] acc =>                                                    -- line 150
    if s.proc = .opening then some { s with proc := .up, mem := acc, merger := .idle }
    else some { s with merger := .idle }
  | .atField (f :: rest) acc =>                                           -- lines 97-104
    let names := GoMap.keys (s.files f).temp
    match (s.files f).index.cur with
    | none => some { s with merger := .reading f rest [] names [] acc }
    | some .torn => some s.panic
    | some (.full b) =>
      match deserializeIndex b with
      | none => some s.panic
      | some p => some { s with merger := .reading f rest [] names (loadPostings p) acc }
  | .reading f rest seen (n :: ns) td acc =>                              -- lines 106-124
    match (s.files f).temp.get? n with
    | none => some s.loadError
    | some .torn => some s.panic
    | some (.full b) =>
      match deserializeIndex b with
      | none => some s.panic
      | some p => some { s with merger := .reading f rest (seen ++ [n]) ns (mergeInto td p) acc }
  | .reading f rest seen [] td acc =>                                     -- lines 125-134
    match serializeIndex td with
    | none => some s.panic
    | some b => some { s with merger := .saving f rest seen td (acc.set f td) b .start }
  | .saving f rest files _ acc _ .done => some { s with merger := .deleting f rest files acc }
  | .saving f rest files td acc b pc =>                                   -- line 136
    some { s.setFiles f { s.files f with index := (s.files f).index.step b pc } with
      merger := .saving f rest files td acc b pc.next }
  | .deleting _ rest [] acc => some { s with merger := .atField rest acc }
  | .deleting f rest (n :: ns) acc =>                                     -- lines 142-148
    match (s.files f).temp.get? n with
    | none => some s.loadError
    | some _ => some { s.setFiles f { s.files f with temp := (s.files f).temp.del n } with merger := .deleting f rest ns acc }

/-- the body of the receive case of the writer (/repo/storage/DiskIO.go:332-349). -/
def bufAdd (buf : GoMap String Postings) (f t d : String) : GoMap String Postings :=
  let indexField := (buf.get? f).getD []
  let termSet := (indexField.get? t).getD []
  buf.set f (indexField.set t (GoMap.set termSet d true))

/-- what can happen next. (/repo/storage/DiskStorage.go:191-220, /repo/storage/DiskIO.go:71-151, 321-379) -/
inductive Act where
  | touch (f : String)               -- client: UpdateIndex creates the field's map (DiskStorage.go:193-197)
  | post (f t d : String)            -- client: one iteration of UpdateIndex's loop (DiskStorage.go:199-218)
  | recv                             -- writer: receive (DiskIO.go:332-349)
  | tick (order : List (String × Postings))  -- writer: ticker fires; `order` is the iteration order (DiskIO.go:351-353)
  | create (name : String)           -- writer: open the next fragment file (DiskIO.go:354-360)
  | write                            -- writer: the fragment file is complete (DiskIO.go:360)
  | flushed                          -- writer: end of the flush (DiskIO.go:366-369)
  | startMerge                       -- merge goroutine: wakes up (DiskStorage.go:76-78)
  | merge                            -- LoadIndexOnHD: one step
  | mkdir (f : String)               -- another writer creates the field's directory (DiskIO.go:250, 289)
  | crash                            -- the process is killed
  | open_                            -- NewDiskStore is called (DiskStorage.go:25-38)
deriving DecidableEq, Repr

/-- the effect of an action, `none` if it is not possible. (/repo/storage/DiskStorage.go:191-220, /repo/storage/DiskIO.go:71-151, 321-379) -/
def exec (s : IxState) : Act → Option IxState
  | .touch f =>
    if s.proc = .up then
      some { s with mem := match s.mem.get? f with | some _ => s.mem | none => s.mem.set f [] }
    else none
  | .post f t d =>
    if s.proc = .up ∧ s.chan.length < chanCap then
      some { s with
        mem  := s.mem.set f (Memory.addPosting d ((s.mem.get? f).getD []) t)
        chan := s.chan ++ [(f, t, d)]
        hist := s.hist ++ [(f, t, d)] }
    else none
  | .recv =>
    match s.proc, s.writer, s.chan with
    | .up, .idle, (f, t, d) :: rest => some { s with chan := rest, buf := bufAdd s.buf f t d }
    | _, _, _ => none
  | .tick order =>
    if s.proc = .up ∧ s.writer = .idle ∧ order.Perm s.buf then some { s with writer := .flushing order none } else none
  | .create name =>
    match s.writer with
    | .flushing ((f, p) :: rest) none =>
      if (s.files f).temp.get? name = none then
        match serializeIndex p with
        | none => some s.panic
        | some _ =>
          some { s.setFiles f { s.files f with temp := (s.files f).temp.set name .torn } with
            writer := .flushing ((f, p) :: rest) (some name) }
      else none
    | _ => none
  | .write =>
    match s.writer with
    | .flushing ((f, p) :: rest) (some name) =>
      match serializeIndex p with
      | none => some s.panic
      | some b =>
        some { s.setFiles f { s.files f with temp := (s.files f).temp.set name (.full b) } with
          writer := .flushing rest none }
    | _ => none
  | .flushed =>
    match s.writer with
    | .flushing [] none => some { s with buf := [], writer := .idle }
    | _ => none
  | .startMerge =>
    if s.proc = .up ∧ s.merger = .idle then some { s with merger := .atField (GoMap.keys s.dirs) [] } else none
  | .merge => s.mergeStep
  | .mkdir f => if s.proc = .up then some (s.setFiles f (s.files f)) else none
  | .crash => if s.proc = .down then none else some s.killed
  | .open_ =>
    if s.proc = .down then
      some { s with proc := .opening, panicked := false, merger := .atField (GoMap.keys s.dirs) [] }
    else none

/-- a sequence of actions. (/repo/storage/DiskStorage.go:191-220, /repo/storage/DiskIO.go:71-151, 321-379) -/
def run (s : IxState) (as : List Act) : Option IxState := as.foldlM exec s

/-- `GetDocuments(fieldName, term)` (/repo/storage/DiskStorage.go:109-116). -/
def getDocuments (s : IxState) (fieldName term : String) : GoSet × Bool :=
  match s.mem.get? fieldName with
  | some indexField =>
    match indexField.get? term with
    | some set => (set, true)
    | none => ([], false)
  | none => ([], false)

/-- `GetIndex(fieldName)` (/repo/storage/DiskStorage.go:105-107). -/
def getIndex (s : IxState) (fieldName : String) : Postings := (s.mem.get? fieldName).getD []

end IxState
end Goir
