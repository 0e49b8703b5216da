import Verif.Model.ConcurrentDisk
import Verif.Model.FlatBytes
import Verif.Model.Gzip
/-!
# A Disk store on a file system of bytes

`CDisk` (Verif.Model.ConcurrentDisk) gives every file of the store three contents of its own, as objects of FlatBuffers.  Here the same store has one file system
(`FS`): paths are joined as in /repo/storage/DiskIO.go, directories are made and listed, every file is read, unpacked and decoded from its bytes, every byte
that is written is a step, and SecureSaveFile is its system calls.  What concerns no file is taken from `CDisk`: maps, cache, clients, channels, buffers.
`z` is CompressData: any function whose result is a gzip file of its argument.

Simplifications: MkdirAll is one step, also together with opening the new fragment; listing `temp` and reading `index` is one step; directories are listed in the order in which they were made.
-/
namespace Goir

/-- the form of `uuid.New().String()` (/repo/storage/DiskIO.go:358): 36 characters and no slash. -/
def IsUuid (s : String) : Prop := s.length = 36 ∧ '/' ∉ s.toList

instance (s : String) : Decidable (IsUuid s) := inferInstanceAs (Decidable (_ ∧ _))

/-- the store. `d` is what is in memory; its files are not used (they stay empty). While a writer is inside SecureSaveFile, `save…` says where; its loop (in `d`) is at the key
that is being saved. `frag` is the fragment that is being written and how much of it is. (/repo/storage/DiskStorage.go:11-23, /repo/storage/DiskIO.go:14-16) -/
structure BDisk where
  fs : FS
  d : CDisk := {}
  saveM : Option (SaveCall × SavePc) := none
  saveN : Option (SaveCall × SavePc) := none
  saveD : Option (SaveCall × SavePc) := none
  saveI : Option (SaveCall × SavePc) := none
  frag : Option (Bytes × Nat) := none

namespace BDisk

/-- the process ends (a panic, log.Fatalf, a crash): the file system remains. (no code: the process is gone) -/
def kill (s : BDisk) : BDisk := { fs := s.fs, d := s.d.stop s.d.ix.killed }

/-! ### reading -/

/-- `DeserializeIndex(file.DecompressData(buf))` (/repo/storage/DiskIO.go:82, 113). -/
def decodeIndex (buf : Bytes) : Option (GoMap String (GoMap String Bool)) := (Gzip.decompressData buf).bind FBB.deserializeIndex

/-- `DeserializeFieldMap(file.DecompressData(buf))` (/repo/storage/DiskIO.go:68). -/
def decodeFields (buf : Bytes) : Option (GoMap String Field) := (Gzip.decompressData buf).bind FBB.deserializeFieldMap

/-- `DeserializeFieldSizeLength(file.DecompressData(buf))` (/repo/storage/DiskIO.go:55). -/
def decodeMetrics (buf : Bytes) : Option (String × Int × Int) := (Gzip.decompressData buf).bind FBB.deserializeFieldSizeLength

/-- `DeserializeNumberFieldTerm(file.DecompressData(buf))` (/repo/storage/DiskIO.go:35). -/
def decodeCounts (buf : Bytes) : Option (GoMap String Int) := (Gzip.decompressData buf).bind FBB.deserializeNumberFieldTerm

/-- `filepath.Join(d.RootFolder, file.Documents, file.DocumentsMetrics)` (/repo/storage/DiskIO.go:63, 207). -/
def docDir (root : Path) : Path := join (join root "docs") "metrics"

/-- `filepath.Join(d.RootFolder, field, file.Temp)` (/repo/storage/DiskIO.go:97, 355). -/
def tempDir (root : Path) (field : String) : Path := join (join root field) "temp"

/-- `LoadFieldDocumentOnHD` (/repo/storage/DiskIO.go:62-69): `none` is a panic, `some none` is the result false. -/
def loadDoc (fs : FS) (root : Path) (id : String) : Option (Option (GoMap String Field)) :=
  match fs.readFile (join (docDir root) id) with
  | none => some none
  | some buf => (decodeFields buf).map some

/-- one iteration of LoadFieldSizeLengthOnHD (/repo/storage/DiskIO.go:44-58); `none` is a panic or an error. -/
def loadM1 (fs : FS) (root : Path) (acc : GoMap String Int × GoMap String Int) (field : String) : Option (GoMap String Int × GoMap String Int) :=
  if fs.exists_ (join (join root field) "metrics") then
    ((fs.readFile (join (join root field) "metrics")).bind decodeMetrics).map fun e => (acc.1.set e.1 e.2.1, acc.2.set e.1 e.2.2)
  else some acc

/-- `LoadFieldSizeLengthOnHD` (/repo/storage/DiskIO.go:40-60). -/
def loadM (fs : FS) (root : Path) : Option (GoMap String Int × GoMap String Int) := (fs.listDirectories root).foldlM (loadM1 fs root) ([], [])

/-- one iteration of LoadNumberFieldTermOnHD (/repo/storage/DiskIO.go:26-36); `none` is a panic or an error. -/
def loadN1 (fs : FS) (root : Path) (acc : GoMap String (GoMap String Int)) (field : String) : Option (GoMap String (GoMap String Int)) :=
  if fs.exists_ (join (join root field) "nfterm") then ((fs.readFile (join (join root field) "nfterm")).bind decodeCounts).map fun m => acc.set field m
  else some acc

/-- `LoadNumberFieldTermOnHD` (/repo/storage/DiskIO.go:23-38). -/
def loadN (fs : FS) (root : Path) : Option (GoMap String (GoMap String Int)) := (fs.listDirectories root).foldlM (loadN1 fs root) []

/-- `LoadTermDocumentsFromIndex` (/repo/storage/DiskIO.go:71-90): `none` is a panic, `some none` an error. -/
def loadTerms (fs : FS) (root : Path) (field : String) : Option (Option Postings) :=
  if fs.exists_ (join (join root field) "index") then
    match fs.readFile (join (join root field) "index") with
    | none => some none
    | some buf => (decodeIndex buf).map fun p => some (IxState.loadPostings p)
  else some (some [])

/-! ### writing -/

/-- the flush loop of one of the three writers (/repo/storage/DiskIO.go:206-217, 248-258, 284-302): the file system afterwards, and the loop afterwards
(`none`: the process has ended). -/
def flush {B : Type} (z : Bytes → Bytes) (dir : String → Path) (name : String → String) (ser : String → B → Option Bytes) (fs : FS) (fl : Flusher B) :
    Option (SaveCall × SavePc) → Option (FS × Option (Flusher B × Option (SaveCall × SavePc)))
  | none =>
    match fl.pc with
    | .flushing [] => some (fs, some ({ fl with pc := .idle }, none))
    | .flushing (k :: _) =>
      match fl.buf.get? k with
      | none => none
      | some v =>
        match fs.mkdirAll (dir k) with
        | none => some (fs, none)                                      -- CreteDirIfNotExist: log.Fatalf
        | some fs' =>
          match ser k v with
          | none => some (fs', none)                                   -- the serializer panics
          | some raw => some (fs', some (fl, some (⟨dir k, name k, z raw⟩, .start)))
    | _ => none
  | some (_, .done) =>
    match fl.pc with
    | .flushing (k :: rest) => some (fs, some ({ fl with buf := fl.buf.del k, pc := .flushing rest }, none))
    | _ => none
  | some (c, pc) =>
    match c.step (fs, pc) with
    | none => none
    | some (fs', .failed) => some (fs', none)                          -- log.Fatalf
    | some (fs', pc') => some (fs', some (fl, some (c, pc')))

/-- `LoadIndexOnHD` returns an error: NewDiskStore fails, or the background goroutine ends (/repo/storage/DiskStorage.go:36-38, 79-81). -/
def loadError (s : BDisk) : BDisk :=
  if s.d.ix.proc = .opening then s.kill else { s with d := { s.d with ix := { s.d.ix with merger := .dead } }, saveI := none }

/-- the merge is now at `m`. (bookkeeping; /repo/storage/DiskIO.go:92-151) -/
def setMerger (s : BDisk) (m : MergePc) : BDisk := { s with d := { s.d with ix := { s.d.ix with merger := m } } }

/-- one step of LoadIndexOnHD (/repo/storage/DiskIO.go:92-151). -/
def mergeStep (z : Bytes → Bytes) (root : Path) (s : BDisk) : Option BDisk :=
  match s.d.ix.merger, s.saveI with
  | .atField [] acc, _ =>
    if s.d.ix.proc = .opening then some { s with d := { s.d with ix := { s.d.ix with proc := .up, mem := acc, merger := .idle } } }
    else some (s.setMerger .idle)
  | .atField (f :: rest) acc, _ =>                                                      -- 97-104
    match s.fs.mkdirAll (tempDir root f) with
    | none => some s.kill
    | some fs =>
      match loadTerms fs root f with
      | none => some { s with fs := fs }.kill
      | some none => some { s with fs := fs }.loadError
      | some (some td) => some ({ s with fs := fs }.setMerger (.reading f rest [] (fs.listFiles (tempDir root f)) td acc))
  | .reading f rest seen (n :: ns) td acc, _ =>                                          -- 106-124
    match s.fs.readFile (join (tempDir root f) n) with
    | none => some s.loadError
    | some buf =>
      match decodeIndex buf with
      | none => some s.kill
      | some p => some (s.setMerger (.reading f rest (seen ++ [n]) ns (IxState.mergeInto td p) acc))
  | .reading f _ _ [] td _, none =>                                                      -- 125-136
    match FBB.serializeIndex td with
    | none => some s.kill
    | some raw =>
      match s.fs.mkdirAll (join root f) with
      | none => some s.kill
      | some fs => some { s with fs := fs, saveI := some (⟨join root f, "index", z raw⟩, .start) }
  | .reading f rest seen [] td acc, some (_, .done) => some { s.setMerger (.deleting f rest seen (acc.set f td)) with saveI := none }
  | .reading _ _ _ [] _ _, some (c, pc) =>                                               -- 136-139
    match c.step (s.fs, pc) with
    | none => none
    | some (fs, .failed) => some { s with fs := fs }.loadError
    | some (fs, pc) => some { s with fs := fs, saveI := some (c, pc) }
  | .deleting _ rest [] acc, _ => some (s.setMerger (.atField rest acc))
  | .deleting f rest (n :: ns) acc, _ =>                                                 -- 142-148
    match s.fs.remove (join (tempDir root f) n) with
    | none => some s.loadError
    | some fs => some ({ s with fs := fs }.setMerger (.deleting f rest ns acc))
  | _, _ => none

/-- the index writer opens the fragment of the next field (/repo/storage/DiskIO.go:353-360); `name` is the uuid, not in use. -/
def create (z : Bytes → Bytes) (root : Path) (name : String) (s : BDisk) : Option BDisk :=
  match s.d.ix.writer, s.frag with
  | .flushing ((f, p) :: rest) none, none =>
    match FBB.serializeIndex p with
    | none => some s.kill
    | some raw =>
      match s.fs.mkdirAll (tempDir root f) with
      | none => some s.kill
      | some fs =>
        if IsUuid name ∧ fs.get? (join (tempDir root f) name) = none then
          match fs.create (join (tempDir root f) name) with
          | none => some { s with fs := fs }.kill
          | some fs' => some { s with fs := fs', d := { s.d with ix := { s.d.ix with writer := .flushing ((f, p) :: rest) (some name) } }, frag := some (z raw, 0) }
        else none
  | _, _ => none

/-- the index writer writes a byte, or is done with the fragment (/repo/storage/DiskIO.go:360). -/
def write (root : Path) (s : BDisk) : Option BDisk :=
  match s.d.ix.writer, s.frag with
  | .flushing ((f, _) :: rest) (some name), some (bs, n) =>
    if n < bs.length then some { s with fs := s.fs.writeTo (join (tempDir root f) name) (bs.take (n + 1)), frag := some (bs, n + 1) }
    else some { s with d := { s.d with ix := { s.d.ix with writer := .flushing rest none } }, frag := none }
  | _, _ => none

/-- a step of the index writer or of the merge. (/repo/storage/DiskIO.go:92-151, 321-379) -/
def ixExec (z : Bytes → Bytes) (root : Path) (s : BDisk) : IxState.Act → Option BDisk
  | .create name => s.create z root name
  | .write => s.write root
  | .startMerge => if s.d.ix.proc = .up ∧ s.d.ix.merger = .idle then some (s.setMerger (.atField (s.fs.listDirectories root) [])) else none
  | .merge => s.mergeStep z root
  | .recv => (s.d.exec (.ix .recv)).map fun d => { s with d := d }
  | .tick order => (s.d.exec (.ix (.tick order))).map fun d => { s with d := d }
  | .flushed => (s.d.exec (.ix .flushed)).map fun d => { s with d := d }
  | _ => none

/-- `d.diskIO.LoadFieldDocumentOnHD(id)` in GetFields (/repo/storage/DiskStorage.go:128-131), by client `i`. -/
def readDoc (root : Path) (s : BDisk) (i : Nat) (ids : List String) (name id : String) (todo : List String) (out : GoMap String Field) : BDisk :=
  match loadDoc s.fs root id with
  | none => s.kill
  | some none => { s with d := s.d.handoff i (some (.read ids name (.get todo out))) }
  | some (some fd) =>
    { s with d := { s.d with mem := { s.d.mem with docCells := Ref.upd s.d.mem.docCells ⟨id, s.d.mem.next⟩ fd, next := s.d.mem.next + 1 } }.handoff i (some (.read ids name (.put id ⟨id, s.d.mem.next⟩ todo (CDisk.found out id (fd.get? name))))) }

/-- the effect of an action, `none` if it is not possible. (/repo/storage/DiskStorage.go:25-228, /repo/storage/DiskIO.go:23-379) -/
def exec (z : Bytes → Bytes) (root : Path) (s : BDisk) : CDisk.Act → Option BDisk
  | .client i k =>
    match s.d.curOf i with
    | some (.read ids name (.load id todo out)) => if s.d.up then some (s.readDoc root i ids name id todo out) else none
    | _ => (s.d.exec (.client i k)).map fun d => { s with d := d }
  | .recvM i => (s.d.exec (.recvM i)).map fun d => { s with d := d }
  | .recvN i => (s.d.exec (.recvN i)).map fun d => { s with d := d }
  | .recvD i => (s.d.exec (.recvD i)).map fun d => { s with d := d }
  | .tickM order => (s.d.exec (.tickM order)).map fun d => { s with d := d }
  | .tickN order => (s.d.exec (.tickN order)).map fun d => { s with d := d }
  | .tickD order => (s.d.exec (.tickD order)).map fun d => { s with d := d }
  | .stepM =>
    (flush z (join root) (fun _ => "metrics") (fun f v => FBB.serializeFieldSizeLength f (toInt32 v.1) (toInt32 v.2)) s.fs s.d.mx s.saveM).map fun
      | (fs, none) => { s with fs := fs }.kill
      | (fs, some (mx, sv)) => { s with fs := fs, d := { s.d with mx := mx }, saveM := sv }
  | .stepN =>
    (flush z (join root) (fun _ => "nfterm") (fun _ v => FBB.serializeNumberFieldTerm v) s.fs s.d.nf s.saveN).map fun
      | (fs, none) => { s with fs := fs }.kill
      | (fs, some (nf, sv)) => { s with fs := fs, d := { s.d with nf := nf }, saveN := sv }
  | .stepD =>
    (flush z (fun _ => docDir root) id (fun _ r => FBB.serializeFieldMap (s.d.mem.docCells r)) s.fs s.d.fl s.saveD).map fun
      | (fs, none) => { s with fs := fs }.kill
      | (fs, some (fl, sv)) => { s with fs := fs, d := { s.d with fl := fl }, saveD := sv }
  | .ix a => if s.d.up ∨ s.d.ix.proc = .opening then s.ixExec z root a else none
  | .crash => if s.d.ix.proc = .down then none else some s.kill
  | .open_ =>
    if s.d.ix.proc = .down then
      some { s with d := { s.d with ix := { s.d.ix with proc := .opening, panicked := false, merger := .atField (s.fs.listDirectories root) [] } } }
    else none
  | .openRest n progs =>
    if s.d.ix.proc = .up ∧ s.d.up = false then
      match loadM s.fs root, loadN s.fs root with
      | some (size, length), some nft =>
        some { s with d := { s.d with up := true, mem := CMem.loaded s.d.ix.mem size length nft, cache := LRU.new n, clients := progs.map fun p => { todo := p } } }
      | _, _ => some s.kill
    else none

/-- a sequence of actions. (/repo/storage/DiskStorage.go:25-228, /repo/storage/DiskIO.go:23-379) -/
def run (z : Bytes → Bytes) (root : Path) (s : BDisk) (as : List CDisk.Act) : Option BDisk := as.foldlM (exec z root) s

end BDisk
end Goir
