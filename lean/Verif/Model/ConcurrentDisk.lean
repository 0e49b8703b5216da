import Verif.Model.Concurrent
import Verif.Model.DiskStore
/-!
# Several clients calling one Disk store (`storage/DiskStorage.go`, called from the concurrent handlers of /repo/main.go:122-190)

The field `mu` of the store (/repo/storage/DiskStorage.go:22) is never locked, so the calls of different clients interleave; they share the
channels to the four writer goroutines. A step of a client is one access to one Go map, one call on the cache, one message or one file read.
The accesses to `d.fieldSize`, `d.fieldLength`, `d.index` and `d.numberFieldTerm` are those of the Memory store (`CMem.exec`; the
code of /repo/storage/DiskStorage.go:142-143, 152-168, 193-218 is that of /repo/storage/Memory.go:16-35, 102-110 with sends added).

Simplifications, in favour of the code: a map access and a call on the cache are atomic here, and the value that `cache.Get` points to is read at once;
a document file is read in one step. The parts that run in the background (writers, merge, crash, opening) are those of the models with one client.
-/
namespace Goir

/-- a call of a client. (model of the clients of /repo/storage/DiskStorage.go:118-228) -/
inductive DOp where
  | write (op : StoreOp)
  | getFields (ids : List String) (name : String)
deriving DecidableEq, Repr

/-- where a client is inside SaveOrUpdate or UpdateIndex: what it does next (/repo/storage/DiskStorage.go). -/
inductive WLoc where
  /-- an access of the same kind as in the Memory store: sizes and lengths (:142-143), postings (:193-218), frequencies (:153-159, 167) -/
  | acc (l : CMem.Loc)
  /-- `Length: d.fieldLength[field.Name]` (:147) -/
  | msgLen
  /-- `Size: d.fieldSize[field.Name]` (:148) -/
  | msgSize (len : Int)
  /-- the send on the unbuffered fieldCh (:145) -/
  | sendM (size len : Int)
  /-- the send on indexCh (:205, :212) -/
  | sendI (r : Ref String) (key : String) (todo : List String)
  /-- `Size: fieldTerm[term]` (:163) -/
  | msgN (r : Ref String) (key : String) (todo : List String)
  /-- the send on the unbuffered numberFieldTermCh (:160) -/
  | sendN (r : Ref String) (key : String) (n : Int) (todo : List String)
  /-- `d.fieldDocumentCache.Get(documentId)` (:175-179) -/
  | docGet
  /-- `fieldIndex[field.Name] = field` (:181) -/
  | docSet (r : Ref String)
  /-- `d.fieldDocumentCache.Put(documentId, fieldIndex)` (:182) -/
  | docPut (r : Ref String)
  /-- the send on the unbuffered documentFieldCh (:184) -/
  | sendD (r : Ref String)
deriving DecidableEq, Repr

/-- where a client is inside GetFields (/repo/storage/DiskStorage.go:118-139); `out` is `fields`. -/
inductive RLoc where
  /-- `d.fieldDocumentCache.Get(id)` for the next id (:122) -/
  | get (todo : List String) (out : GoMap String Field)
  /-- `fieldDocument[fieldName]` (:124) -/
  | field (id : String) (r : Ref String) (todo : List String) (out : GoMap String Field)
  /-- `d.diskIO.LoadFieldDocumentOnHD(id)` and the lookup in the new map (:128-131) -/
  | load (id : String) (todo : List String) (out : GoMap String Field)
  /-- `d.fieldDocumentCache.Put(id, fieldDocument)` (:132) -/
  | put (id : String) (r : Ref String) (todo : List String) (out : GoMap String Field)
deriving DecidableEq, Repr

/-- the call a client is in. (model of the clients of /repo/storage/DiskStorage.go:118-228) -/
inductive DCur where
  | write (op : StoreOp) (loc : WLoc)
  | read (ids : List String) (name : String) (loc : RLoc)
deriving DecidableEq, Repr

/-- a client: the calls it will make, and the call it is in. (model of the clients of /repo/storage/DiskStorage.go:118-228) -/
structure DClient where
  todo : List DOp := []
  cur : Option DCur := none
deriving DecidableEq, Repr

/-- the maps of a store that has just been opened, made from what was loaded (/repo/storage/DiskStorage.go:55-67). -/
def CMem.loaded (index : GoMap String Postings) (size length : GoMap String Int) (nft : GoMap String (GoMap String Int)) : CMem where
  fieldSize := size
  fieldLength := length
  index := index.map fun e => (e.1, ⟨e.1, 0⟩)
  idxCells r := if r.n = 0 then ((index.get? r.tag).getD []).map fun e => (e.1, ⟨(r.tag, e.1), 0⟩) else []
  setCells r := if r.n = 0 then (((index.get? r.tag.1).getD []).get? r.tag.2).getD [] else []
  numberFieldTerm := nft.map fun e => (e.1, ⟨e.1, 0⟩)
  nftCells r := if r.n = 0 then (nft.get? r.tag).getD [] else []
  next := 1

/-- a Disk store, its clients and its folder. (/repo/storage/DiskStorage.go:11-23) -/
structure CDisk where
  up : Bool := false
  /-- d.index, d.fieldSize, d.fieldLength, d.numberFieldTerm and the maps behind them; `docCells` are the maps `map[string]model.Field` -/
  mem : CMem := {}
  /-- d.fieldDocumentCache -/
  cache : LRU (Ref String) := LRU.new 0
  clients : List DClient := []
  /-- indexCh, the index writer, the merge goroutine and their files. (`ix.mem` is what was loaded when the store was opened, then what it would be
  if no access were lost; the maps that the store uses are in `mem`.) -/
  ix : IxState := {}
  /-- SaveFieldSizeLengthOnDisc -/
  mx : Flusher (Int × Int) := {}
  /-- SaveNumberFieldTermOnDisk -/
  nf : Flusher (GoMap String Int) := {}
  /-- SaveDocumentFieldOnDisk; its buffer holds the live maps -/
  fl : Flusher (Ref String) := {}
  /-- the calls of SaveOrUpdate and UpdateIndex begun in earlier processes, begun in this one, and returned in this one -/
  earlier : List StoreOp := []
  begun : List StoreOp := []
  returned : List StoreOp := []
  /-- what GetFields returned in this process -/
  answers : List (List String × String × GoMap String Field) := []

namespace CDisk

/-- the first step of a write: SaveOrUpdate begins with UpdateFieldSizeLength (/repo/storage/DiskStorage.go:222-224), UpdateIndex with `d.index[field.Name]` (:193). -/
def start : StoreOp → WLoc
  | .save .. => .acc .sizeRead
  | .updateIndex .. => .acc .idxLook

/-- where a write goes after an access that the Memory store has too: the messages come in between, and UpdateFieldDocument at the end
(/repo/storage/DiskStorage.go:145, 205, 212, 160, 227). `o` is where the Memory store would go. -/
def cont (l : CMem.Loc) (o : Option CMem.Loc) : Option WLoc :=
  match l with
  | .lenWrite _ => some .msgLen
  | .postNew r key ts => some (.sendI r key ts)
  | .postAdd r key _ ts => some (.sendI r key ts)
  | .termWrite r key _ ts => some (.msgN r key ts)
  | .nftStore _ => some .docGet
  | _ => o.map .acc

/-- one step of a write (/repo/storage/DiskStorage.go:141-228): the store afterwards and the next step (`none`: the call returns). The sends on
unbuffered channels are not here: they need the receiver. `k` says which of the remaining keys a `range` loop takes next. -/
def wexec (s : CDisk) (op : StoreOp) (k : Nat) : WLoc → Option (CDisk × Option WLoc)
  | .acc l => (CMem.exec s.mem op k l).map fun x => ({ s with mem := x.1 }, cont l x.2)
  | .msgLen => some (s, some (.msgSize (s.mem.fieldLength.getD op.field.name 0)))
  | .msgSize len => some (s, some (.sendM (s.mem.fieldSize.getD op.field.name 0) len))
  | .sendI r key ts => (s.ix.exec (.post op.field.name key op.doc)).map fun ix => ({ s with ix := ix }, some (.acc (.post r ts)))
  | .msgN r key ts => some (s, some (.sendN r key ((s.mem.nftCells r).getD key 0) ts))
  | .docGet =>
    match s.cache.get op.doc with
    | (c, some r) => some ({ s with cache := c }, some (.docSet r))
    | (c, none) =>
      some ({ s with cache := c, mem := { s.mem with docCells := Ref.upd s.mem.docCells ⟨op.doc, s.mem.next⟩ [], next := s.mem.next + 1 } }, some (.docSet ⟨op.doc, s.mem.next⟩))
  | .docSet r => some ({ s with mem := { s.mem with docCells := Ref.upd s.mem.docCells r ((s.mem.docCells r).set op.field.name op.field) } }, some (.docPut r))
  | .docPut r => (s.cache.put op.doc r).map fun c => ({ s with cache := c }, some (.sendD r))
  | .sendM .. => none
  | .sendN .. => none
  | .sendD .. => none

/-- `LoadFieldDocumentOnHD` (/repo/storage/DiskIO.go:62-69): `none` is a panic, `some none` is the result false. -/
def load (s : CDisk) (d : String) : Option (Option (GoMap String Field)) :=
  match (s.fl.file d).cur with
  | none => some none
  | some .torn => none
  | some (.full b) => (deserializeFieldMap b).map some

/-- `if field, ok := fieldDocument[fieldName]; ok { fields[id] = field }` (/repo/storage/DiskStorage.go:124-126, 129-131). -/
def found (out : GoMap String Field) (id : String) : Option Field → GoMap String Field
  | some f => out.set id f
  | none => out

/-- one step of GetFields (/repo/storage/DiskStorage.go:118-139): `Sum.inr` is the result. -/
def rexec (s : CDisk) (name : String) : RLoc → Option (CDisk × (RLoc ⊕ GoMap String Field))
  | .get [] out => some (s, .inr out)
  | .get (id :: todo) out =>
    match s.cache.get id with
    | (c, some r) => some ({ s with cache := c }, .inl (.field id r todo out))
    | (c, none) => some ({ s with cache := c }, .inl (.load id todo out))
  | .field id r todo out => some (s, .inl (.get todo (found out id ((s.mem.docCells r).get? name))))
  | .load id todo out =>
    match s.load id with
    | none => none
    | some none => some (s, .inl (.get todo out))
    | some (some fd) =>
      some ({ s with mem := { s.mem with docCells := Ref.upd s.mem.docCells ⟨id, s.mem.next⟩ fd, next := s.mem.next + 1 } }, .inl (.put id ⟨id, s.mem.next⟩ todo (found out id (fd.get? name))))
  | .put id r todo out => (s.cache.put id r).map fun c => ({ s with cache := c }, .inl (.get todo out))

/-- client `i` is now in `cur`. (bookkeeping of the model) -/
def setCur (s : CDisk) (i : Nat) (cl : DClient) (cur : Option DCur) : CDisk := { s with clients := s.clients.set i { cl with cur := cur } }

/-- client `i` takes a step: it begins its next call or goes on with the call it is in. (model of the clients of /repo/storage/DiskStorage.go:118-228) -/
def client (s : CDisk) (i k : Nat) : Option CDisk :=
  match s.clients[i]? with
  | none => none
  | some cl =>
    match cl.cur with
    | none =>
      match cl.todo with
      | [] => none
      | .write op :: rest => some { s with clients := s.clients.set i { todo := rest, cur := some (.write op (start op)) }, begun := s.begun ++ [op] }
      | .getFields ids name :: rest => some { s with clients := s.clients.set i { todo := rest, cur := some (.read ids name (.get ids [])) } }
    | some (.write op loc) =>
      match s.wexec op k loc with
      | none => none
      | some (s', some loc') => some (s'.setCur i cl (some (.write op loc')))
      | some (s', none) => some { s'.setCur i cl none with returned := s'.returned ++ [op] }
    | some (.read ids name loc) =>
      match s.rexec name loc with
      | none => none
      | some (s', .inl loc') => some (s'.setCur i cl (some (.read ids name loc')))
      | some (s', .inr out) => some { s'.setCur i cl none with answers := s'.answers ++ [(ids, name, out)] }

/-- what the client `i` is in. (bookkeeping of the model) -/
def curOf (s : CDisk) (i : Nat) : Option DCur := (s.clients[i]?).bind DClient.cur

/-- a send on an unbuffered channel meets the receive in the writer's select: client `i` goes on. (the channels of /repo/storage/DiskStorage.go:53-72) -/
def handoff (s : CDisk) (i : Nat) (next : Option DCur) : CDisk := { s with clients := s.clients.modify i fun cl => { cl with cur := next } }

/-- what can happen next. (/repo/storage/DiskStorage.go:25-228, /repo/storage/DiskIO.go:189-379) -/
inductive Act where
  | client (i k : Nat)
  | recvM (i : Nat)               -- client `i`'s send on fieldCh meets the receive (DiskStorage.go:145-149, DiskIO.go:277-281)
  | recvN (i : Nat)               -- client `i`'s send on numberFieldTermCh meets the receive (DiskStorage.go:160-164, DiskIO.go:234-245)
  | recvD (i : Nat)               -- client `i`'s send on documentFieldCh meets the receive (DiskStorage.go:184-187, DiskIO.go:200-203); its call returns
  | ix (a : IxState.Act)          -- the index writer and the merge goroutine
  | tickM (order : List String)   -- the writers' tickers and the steps of their flushes
  | stepM
  | tickN (order : List String)
  | stepN
  | tickD (order : List String)
  | stepD
  | crash
  | open_                                                     -- NewDiskStore begins: LoadIndexOnHD (DiskStorage.go:34-38)
  | openRest (cacheSize : Int) (progs : List (List DOp))      -- NewDiskStore: the rest (DiskStorage.go:41-87); then the clients begin
deriving DecidableEq, Repr

/-- the process is gone; only the files remain. The index part has already been stopped. (the end of a process; no code) -/
def stop (s : CDisk) (ix : IxState) : CDisk := { ix := ix, mx := s.mx.killed, nf := s.nf.killed, fl := s.fl.killed, earlier := s.earlier ++ s.begun }

/-- the effect of an action, `none` if it is not possible (or a client panics). (/repo/storage/DiskStorage.go:25-228, /repo/storage/DiskIO.go:189-379) -/
def exec (s : CDisk) : Act → Option CDisk
  | .client i k => if s.up then s.client i k else none
  | .recvM i =>
    match s.curOf i with
    | some (.write op (.sendM size len)) => (s.mx.recv op.field.name fun _ => (size, len)).map fun mx => { s with mx := mx }.handoff i (some (.write op (.acc .idxLook)))
    | _ => none
  | .recvN i =>
    match s.curOf i with
    | some (.write op (.sendN r key n ts)) => (s.nf.recv op.field.name (CtState.putN key n)).map fun nf => { s with nf := nf }.handoff i (some (.write op (.acc (.term r ts))))
    | _ => none
  | .recvD i =>
    match s.curOf i with
    | some (.write op (.sendD r)) => (s.fl.recv op.doc fun _ => r).map fun fl => { s with fl := fl, returned := s.returned ++ [op] }.handoff i none
    | _ => none
  | .ix a =>
    if Disk.ixBackground a ∧ (s.up ∨ s.ix.proc = .opening) then
      (s.ix.exec a).map fun ix => if ix.proc = .down then s.stop ix else { s with ix := ix }
    else none
  | .tickM order => if s.up then (s.mx.tick order).map fun mx => { s with mx := mx } else none
  | .stepM => (s.mx.step CtState.serM).map fun mx => { s with mx := mx }
  | .tickN order => if s.up then (s.nf.tick order).map fun nf => { s with nf := nf } else none
  | .stepN => (s.nf.step CtState.serN).map fun nf => { s with nf := nf }
  | .tickD order => if s.up then (s.fl.tick order).map fun fl => { s with fl := fl } else none
  | .stepD => (s.fl.step fun _ r => serializeFieldMap (s.mem.docCells r)).map fun fl => { s with fl := fl }
  | .crash => (s.ix.exec .crash).map s.stop
  | .open_ => (s.ix.exec .open_).map fun ix => { s with ix := ix }
  | .openRest n progs =>
    if s.ix.proc = .up ∧ s.up = false then
      match CtState.loadM s.mx.files, CtState.loadN s.nf.files with
      | some (size, length), some nft =>
        some { s with up := true, mem := CMem.loaded s.ix.mem size length nft, cache := LRU.new n, clients := progs.map fun p => { todo := p } }
      | _, _ => none
    else none

/-- a sequence of actions. (/repo/storage/DiskStorage.go:25-228, /repo/storage/DiskIO.go:189-379) -/
def run (s : CDisk) (as : List Act) : Option CDisk := as.foldlM exec s

/-- `GetDocuments` (/repo/storage/DiskStorage.go:109-116). -/
def getDocuments (s : CDisk) (f t : String) : GoSet × Bool := s.mem.view.getDocuments f t
/-- `GetFieldSize` (/repo/storage/DiskStorage.go:101-103). -/
def getFieldSize (s : CDisk) (f : String) : Int := s.mem.view.getFieldSize f
/-- `GetFieldLength` (/repo/storage/DiskStorage.go:97-99). -/
def getFieldLength (s : CDisk) (f : String) : Int := s.mem.view.getFieldLength f
/-- `GetNumberFieldTerm` (/repo/storage/DiskStorage.go:89-95). -/
def getNumberFieldTerm (s : CDisk) (f : String) (terms : List String) : GoMap String Int := s.mem.view.getNumberFieldTerm f terms

end CDisk
end Goir
