import Verif.Model.Memory
/-!
# Several clients calling one Memory store (`storage/Memory.go`, called from the concurrent handlers of /repo/main.go:125-190)

The store has no lock, so the calls of different clients interleave. A step here is one access to one Go map: `m[k] += 1` is a read and a
write. The nested maps and sets are heap cells behind references, because a client may hold a reference that the outer map no longer has.

Simplification, in favour of the code: a map access is atomic here. Go aborts the program, or worse, when it sees two accesses of one map overlap
of which one is a write (C84 is about that).
-/
namespace Goir

/-- a reference to a heap cell. `tag` is the key under which the cell was meant to be stored when it was made (bookkeeping only);
`n` numbers the allocations, so that no two are equal. (/repo/storage/Memory.go:7-13) -/
structure Ref (K : Type) where
  tag : K
  n : Nat
deriving DecidableEq, Repr

/-- writing a heap cell. (the maps of /repo/storage/Memory.go:7-13) -/
def Ref.upd {K V : Type} [DecidableEq K] (heap : Ref K → V) (r : Ref K) (v : V) : Ref K → V := fun x => if x = r then v else heap x

/-- a map of references, each followed (a Go map of maps is one of references). (the maps of /repo/storage/Memory.go:7-13) -/
def Ref.follow {K R V : Type} (m : GoMap K R) (cell : R → V) : GoMap K V := m.map fun e => (e.1, cell e.2)

/-- `storage.Memory` (/repo/storage/Memory.go:7-13) with its nested maps as heap cells. -/
structure CMem where
  fieldDocument : GoMap String (Ref String) := []
  docCells : Ref String → GoMap String Field := fun _ => []
  fieldSize : GoMap String Int := []
  fieldLength : GoMap String Int := []
  index : GoMap String (Ref String) := []
  idxCells : Ref String → GoMap String (Ref (String × String)) := fun _ => []
  setCells : Ref (String × String) → GoSet := fun _ => []
  numberFieldTerm : GoMap String (Ref String) := []
  nftCells : Ref String → GoMap String Int := fun _ => []
  /-- number of allocations so far -/
  next : Nat := 0

namespace CMem

/-- what a reader finds: every reference followed (the methods of /repo/storage/Memory.go:48-94 on this). -/
def view (m : CMem) : Memory where
  index := Ref.follow m.index fun r => Ref.follow (m.idxCells r) m.setCells
  fieldDocument := Ref.follow m.fieldDocument m.docCells
  fieldLength := m.fieldLength
  fieldSize := m.fieldSize
  numberFieldTerm := Ref.follow m.numberFieldTerm m.nftCells

/-- where a client is inside a call: the access it makes next. (model of the clients of /repo/storage/Memory.go:15-120) -/
inductive Loc where
  /-- `m.FieldDocument[documentId]` (Memory.go:115) -/
  | docLook
  /-- `fieldIndex[field.Name] = field` (:116) -/
  | docSet (r : Ref String)
  /-- `m.FieldDocument[documentId] = map...` (:118) -/
  | docNew
  /-- `m.FieldSize[field.Name] += 1` (:16), the read and the write -/
  | sizeRead
  | sizeWrite (n : Int)
  /-- `m.FieldLength[field.Name] += field.Length` (:17) -/
  | lenRead
  | lenWrite (n : Int)
  /-- `m.Index[field.Name]` (:19) -/
  | idxLook
  /-- `m.Index[field.Name] = indexField` (:22-23) -/
  | idxNew
  /-- `indexField[key]` for the next key (:26-27) -/
  | post (r : Ref String) (todo : List String)
  /-- `indexField[key] = set` (:29-31) -/
  | postNew (r : Ref String) (key : String) (todo : List String)
  /-- `set.Add(documentId)` (:33) -/
  | postAdd (r : Ref String) (key : String) (set : Ref (String × String)) (todo : List String)
  /-- `m.NumberFieldTerm[field.Name]` (:102-105) -/
  | nftLook
  /-- `fieldTerm[term] += 1` for the next term (:107-109), the read and the write -/
  | term (r : Ref String) (todo : List String)
  | termWrite (r : Ref String) (term : String) (n : Int) (todo : List String)
  /-- `m.NumberFieldTerm[field.Name] = fieldTerm` (:110) -/
  | nftStore (r : Ref String)
deriving DecidableEq, Repr

/-- the first access of a call: SaveOrUpdate begins with createFieldDocument (/repo/storage/Memory.go:96-97), UpdateIndex with the size (:16). -/
def start : StoreOp → Loc
  | .save .. => .docLook
  | .updateIndex .. => .sizeRead

/-- what follows the loop over the postings: SaveOrUpdate goes on with the frequencies (/repo/storage/Memory.go:99-102). -/
def afterPosts : StoreOp → Option Loc
  | .save .. => some .nftLook
  | .updateIndex .. => none

/-- one access of a call (/repo/storage/Memory.go:15-36, 96-120): the store afterwards and the next access (`none`: the call returns).
`k` says which of the remaining keys a `range` loop takes next. -/
def exec (m : CMem) (op : StoreOp) (k : Nat) : Loc → Option (CMem × Option Loc)
  | .docLook =>
    match m.fieldDocument.get? op.doc with
    | some r => some (m, some (.docSet r))
    | none => some (m, some .docNew)
  | .docSet r => some ({ m with docCells := Ref.upd m.docCells r ((m.docCells r).set op.field.name op.field) }, some .sizeRead)
  | .docNew =>
    some ({ m with docCells := Ref.upd m.docCells ⟨op.doc, m.next⟩ [(op.field.name, op.field)], fieldDocument := m.fieldDocument.set op.doc ⟨op.doc, m.next⟩, next := m.next + 1 }, some .sizeRead)
  | .sizeRead => some (m, some (.sizeWrite (m.fieldSize.getD op.field.name 0)))
  | .sizeWrite n => some ({ m with fieldSize := m.fieldSize.set op.field.name (n + 1) }, some .lenRead)
  | .lenRead => some (m, some (.lenWrite (m.fieldLength.getD op.field.name 0)))
  | .lenWrite n => some ({ m with fieldLength := m.fieldLength.set op.field.name (n + op.field.length) }, some .idxLook)
  | .idxLook =>
    match m.index.get? op.field.name with
    | some r => some (m, some (.post r op.field.tf.keys))
    | none => some (m, some .idxNew)
  | .idxNew =>
    some ({ m with idxCells := Ref.upd m.idxCells ⟨op.field.name, m.next⟩ [], index := m.index.set op.field.name ⟨op.field.name, m.next⟩, next := m.next + 1 },
      some (.post ⟨op.field.name, m.next⟩ op.field.tf.keys))
  | .post _ [] => some (m, afterPosts op)
  | .post r (t :: ts) =>
    match (t :: ts)[k]? with
    | none => none
    | some key =>
      match (m.idxCells r).get? key with
      | some set => some (m, some (.postAdd r key set ((t :: ts).eraseIdx k)))
      | none => some (m, some (.postNew r key ((t :: ts).eraseIdx k)))
  | .postNew r key ts =>
    some ({ m with setCells := Ref.upd m.setCells ⟨(op.field.name, key), m.next⟩ (GoSet.new.add op.doc), idxCells := Ref.upd m.idxCells r ((m.idxCells r).set key ⟨(op.field.name, key), m.next⟩), next := m.next + 1 },
      some (.post r ts))
  | .postAdd r _ set ts => some ({ m with setCells := Ref.upd m.setCells set ((m.setCells set).add op.doc) }, some (.post r ts))
  | .nftLook =>
    match m.numberFieldTerm.get? op.field.name with
    | some r => some (m, some (.term r op.field.tf.keys))
    | none => some ({ m with nftCells := Ref.upd m.nftCells ⟨op.field.name, m.next⟩ [], next := m.next + 1 }, some (.term ⟨op.field.name, m.next⟩ op.field.tf.keys))
  | .term r [] => some (m, some (.nftStore r))
  | .term r (t :: ts) =>
    match (t :: ts)[k]? with
    | none => none
    | some key => some (m, some (.termWrite r key ((m.nftCells r).getD key 0) ((t :: ts).eraseIdx k)))
  | .termWrite r key n ts => some ({ m with nftCells := Ref.upd m.nftCells r ((m.nftCells r).set key (n + 1)) }, some (.term r ts))
  | .nftStore r => some ({ m with numberFieldTerm := m.numberFieldTerm.set op.field.name r }, none)

end CMem

/-- a client: the calls it will make, and the call it is in. (model of the clients of /repo/storage/Memory.go:15-120) -/
structure CClient where
  todo : List StoreOp := []
  cur : Option (StoreOp × CMem.Loc) := none

/-- a Memory store and its clients; `begun` and `returned` record the calls, oldest first. (model of the clients of /repo/storage/Memory.go:15-120) -/
structure Conc where
  mem : CMem := {}
  clients : List CClient := []
  begun : List StoreOp := []
  returned : List StoreOp := []

namespace Conc

/-- an empty store and clients with their programs. (model of the clients of /repo/storage/Memory.go:15-120) -/
def init (progs : List (List StoreOp)) : Conc := { clients := progs.map fun p => { todo := p } }

/-- client `i` takes a step: it begins its next call or makes the next access of the call it is in. (model of the clients of /repo/storage/Memory.go:15-120) -/
def step (s : Conc) (i k : Nat) : Option Conc :=
  match s.clients[i]? with
  | none => none
  | some cl =>
    match cl.cur with
    | none =>
      match cl.todo with
      | [] => none
      | op :: rest => some { s with clients := s.clients.set i { todo := rest, cur := some (op, CMem.start op) }, begun := s.begun ++ [op] }
    | some (op, loc) =>
      match CMem.exec s.mem op k loc with
      | none => none
      | some (m, some loc') => some { s with mem := m, clients := s.clients.set i { cl with cur := some (op, loc') } }
      | some (m, none) => some { s with mem := m, clients := s.clients.set i { cl with cur := none }, returned := s.returned ++ [op] }

/-- a schedule: which client moves, and the choice of a `range` loop. (model of the clients of /repo/storage/Memory.go:15-120) -/
def run (s : Conc) : List (Nat × Nat) → Option Conc
  | [] => some s
  | (i, k) :: sched => (s.step i k).bind fun s' => run s' sched

end Conc
end Goir
