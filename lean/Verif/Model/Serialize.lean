import Verif.Model.Types
/-!
# Package `storage`: serialization (`storage/Serialize.go`, `storage/buffers/*.go`)

The FlatBuffers runtime (github.com/google/flatbuffers/go) is not part of the repository.  It is modelled here at the level
of *objects*: a buffer is a sequence of strings, vectors and tables, an offset names one of them, a table is its list of
slots.  What is kept from the library: the nesting discipline of the builder (a string, vector or table may not be started
inside another one: the library panics, here `none`), offsets must already exist, slots equal to their default are omitted
and read back as the default, `Finish` records the root.  What is dropped: byte layout, alignment, vtable deduplication and the
2 GiB limit of a buffer.
-/
namespace Goir

/-- Go's conversion `int32(x)`: the representative of `x` modulo `2^32` in `[-2^31, 2^31)`
(used in /repo/storage/Serialize.go:45,96,109 and /repo/storage/DiskIO.go). -/
def toInt32 (x : Int) : Int := Int.bmod x 4294967296

namespace FB

/-- a present table slot: an `int32` or an offset. (flatbuffers, imported at /repo/storage/Serialize.go:3-8) -/
inductive Slot where
  | i32 (v : Int)
  | off (o : Nat)
deriving DecidableEq, Repr

/-- an object of a buffer. `vec` keeps the element count given to `EndVector` and the elements. (flatbuffers, imported at /repo/storage/Serialize.go:3-8) -/
inductive Obj where
  | str (s : String)
  | vec (len : Nat) (els : List Nat)
  | tab (slots : List (Option Slot))
deriving DecidableEq, Repr

/-- what the builder is in the middle of. (flatbuffers, imported at /repo/storage/Serialize.go:3-8) -/
inductive Building where
  | idle
  | vec (els : List Nat)
  | tab (slots : List (Option Slot))
deriving DecidableEq, Repr

/-- `flatbuffers.Builder`: finished objects, oldest first; the object at list position `i` has offset `i + 1`. (flatbuffers, imported at /repo/storage/Serialize.go:3-8) -/
structure Builder where
  objs : List Obj := []
  cur  : Building := .idle
deriving DecidableEq, Repr

/-- a builder action; `none` is a panic of the library. (flatbuffers, imported at /repo/storage/Serialize.go:3-8) -/
abbrev M := StateT Builder Option

/-- `CreateString`: asserts that nothing is being built. (flatbuffers, imported at /repo/storage/Serialize.go:3-8) -/
def createString (s : String) : M Nat := fun b =>
  match b.cur with
  | .idle => some (b.objs.length + 1, ⟨b.objs ++ [.str s], .idle⟩)
  | _ => none

/-- `StartObject(n)`. (flatbuffers, imported at /repo/storage/Serialize.go:3-8) -/
def startObject (n : Nat) : M Unit := fun b =>
  match b.cur with
  | .idle => some ((), ⟨b.objs, .tab (List.replicate n none)⟩)
  | _ => none

/-- `PrependInt32Slot(i, x, 0)`. (flatbuffers, imported at /repo/storage/Serialize.go:3-8) -/
def int32Slot (i : Nat) (x : Int) : M Unit := fun b =>
  match b.cur with
  | .tab sl =>
    if x = 0 then some ((), b)
    else if i < sl.length then some ((), ⟨b.objs, .tab (sl.set i (some (.i32 x)))⟩) else none
  | _ => none

/-- `PrependUOffsetTSlot(i, o, 0)`. (flatbuffers, imported at /repo/storage/Serialize.go:3-8) -/
def offsetSlot (i : Nat) (o : Nat) : M Unit := fun b =>
  match b.cur with
  | .tab sl =>
    if o = 0 then some ((), b)
    else if o ≤ b.objs.length ∧ i < sl.length then some ((), ⟨b.objs, .tab (sl.set i (some (.off o)))⟩) else none
  | _ => none

/-- `EndObject`. (flatbuffers, imported at /repo/storage/Serialize.go:3-8) -/
def endObject : M Nat := fun b =>
  match b.cur with
  | .tab sl => some (b.objs.length + 1, ⟨b.objs ++ [.tab sl], .idle⟩)
  | _ => none

/-- `StartVector(4, n, 4)`. (flatbuffers, imported at /repo/storage/Serialize.go:3-8) -/
def startVector (_n : Nat) : M Unit := fun b =>
  match b.cur with
  | .idle => some ((), ⟨b.objs, .vec []⟩)
  | _ => none

/-- `PrependUOffsetT(o)`: puts an element in front of the vector being built. (flatbuffers, imported at /repo/storage/Serialize.go:3-8) -/
def prependOffset (o : Nat) : M Unit := fun b =>
  match b.cur with
  | .vec els => if 0 < o ∧ o ≤ b.objs.length then some ((), ⟨b.objs, .vec (o :: els)⟩) else none
  | _ => none

/-- `EndVector(n)`. (flatbuffers, imported at /repo/storage/Serialize.go:3-8) -/
def endVector (n : Nat) : M Nat := fun b =>
  match b.cur with
  | .vec els => some (b.objs.length + 1, ⟨b.objs ++ [.vec n els], .idle⟩)
  | _ => none

/-- a finished buffer. (flatbuffers, imported at /repo/storage/Serialize.go:3-8) -/
structure Buf where
  objs : List Obj
  root : Nat
deriving DecidableEq, Repr

/-- `NewBuilder(0)`, run the builder code, then `Finish(root)` and `FinishedBytes()`. (flatbuffers, imported at /repo/storage/Serialize.go:3-8) -/
def finish (act : M Nat) : Option Buf :=
  match act {} with
  | some (r, ⟨objs, .idle⟩) => if 0 < r ∧ r ≤ objs.length then some ⟨objs, r⟩ else none
  | _ => none

/-- the object at an offset. (flatbuffers, imported at /repo/storage/Serialize.go:3-8) -/
def objAt (objs : List Obj) (o : Nat) : Option Obj := if o = 0 then none else objs[o - 1]?

/-- the slot `i` of the table at `pos`: `_tab.Offset(4 + 2 * i)`; `some none` when it is absent, `none` when there is no
table at `pos` (the library would read garbage or panic). (flatbuffers, imported at /repo/storage/Serialize.go:3-8) -/
def slot? (objs : List Obj) (pos i : Nat) : Option (Option Slot) :=
  match objAt objs pos with
  | some (.tab sl) => some (sl.getD i none)
  | _ => none

/-- a string accessor such as `Term.Key` (/repo/storage/buffers/Term.go:44-50): absent reads as nil, i.e. "". -/
def getString (objs : List Obj) (pos i : Nat) : Option String := do
  match ← slot? objs pos i with
  | none => some ""
  | some (.off o) => match objAt objs o with
    | some (.str s) => some s
    | _ => none
  | some (.i32 _) => none

/-- an int32 accessor such as `TermSize.Value` (/repo/storage/buffers/TermSize.go:52-58): absent reads as 0. -/
def getInt32 (objs : List Obj) (pos i : Nat) : Option Int := do
  match ← slot? objs pos i with
  | none => some 0
  | some (.i32 v) => some v
  | some (.off _) => none

/-- a vector length accessor such as `Index.EntriesLength` (/repo/storage/buffers/Index.go:56-62). -/
def getVecLen (objs : List Obj) (pos i : Nat) : Option Nat := do
  match ← slot? objs pos i with
  | none => some 0
  | some (.off o) => match objAt objs o with
    | some (.vec n _) => some n
    | _ => none
  | some (.i32 _) => none

/-- a vector element accessor such as `Index.Entries(obj, j)` (/repo/storage/buffers/Index.go:44-54): `some none` is the
result false, `some (some o)` positions `obj` at `o`. -/
def getVecElem (objs : List Obj) (pos i j : Nat) : Option (Option Nat) := do
  match ← slot? objs pos i with
  | none => some none
  | some (.off o) => match objAt objs o with
    | some (.vec _ els) => match els[j]? with
      | some e => some (some e)
      | none => none
    | _ => none
  | some (.i32 _) => none

/-- a string vector element accessor: `Document.Values(j)` (/repo/storage/buffers/Document.go:44-51); absent is nil, "". -/
def getVecString (objs : List Obj) (pos i j : Nat) : Option String := do
  match ← getVecElem objs pos i j with
  | none => some ""
  | some o => match objAt objs o with
    | some (.str s) => some s
    | _ => none

/-- a sub-table accessor such as `Term.Values(obj)` (/repo/storage/buffers/Term.go:52-63): when the slot is absent the
accessor returns nil and `obj` keeps its previous position `old`. -/
def getTable (objs : List Obj) (pos i : Nat) (old : Option Nat) : Option (Option Nat) := do
  match ← slot? objs pos i with
  | none => some old
  | some (.off o) => some (some o)
  | some (.i32 _) => none

/-- the loop `for i := len(offs)-1; i >= 0; i-- { b.PrependUOffsetT(offs[i]) }` between `StartVector` and `EndVector`
(/repo/storage/Serialize.go:51-55, 101-105, 121-125, 181-185, 199-203). -/
def offsetVector (offs : List Nat) : M Nat := do
  startVector offs.length
  offs.reverse.forM prependOffset
  endVector offs.length

end FB

open FB

/-! ### FieldMetrics -/

/-- `SerializeFieldSizeLength` (/repo/storage/Serialize.go:10-24); slots from /repo/storage/buffers/FieldMetrics.go:76-90. -/
def serializeFieldSizeLength (name : String) (size length : Int) : Option Buf := finish do
  let nameOffset ← createString name
  startObject 3
  offsetSlot 0 nameOffset
  int32Slot 1 size
  int32Slot 2 length
  endObject

/-- `DeserializeFieldSizeLength` (/repo/storage/Serialize.go:26-34); accessors from
/repo/storage/buffers/FieldMetrics.go:44-70. -/
def deserializeFieldSizeLength (buf : Buf) : Option (String × Int × Int) := do
  let name ← getString buf.objs buf.root 0
  let size ← getInt32 buf.objs buf.root 1
  let length ← getInt32 buf.objs buf.root 2
  return (name, size, length)

/-! ### NumberFieldTerm -/

/-- one entry of a term-count map or of a TF map: `TermSize` (/repo/storage/Serialize.go:41-48, buffers/TermSize.go:64-75) and
`TermFrequency` (/repo/storage/Serialize.go:93-98, buffers/TermFrequency.go:64-75) have the same two slots. -/
def serializeCount (p : String × Int) : M Nat := do
  let key ← createString p.1
  startObject 2
  offsetSlot 0 key
  int32Slot 1 (toInt32 p.2)
  endObject

/-- `SerializeNumberFieldTerm` (/repo/storage/Serialize.go:36-64). -/
def serializeNumberFieldTerm (data : GoMap String Int) : Option Buf := finish do
  let termSizes ← data.mapM serializeCount
  let entriesVector ← offsetVector termSizes
  startObject 1
  offsetSlot 0 entriesVector
  endObject

/-- reading the `n` entries of the vector in slot `slot` of the table `pos` into a map, as in
/repo/storage/Serialize.go:73-77 and 154-159; `j` counts up from the first argument. -/
def readCounts (objs : List Obj) (pos slot : Nat) : (j n : Nat) → GoMap String Int → Option (GoMap String Int)
  | _, 0, data => some data
  | j, n + 1, data => do
    match ← getVecElem objs pos slot j with
    | none => readCounts objs pos slot (j + 1) n data
    | some o =>
      let key ← getString objs o 0
      let value ← getInt32 objs o 1
      readCounts objs pos slot (j + 1) n (data.set key value)

/-- `DeserializeNumberFieldTerm` (/repo/storage/Serialize.go:66-80). -/
def deserializeNumberFieldTerm (buf : Buf) : Option (GoMap String Int) := do
  let n ← getVecLen buf.objs buf.root 0
  readCounts buf.objs buf.root 0 0 n []

/-! ### FieldMap -/

/-- one entry of the loop of `SerializeFieldMap` (/repo/storage/Serialize.go:87-119). -/
def serializeFieldEntry (p : String × Field) : M Nat := do
  let keyOffset ← createString p.1
  let nameOffset ← createString p.2.name
  let tfOffsets ← p.2.tf.mapM serializeCount
  let tfVector ← offsetVector tfOffsets
  startObject 3
  offsetSlot 0 nameOffset
  int32Slot 1 (toInt32 p.2.length)
  offsetSlot 2 tfVector
  let fieldOffset ← endObject
  startObject 2
  offsetSlot 0 keyOffset
  offsetSlot 1 fieldOffset
  endObject

/-- `SerializeFieldMap` (/repo/storage/Serialize.go:82-134). -/
def serializeFieldMap (data : GoMap String Field) : Option Buf := finish do
  let fieldEntries ← data.mapM serializeFieldEntry
  let entriesVector ← offsetVector fieldEntries
  startObject 1
  offsetSlot 0 entriesVector
  endObject

/-- the loop of `DeserializeFieldMap` (/repo/storage/Serialize.go:144-162).  `field` is the Go variable of the same name, which
lives across iterations: `none` is its initial zero value, on which the accessors panic.  The reader uses the accessors of
`buffers.FieldMap` (/repo/storage/buffers/FieldMap.go:44-63) although the writer used `FieldEntry`
(/repo/storage/buffers/FieldEntry.go:65-76): the slots are the same. -/
def readFieldEntries (objs : List Obj) (pos : Nat) :
    (i n : Nat) → (field : Option Nat) → GoMap String Field → Option (GoMap String Field)
  | _, 0, _, data => some data
  | i, n + 1, field, data => do
    match ← getVecElem objs pos 0 i with
    | none => readFieldEntries objs pos (i + 1) n field data
    | some fieldMap =>
      let key ← getString objs fieldMap 0
      match ← getTable objs fieldMap 1 field with
      | none => none
      | some f =>
        let name ← getString objs f 0
        let length ← getInt32 objs f 1
        let tfLength ← getVecLen objs f 2
        let tf ← readCounts objs f 2 0 tfLength []
        readFieldEntries objs pos (i + 1) n (some f) (data.set key ⟨name, length, tf⟩)

/-- `DeserializeFieldMap` (/repo/storage/Serialize.go:136-165). -/
def deserializeFieldMap (buf : Buf) : Option (GoMap String Field) := do
  let n ← getVecLen buf.objs buf.root 0
  readFieldEntries buf.objs buf.root 0 n none []

/-! ### Index -/

/-- one entry of the loop of `SerializeIndex` (/repo/storage/Serialize.go:172-197): the flags of the inner map are not
written, only its keys. -/
def serializeTerm (p : String × GoMap String Bool) : M Nat := do
  let keyOffset ← createString p.1
  let valsOffsets ← p.2.keys.mapM createString
  let valuesVector ← offsetVector valsOffsets
  startObject 1
  offsetSlot 0 valuesVector
  let document ← endObject
  startObject 2
  offsetSlot 0 keyOffset
  offsetSlot 1 document
  endObject

/-- `SerializeIndex` (/repo/storage/Serialize.go:167-212). -/
def serializeIndex (data : GoMap String (GoMap String Bool)) : Option Buf := finish do
  let terms ← data.mapM serializeTerm
  let entriesVector ← offsetVector terms
  startObject 1
  offsetSlot 0 entriesVector
  endObject

/-- the inner loop of `DeserializeIndex` (/repo/storage/Serialize.go:235-238). -/
def readValues (objs : List Obj) (pos : Nat) : (j n : Nat) → GoMap String Bool → Option (GoMap String Bool)
  | _, 0, values => some values
  | j, n + 1, values => do
    let value ← getVecString objs pos 0 j
    readValues objs pos (j + 1) n (values.set value true)

/-- the outer loop of `DeserializeIndex` (/repo/storage/Serialize.go:221-241).  `new(buffers.Document)` is fresh in every
iteration: `none`; a false result of `Entries` is `log.Fatalf`, here `none`. -/
def readTerms (objs : List Obj) (pos : Nat) :
    (i n : Nat) → GoMap String (GoMap String Bool) → Option (GoMap String (GoMap String Bool))
  | _, 0, data => some data
  | i, n + 1, data => do
    match ← getVecElem objs pos 0 i with
    | none => none
    | some term =>
      let key ← getString objs term 0
      match ← getTable objs term 1 none with
      | none => none
      | some document =>
        let valuesLen ← getVecLen objs document 0
        let values ← readValues objs document 0 valuesLen []
        readTerms objs pos (i + 1) n (data.set key values)

/-- `DeserializeIndex` (/repo/storage/Serialize.go:214-244). -/
def deserializeIndex (buf : Buf) : Option (GoMap String (GoMap String Bool)) := do
  let n ← getVecLen buf.objs buf.root 0
  readTerms buf.objs buf.root 0 n []

end Goir
