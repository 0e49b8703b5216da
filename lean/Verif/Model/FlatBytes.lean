import Verif.Model.Serialize
import Verif.Model.FS
/-!
# The bytes of a FlatBuffers file

`Verif.Model.Serialize` keeps a buffer as a list of objects.  This module models what the FlatBuffers runtime
(github.com/google/flatbuffers/go v23.5.26, named in /repo/go.mod) does with bytes: the builder that fills its slice from the back, alignment,
vtables and their reuse, 16- and 32-bit relative offsets, the doubling of the slice up to 2^30 bytes and the panic beyond, and the readers that
follow the offsets.  The runtime's source is not in the repository nor in this sandbox: this is written from its published source, and the
generated code in /repo/storage/buffers is the only code of the repository that calls it.

Simplifications: a slice `b.Bytes` with its head is kept as its length (`cap`) and the part behind the head (`used`; the part before the head is never
read); `-x & (size-1)` is computed as a remainder (`size` is 1, 2 or 4); reading behind the end of a slice panics even when the slice's
capacity would allow it; a Go string is UTF-8 (a key read from a file that is not UTF-8 is a panic of the model only).
-/
namespace Goir

/-- The bytes of a Go string. (Go strings in /repo/storage/Serialize.go:10-244) -/
def utf8 (s : String) : Bytes := s.toByteArray.data.toList

/-- `string(bytes)`. (Go strings in /repo/storage/Serialize.go:10-244) -/
def ofUtf8 (b : Bytes) : Option String := String.fromUTF8? ⟨b.toArray⟩

namespace FBB

/-- two bytes, little endian: `WriteVOffsetT`, `WriteUint16`. (flatbuffers, imported at /repo/storage/Serialize.go:3-8) -/
def le16 (x : Nat) : Bytes := [UInt8.ofNat x, UInt8.ofNat (x / 256)]

/-- four bytes, little endian: `WriteUOffsetT`, `WriteUint32`. (flatbuffers, imported at /repo/storage/Serialize.go:3-8) -/
def le32 (x : Nat) : Bytes := [UInt8.ofNat x, UInt8.ofNat (x / 256), UInt8.ofNat (x / 65536), UInt8.ofNat (x / 16777216)]

/-- the bits of an `int32`: `WriteInt32`, `WriteSOffsetT`. (flatbuffers, imported at /repo/storage/Serialize.go:3-8) -/
def bits32 (x : Int) : Nat := (x % 4294967296).toNat

/-- `GetUint16(buf[pos:])`, `GetVOffsetT(buf[pos:])`; `none` is the panic of the slice expression or of the index. (flatbuffers, imported at /repo/storage/Serialize.go:3-8) -/
def getU16 (buf : Bytes) (pos : Nat) : Option Nat :=
  match buf.drop pos with
  | a :: b :: _ => some (a.toNat + 256 * b.toNat)
  | _ => none

/-- `GetUint32(buf[pos:])`, `GetUOffsetT(buf[pos:])`. (flatbuffers, imported at /repo/storage/Serialize.go:3-8) -/
def getU32 (buf : Bytes) (pos : Nat) : Option Nat :=
  match buf.drop pos with
  | a :: b :: c :: d :: _ => some (a.toNat + 256 * b.toNat + 65536 * c.toNat + 16777216 * d.toNat)
  | _ => none

/-- `GetInt32(buf[pos:])`, `GetSOffsetT(buf[pos:])`. (flatbuffers, imported at /repo/storage/Serialize.go:3-8) -/
def getI32 (buf : Bytes) (pos : Nat) : Option Int := (getU32 buf pos).map fun n => toInt32 n

/-- arithmetic of `uint32`. (flatbuffers, imported at /repo/storage/Serialize.go:3-8) -/
def add32 (a b : Nat) : Nat := (a + b) % 4294967296

/-- `UOffsetT(SOffsetT(pos) - x)`. (flatbuffers, imported at /repo/storage/Serialize.go:3-8) -/
def sub32 (pos : Nat) (x : Int) : Nat := (((pos : Int) - x) % 4294967296).toNat

/-! ### Builder -/

/-- `flatbuffers.Builder`. Missing: the pool of shared strings, which only `CreateSharedString` uses. (flatbuffers, imported at /repo/storage/Serialize.go:3-8) -/
structure Builder where
  /-- `len(b.Bytes)` -/
  cap : Nat := 0
  /-- `b.Bytes[b.head:]` -/
  used : Bytes := []
  minalign : Nat := 1
  vtable : List Nat := []
  objectEnd : Nat := 0
  vtables : List Nat := []
  nested : Bool := false
  finished : Bool := false

/-- a builder action; `none` is a panic of the library. (flatbuffers, imported at /repo/storage/Serialize.go:3-8) -/
abbrev M := StateT Builder Option

/-- `b.Offset()`. (flatbuffers, imported at /repo/storage/Serialize.go:3-8) -/
def Builder.offset (b : Builder) : Nat := b.used.length

/-- the loop of `Prep` around `growByteBuffer`: doubles the slice until there is room for more than `need` bytes before the used part; panics when
the slice has reached 2^30 bytes ("cannot grow buffer beyond 2 gigabytes"). (flatbuffers, imported at /repo/storage/Serialize.go:3-8) -/
def growLoop (used need cap : Nat) : Option Nat :=
  if need < cap - used then some cap
  else if _h : 1073741824 ≤ cap then none
  else growLoop used need (if cap = 0 then 1 else cap * 2)
termination_by 1073741824 - cap
decreasing_by split <;> omega

/-- the padding `Prep` needs so that `additional` more bytes end at a multiple of `size`. (flatbuffers, imported at /repo/storage/Serialize.go:3-8) -/
def padding (used size additional : Nat) : Nat := (size - (used + additional) % size) % size

/-- `Prep(size, additionalBytes)`. (flatbuffers, imported at /repo/storage/Serialize.go:3-8) -/
def prep (size additional : Nat) : M Unit := fun b =>
  let alignSize := padding b.used.length size additional
  match growLoop b.used.length (alignSize + size + additional) b.cap with
  | none => none
  | some cap => some ((), { b with cap := cap, minalign := max size b.minalign, used := List.replicate alignSize 0 ++ b.used })

/-- `PlaceByte`, `PlaceInt32`, `PlaceUOffsetT`, … and the copying in `CreateString`: puts bytes before the used part. (flatbuffers, imported at /repo/storage/Serialize.go:3-8) -/
def place (xs : Bytes) : M Unit := fun b =>
  if b.used.length + xs.length ≤ b.cap then some ((), { b with used := xs ++ b.used }) else none

/-- `PrependUOffsetT(off)`. (flatbuffers, imported at /repo/storage/Serialize.go:3-8) -/
def prependUOffset (off : Nat) : M Unit := do
  prep 4 0
  let b ← get
  if off ≤ b.offset then place (le32 (b.offset - off + 4)) else failure

/-- `PrependSOffsetT(off)`, only called with 0. (flatbuffers, imported at /repo/storage/Serialize.go:3-8) -/
def prependSOffset (off : Nat) : M Unit := do
  prep 4 0
  let b ← get
  if off ≤ b.offset then place (le32 (b.offset - off + 4)) else failure

/-- `PrependInt32(x)`. (flatbuffers, imported at /repo/storage/Serialize.go:3-8) -/
def prependInt32 (x : Int) : M Unit := do
  prep 4 0
  place (le32 (bits32 x))

/-- `PrependVOffsetT(x)`. (flatbuffers, imported at /repo/storage/Serialize.go:3-8) -/
def prependVOffset (x : Nat) : M Unit := do
  prep 2 0
  place (le16 x)

/-- `StartObject(n)`. (flatbuffers, imported at /repo/storage/Serialize.go:3-8) -/
def startObject (n : Nat) : M Unit := fun b =>
  if b.nested then none
  else some ((), { b with nested := true, vtable := List.replicate n 0, objectEnd := b.offset })

/-- `Slot(i)`; an index out of range panics. (flatbuffers, imported at /repo/storage/Serialize.go:3-8) -/
def slot (i : Nat) : M Unit := fun b =>
  if i < b.vtable.length then some ((), { b with vtable := b.vtable.set i b.offset }) else none

/-- `PrependInt32Slot(i, x, 0)`. (flatbuffers, imported at /repo/storage/Serialize.go:3-8) -/
def int32Slot (i : Nat) (x : Int) : M Unit := do
  if x ≠ 0 then
    prependInt32 x
    slot i

/-- `PrependUOffsetTSlot(i, off, 0)`. (flatbuffers, imported at /repo/storage/Serialize.go:3-8) -/
def offsetSlot (i : Nat) (off : Nat) : M Unit := do
  if off ≠ 0 then
    prependUOffset off
    slot i

/-- the trimming of trailing zeroes in `WriteVtable`. (flatbuffers, imported at /repo/storage/Serialize.go:3-8) -/
def trim (vt : List Nat) : List Nat := (vt.reverse.dropWhile (· = 0)).reverse

/-- `vtableEqual(a, objectStart, b)`. (flatbuffers, imported at /repo/storage/Serialize.go:3-8) -/
def vtableEqual (a : List Nat) (objectStart : Nat) (b : Bytes) : Bool :=
  a.length * 2 = b.length && (List.range a.length).all fun i =>
    match getU16 b (i * 2) with
    | some x => (x == 0 && a.getD i 0 == 0) || decide ((x : Int) = (objectStart : Int) - (a.getD i 0 : Nat))
    | none => false

/-- the search for an equal vtable in `WriteVtable`: the newest first; `some none` if there is none. (flatbuffers, imported at /repo/storage/Serialize.go:3-8) -/
def findVtable (used : Bytes) (vt : List Nat) (objectOffset : Nat) : List Nat → Option (Option Nat)
  | [] => some none
  | v :: vs =>
    let start := used.length - v
    match getU16 used start with
    | none => none
    | some len =>
      if start + 4 ≤ start + len ∧ start + len ≤ used.length then
        if vtableEqual vt objectOffset ((used.drop (start + 4)).take (len - 4)) then some (some v)
        else findVtable used vt objectOffset vs
      else none

/-- `WriteSOffsetT(b.Bytes[len(b.Bytes)-objectOffset:], x)`. (flatbuffers, imported at /repo/storage/Serialize.go:3-8) -/
def patch (objectOffset : Nat) (x : Int) : M Unit := fun b =>
  let start := b.used.length - objectOffset
  if start + 4 ≤ b.used.length then
    some ((), { b with used := b.used.take start ++ le32 (bits32 x) ++ b.used.drop (start + 4) })
  else none

/-- `EndObject()`, i.e. `assertNested`, `WriteVtable`. (flatbuffers, imported at /repo/storage/Serialize.go:3-8) -/
def endObject : M Nat := do
  let b ← get
  if b.nested = false then failure
  prependSOffset 0
  let b ← get
  let objectOffset := b.offset
  let vtable := trim b.vtable
  match findVtable b.used vtable objectOffset b.vtables.reverse with
  | none => failure
  | some (some existing) =>
    patch objectOffset ((existing : Int) - objectOffset)
    modify fun b => { b with vtable := [], nested := false }
    return objectOffset
  | some none =>
    vtable.reverse.forM fun v => prependVOffset (if v ≠ 0 then objectOffset - v else 0)
    prependVOffset (objectOffset - b.objectEnd)
    prependVOffset ((vtable.length + 2) * 2)
    let b' ← get
    patch objectOffset ((b'.offset : Int) - objectOffset)
    modify fun b => { b with vtable := [], vtables := b.vtables ++ [b.offset], nested := false }
    return objectOffset

/-- `StartVector(4, n, 4)`. (flatbuffers, imported at /repo/storage/Serialize.go:3-8) -/
def startVector (n : Nat) : M Unit := do
  let b ← get
  if b.nested then failure
  set { b with nested := true }
  prep 4 (4 * n)
  prep 4 (4 * n)

/-- `EndVector(n)`. (flatbuffers, imported at /repo/storage/Serialize.go:3-8) -/
def endVector (n : Nat) : M Nat := do
  let b ← get
  if b.nested = false then failure
  place (le32 n)
  modify fun b => { b with nested := false }
  let b ← get
  return b.offset

/-- `CreateString(s)`. (flatbuffers, imported at /repo/storage/Serialize.go:3-8) -/
def createString (s : String) : M Nat := do
  let b ← get
  if b.nested then failure
  set { b with nested := true }
  prep 4 ((utf8 s).length + 1)
  place [0]
  place (utf8 s)
  endVector (utf8 s).length

/-- `Finish(root)`. (flatbuffers, imported at /repo/storage/Serialize.go:3-8) -/
def finishBuffer (root : Nat) : M Unit := do
  let b ← get
  if b.nested then failure
  prep b.minalign 4
  prependUOffset root
  modify fun b => { b with finished := true }

/-- `NewBuilder(0)`, run the builder code, `Finish(root)`, `FinishedBytes()`. (flatbuffers, imported at /repo/storage/Serialize.go:3-8) -/
def finish (act : M Nat) : Option Bytes :=
  match (do finishBuffer (← act) : M Unit) {} with
  | some ((), b) => if b.finished then some b.used else none
  | none => none

/-! ### Readers -/

/-- `Table.Offset(vtableOffset)`. (flatbuffers, imported at /repo/storage/Serialize.go:3-8) -/
def tOffset (buf : Bytes) (pos vtableOffset : Nat) : Option Nat := do
  let so ← getI32 buf pos
  let vtable := sub32 pos so
  let n ← getU16 buf vtable
  if vtableOffset < n then getU16 buf (add32 vtable vtableOffset) else some 0

/-- `Table.Indirect(off)`. (flatbuffers, imported at /repo/storage/Serialize.go:3-8) -/
def indirect (buf : Bytes) (off : Nat) : Option Nat := do return add32 off (← getU32 buf off)

/-- `Table.ByteVector(off)`, then `string(…)`. (flatbuffers, imported at /repo/storage/Serialize.go:3-8) -/
def byteVector (buf : Bytes) (off : Nat) : Option String := do
  let off ← indirect buf off
  let start := add32 off 4
  let length ← getU32 buf off
  if start ≤ add32 start length ∧ add32 start length ≤ buf.length then
    ofUtf8 ((buf.drop start).take (add32 start length - start))
  else none

/-- `GetRootAsIndex(buf, 0)` and its like (/repo/storage/buffers/Index.go:13-18): the position of the root table. -/
def getRoot (buf : Bytes) : Option Nat := do return add32 (← getU32 buf 0) 0

/-- a string accessor such as `Term.Key` (/repo/storage/buffers/Term.go:44-50); slot `i` is vtable offset `4 + 2 * i`. -/
def getString (buf : Bytes) (pos i : Nat) : Option String := do
  let o ← tOffset buf pos (4 + 2 * i)
  if o ≠ 0 then byteVector buf (add32 o pos) else some ""

/-- an int32 accessor such as `TermSize.Value` (/repo/storage/buffers/TermSize.go:52-58). -/
def getInt32 (buf : Bytes) (pos i : Nat) : Option Int := do
  let o ← tOffset buf pos (4 + 2 * i)
  if o ≠ 0 then getI32 buf (add32 o pos) else some 0

/-- a vector length accessor such as `Index.EntriesLength` (/repo/storage/buffers/Index.go:56-62) and `Table.VectorLen`. -/
def getVecLen (buf : Bytes) (pos i : Nat) : Option Nat := do
  let o ← tOffset buf pos (4 + 2 * i)
  if o ≠ 0 then
    let off ← indirect buf (add32 o pos)
    getU32 buf off
  else some 0

/-- `Table.Vector(o)`: the position of the first element. (flatbuffers, imported at /repo/storage/Serialize.go:3-8) -/
def vector (buf : Bytes) (pos o : Nat) : Option Nat := do return add32 (← indirect buf (add32 o pos)) 4

/-- a vector element accessor such as `Index.Entries(obj, j)` (/repo/storage/buffers/Index.go:44-54). -/
def getVecElem (buf : Bytes) (pos i j : Nat) : Option (Option Nat) := do
  let o ← tOffset buf pos (4 + 2 * i)
  if o ≠ 0 then
    let x ← vector buf pos o
    return some (← indirect buf (add32 x (j * 4)))
  else some none

/-- a string vector element accessor: `Document.Values(j)` (/repo/storage/buffers/Document.go:44-51). -/
def getVecString (buf : Bytes) (pos i j : Nat) : Option String := do
  let o ← tOffset buf pos (4 + 2 * i)
  if o ≠ 0 then
    let a ← vector buf pos o
    byteVector buf (add32 a (j * 4))
  else some ""

/-- a sub-table accessor such as `Term.Values(obj)` (/repo/storage/buffers/Term.go:52-63). -/
def getTable (buf : Bytes) (pos i : Nat) (old : Option Nat) : Option (Option Nat) := do
  let o ← tOffset buf pos (4 + 2 * i)
  if o ≠ 0 then return some (← indirect buf (add32 o pos)) else some old

/-! ### /repo/storage/Serialize.go on bytes -/

/-- the loop `for i := len(offs)-1; i >= 0; i-- { b.PrependUOffsetT(offs[i]) }` between `StartVector` and `EndVector`
(/repo/storage/Serialize.go:51-55, 101-105, 121-125, 181-185, 199-203). -/
def offsetVector (offs : List Nat) : M Nat := do
  startVector offs.length
  offs.reverse.forM prependUOffset
  endVector offs.length

/-- `SerializeFieldSizeLength` (/repo/storage/Serialize.go:10-24); slots from /repo/storage/buffers/FieldMetrics.go:76-90. -/
def serializeFieldSizeLength (name : String) (size length : Int) : Option Bytes := finish do
  let nameOffset ← createString name
  startObject 3
  offsetSlot 0 nameOffset
  int32Slot 1 size
  int32Slot 2 length
  endObject

/-- `DeserializeFieldSizeLength` (/repo/storage/Serialize.go:26-34). -/
def deserializeFieldSizeLength (buf : Bytes) : Option (String × Int × Int) := do
  let root ← getRoot buf
  let name ← getString buf root 0
  let size ← getInt32 buf root 1
  let length ← getInt32 buf root 2
  return (name, size, length)

/-- one entry of a term-count map or of a TF map (/repo/storage/Serialize.go:41-48, 93-98). -/
def serializeCount (p : String × Int) : M Nat := do
  let key ← createString p.1
  startObject 2
  offsetSlot 0 key
  int32Slot 1 (toInt32 p.2)
  endObject

/-- `SerializeNumberFieldTerm` (/repo/storage/Serialize.go:36-64). -/
def serializeNumberFieldTerm (data : GoMap String Int) : Option Bytes := finish do
  let termSizes ← data.mapM serializeCount
  let entriesVector ← offsetVector termSizes
  startObject 1
  offsetSlot 0 entriesVector
  endObject

/-- reading the entries of a vector into a map (/repo/storage/Serialize.go:73-77 and 154-159). -/
def readCounts (buf : Bytes) (pos slot : Nat) : (j n : Nat) → GoMap String Int → Option (GoMap String Int)
  | _, 0, data => some data
  | j, n + 1, data => do
    match ← getVecElem buf pos slot j with
    | none => readCounts buf pos slot (j + 1) n data
    | some o =>
      let key ← getString buf o 0
      let value ← getInt32 buf o 1
      readCounts buf pos slot (j + 1) n (data.set key value)

/-- `DeserializeNumberFieldTerm` (/repo/storage/Serialize.go:66-80). -/
def deserializeNumberFieldTerm (buf : Bytes) : Option (GoMap String Int) := do
  let root ← getRoot buf
  let n ← getVecLen buf root 0
  readCounts buf root 0 0 n []

/-- one entry of the loop of `SerializeFieldMap` (/repo/storage/Serialize.go:87-119). -/
def serializeFieldEntry (p : String × Field) : M Nat := do
  let keyOffset ← createString p.1
  let nameOffset ← createString p.2.name
  let tfOffsets ← p.2.tf.mapM serializeCount
  let tfVector ← offsetVector tfOffsets
  startObject 3
  offsetSlot 0 nameOffset
  int32Slot 1 (toInt32 p.2.length)
  offsetSlot 2 tfVector
  let fieldOffset ← endObject
  startObject 2
  offsetSlot 0 keyOffset
  offsetSlot 1 fieldOffset
  endObject

/-- `SerializeFieldMap` (/repo/storage/Serialize.go:82-134). -/
def serializeFieldMap (data : GoMap String Field) : Option Bytes := finish do
  let fieldEntries ← data.mapM serializeFieldEntry
  let entriesVector ← offsetVector fieldEntries
  startObject 1
  offsetSlot 0 entriesVector
  endObject

/-- the loop of `DeserializeFieldMap` (/repo/storage/Serialize.go:144-162); `field` is the Go variable that lives across iterations. -/
def readFieldEntries (buf : Bytes) (pos : Nat) :
    (i n : Nat) → (field : Option Nat) → GoMap String Field → Option (GoMap String Field)
  | _, 0, _, data => some data
  | i, n + 1, field, data => do
    match ← getVecElem buf pos 0 i with
    | none => readFieldEntries buf pos (i + 1) n field data
    | some fieldMap =>
      let key ← getString buf fieldMap 0
      match ← getTable buf fieldMap 1 field with
      | none => none
      | some f =>
        let name ← getString buf f 0
        let length ← getInt32 buf f 1
        let tfLength ← getVecLen buf f 2
        let tf ← readCounts buf f 2 0 tfLength []
        readFieldEntries buf pos (i + 1) n (some f) (data.set key ⟨name, length, tf⟩)

/-- `DeserializeFieldMap` (/repo/storage/Serialize.go:136-165). -/
def deserializeFieldMap (buf : Bytes) : Option (GoMap String Field) := do
  let root ← getRoot buf
  let n ← getVecLen buf root 0
  readFieldEntries buf root 0 n none []

/-- one entry of the loop of `SerializeIndex` (/repo/storage/Serialize.go:172-197). -/
def serializeTerm (p : String × GoMap String Bool) : M Nat := do
  let keyOffset ← createString p.1
  let valsOffsets ← p.2.keys.mapM createString
  let valuesVector ← offsetVector valsOffsets
  startObject 1
  offsetSlot 0 valuesVector
  let document ← endObject
  startObject 2
  offsetSlot 0 keyOffset
  offsetSlot 1 document
  endObject

/-- `SerializeIndex` (/repo/storage/Serialize.go:167-212). -/
def serializeIndex (data : GoMap String (GoMap String Bool)) : Option Bytes := finish do
  let terms ← data.mapM serializeTerm
  let entriesVector ← offsetVector terms
  startObject 1
  offsetSlot 0 entriesVector
  endObject

/-- the inner loop of `DeserializeIndex` (/repo/storage/Serialize.go:235-238). -/
def readValues (buf : Bytes) (pos : Nat) : (j n : Nat) → GoMap String Bool → Option (GoMap String Bool)
  | _, 0, values => some values
  | j, n + 1, values => do
    let value ← getVecString buf pos 0 j
    readValues buf pos (j + 1) n (values.set value true)

/-- the outer loop of `DeserializeIndex` (/repo/storage/Serialize.go:221-241). -/
def readTerms (buf : Bytes) (pos : Nat) :
    (i n : Nat) → GoMap String (GoMap String Bool) → Option (GoMap String (GoMap String Bool))
  | _, 0, data => some data
  | i, n + 1, data => do
    match ← getVecElem buf pos 0 i with
    | none => none
    | some term =>
      let key ← getString buf term 0
      match ← getTable buf term 1 none with
      | none => none
      | some document =>
        let valuesLen ← getVecLen buf document 0
        let values ← readValues buf document 0 valuesLen []
        readTerms buf pos (i + 1) n (data.set key values)

/-- `DeserializeIndex` (/repo/storage/Serialize.go:214-244). -/
def deserializeIndex (buf : Bytes) : Option (GoMap String (GoMap String Bool)) := do
  let root ← getRoot buf
  let n ← getVecLen buf root 0
  readTerms buf root 0 n []

end FBB
end Goir
