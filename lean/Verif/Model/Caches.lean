import Verif.Model.GoMap
/-!
# `cache.RCU`, `cache.SyncMap`, `cache.LocalMap`, `cache.Shard`

RCU and SyncMap are machines whose actions are: a client's `Put` (a channel send), the writer's receive, the writer's tick.
A schedule is a list of actions; an action that is blocked makes the run `none`.
-/
namespace Goir

/-- one atomic action of a client or of the writer goroutine. (/repo/cache/RCU.go:28-56, /repo/cache/Map.go:41-91) -/
inductive CacheAct (T : Type) where
  | put (k : String) (v : T)
  | recv
  | tick
deriving DecidableEq

/-- capacity of the channels (/repo/cache/RCU.go:15, /repo/cache/Map.go:29). -/
def chanCap : Nat := 1000

/-- `for key, value := range src { dst[key] = value }`. (/repo/cache/RCU.go:32-56) -/
def copyInto {T : Type} (dst src : GoMap String T) : GoMap String T := src.foldl (fun d p => d.set p.1 p.2) dst

/-! ### RCU -/

/-- `RCU[T]` (/repo/cache/RCU.go:8-11) with the writer's local `buffer` (line 34); `queue` is the channel, oldest first. -/
structure RCU (T : Type) where
  data   : GoMap String T := []
  queue  : List (String × T) := []
  buffer : GoMap String T := []
deriving DecidableEq

namespace RCU
variable {T : Type}

/-- one action: `Put` (/repo/cache/RCU.go:29-31) blocks when the channel is full; the writer's `case td := <-c.Ch`
(line 41-42); the writer's `case <-ticker.C` (lines 43-55). The writer is the only one that stores `data` and works on
private copies, so publishing is one atomic step. -/
def exec (s : RCU T) : CacheAct T → Option (RCU T)
  | .put k v => if s.queue.length < chanCap then some { s with queue := s.queue ++ [(k, v)] } else none
  | .recv =>
    match s.queue with
    | [] => none
    | (k, v) :: q => some { s with queue := q, buffer := s.buffer.set k v }
  | .tick =>
    let dataCopy := copyInto [] s.data
    let dataCopy := copyInto dataCopy s.buffer
    some { s with data := dataCopy, buffer := [] }

/-- `Get` (/repo/cache/RCU.go:23-27): the value (zero value on a miss) and `ok`. -/
def get (zero : T) (s : RCU T) (k : String) : T × Bool := (s.data.getD k zero, (s.data.get? k).isSome)

/-- a schedule from a new cache (`NewCacheRCU`, lines 13-21). (/repo/cache/RCU.go:28-56, /repo/cache/Map.go:41-91) -/
def run (acts : List (CacheAct T)) : Option (RCU T) := acts.foldlM exec {}

end RCU

/-! ### SyncMap -/

/-- `SyncMap[T]` (/repo/cache/Map.go:20-24) with the writer's buffer; `started` tells whether `go i.writer()` runs:
`NewSyncMap` has that line commented out (line 32), so it is `false` in every actual program. -/
structure SyncMap (T : Type) where
  data    : GoMap String T := []
  queue   : List (String × T) := []
  buffer  : GoMap String T := []
  started : Bool := false
deriving DecidableEq

namespace SyncMap
variable {T : Type}

/-- `NewSyncMap` (/repo/cache/Map.go:26-34). -/
def new : SyncMap T := {}

/-- actions: `Put` (lines 86-91), the (never started) writer's receive (lines 50-53) and tick (lines 54-73). (/repo/cache/RCU.go:28-56, /repo/cache/Map.go:41-91) -/
def exec (s : SyncMap T) : CacheAct T → Option (SyncMap T)
  | .put k v => if s.queue.length < chanCap then some { s with queue := s.queue ++ [(k, v)] } else none
  | .recv =>
    if s.started then
      match s.queue with
      | [] => none
      | (k, v) :: q => some { s with queue := q, buffer := s.buffer.set k v }
    else none
  | .tick =>
    if s.started then
      let bufferCopy := copyInto [] s.buffer
      let bufferCopy := copyInto bufferCopy s.data
      some { s with data := bufferCopy, buffer := [] }
    else none

/-- `Get` (/repo/cache/Map.go:77-84). -/
def get (s : SyncMap T) (k : String) : Option T := s.data.get? k

/-- a schedule from a new map. (/repo/cache/RCU.go:28-56, /repo/cache/Map.go:41-91) -/
def run (acts : List (CacheAct T)) : Option (SyncMap T) := acts.foldlM exec new

end SyncMap

/-! ### LocalMap and Shard -/

/-- `LocalMap[T]` (/repo/cache/LocalMap.go:5-14); pointers to stored values are never written through (with writes through pointers: Verif.Model.LocalHeap). -/
abbrev LocalMap (T : Type) := GoMap String T

/-- one step of the bitwise CRC-32. (hash/crc32, called at /repo/cache/Shard.go:41-44) -/
def crcBit (c : Nat) : Nat := if c % 2 = 1 then (c >>> 1) ^^^ 0xEDB88320 else c >>> 1

/-- one byte. (hash/crc32, called at /repo/cache/Shard.go:41-44) -/
def crcByte (crc : Nat) (b : UInt8) : Nat :=
  crcBit (crcBit (crcBit (crcBit (crcBit (crcBit (crcBit (crcBit (crc ^^^ b.toNat))))))))

/-- `crc32.ChecksumIEEE` (standard library, called at /repo/cache/Shard.go:42). -/
def crc32 (bs : List UInt8) : Nat := (bs.foldl crcByte 0xFFFFFFFF) ^^^ 0xFFFFFFFF

/-- `[]byte(key)`. (/repo/cache/Shard.go:41-44) -/
def bytesOf (key : String) : List UInt8 := key.toList.flatMap String.utf8EncodeChar

/-- `int(hash)` for a `uint32` on a platform with 32- or 64-bit `int`. (/repo/cache/Shard.go:41-44) -/
def goInt (bits : Nat) (hash : Nat) : Int := Int.bmod hash (2 ^ bits)

/-- `Shard[T]` (/repo/cache/Shard.go:8-11). -/
structure Shard (T : Type) where
  fragments : Int
  shard : GoMap Int (LocalMap T)

namespace Shard
variable {T : Type}

/-- `NewShardMap` (/repo/cache/Shard.go:13-24). -/
def new (fragments : Int) : Shard T :=
  ⟨fragments, (List.range fragments.toNat).foldl (fun m (i : Nat) => m.set (i : Int) []) []⟩

/-- `getShardId` (/repo/cache/Shard.go:41-44); `none` is the division by zero panic. Go's `%` truncates. -/
def getShardId (bits : Nat) (m : Shard T) (key : String) : Option Int :=
  if m.fragments = 0 then none else some ((goInt bits (crc32 (bytesOf key))).tmod m.fragments)

/-- `Get` (/repo/cache/Shard.go:31-39): which of the maps is returned; `none` is the panic. -/
def get (bits : Nat) (m : Shard T) (key : String) : Option Int := do
  let shardId ← m.getShardId bits key
  match m.shard.get? shardId with
  | some _ => some shardId
  | none => none

/-- `Shard.Get(name).Set(key, value)` (/repo/cache/LocalMap.go:16-20). -/
def setVia (bits : Nat) (m : Shard T) (name key : String) (value : T) : Option (Shard T) := do
  let i ← m.get bits name
  return { m with shard := m.shard.set i ((m.shard.getD i []).set key value) }

/-- `Shard.Get(name).Get(key)` (/repo/cache/LocalMap.go:26-33). -/
def getVia (bits : Nat) (m : Shard T) (name key : String) : Option (Option T) := do
  let i ← m.get bits name
  return (m.shard.getD i []).get? key

end Shard
end Goir
