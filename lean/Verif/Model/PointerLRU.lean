import Verif.Model.LRU
import Verif.Model.LinkedList
/-!
# `cache.LRUCache` over the pointers of `container/list` (/repo/cache/LRU.go)

The same two functions as `Verif.Model.LRU`, line by line over the pointer list of `Verif.Model.LinkedList` instead of a sequence:
`Back`, `Len`, `Remove`, `MoveToFront` and `PushFront` are the pointer operations, a removed element stays in the heap with its
value (as in Go) and every nil dereference is a panic (`none`).
-/
namespace Goir

/-- `LRUCache[T]` (/repo/cache/LRU.go:13-18).  `elems` holds the `*Page[T]` each `list.Element` points to (the address of an element
is a positive number, `0` is the list's root); `fresh` is the next address the allocator gives out. -/
structure PLRU (T : Type) where
  capacity : Int
  cache    : GoMap String Nat := []
  pages    : PList := PList.new
  elems    : GoMap Nat (String × T) := []
  fresh    : Nat := 1

namespace PLRU
variable {T : Type}

/-- `NewLRUCache` (/repo/cache/LRU.go:20-26). -/
def new (capacity : Int) : PLRU T := { capacity := capacity }

/-- `Get` (/repo/cache/LRU.go:28-36); `none` is a panic. -/
def get (l : PLRU T) (key : String) : Option (PLRU T × Option T) :=
  match l.cache.get? key with
  | some elem => do
    let pages ← l.pages.moveToFront elem
    let page ← l.elems.get? elem
    return ({ l with pages := pages }, some page.2)
  | none => some (l, none)

/-- the eviction in `Put` (/repo/cache/LRU.go:47-50): `Back()` is evaluated twice; a nil `Back()` panics. -/
def evict (l : PLRU T) : Option (PLRU T) := do
  let back ← l.pages.back
  let page ← l.elems.get? back
  let back ← l.pages.back
  let pages ← l.pages.remove back
  return { l with cache := l.cache.del page.1, pages := pages }

/-- `l.cache[key] = l.pages.PushFront(&Page{key, value})` (/repo/cache/LRU.go:52). -/
def push (l : PLRU T) (key : String) (value : T) : Option (PLRU T) := do
  let pages ← l.pages.pushFront l.fresh
  return { l with cache := l.cache.set key l.fresh, pages := pages, elems := l.elems.set l.fresh (key, value), fresh := l.fresh + 1 }

/-- `Put` (/repo/cache/LRU.go:38-53); `none` is a panic. -/
def put (l : PLRU T) (key : String) (value : T) : Option (PLRU T) :=
  match l.cache.get? key with
  | some elem => do
    let pages ← l.pages.moveToFront elem
    let page ← l.elems.get? elem
    return { l with pages := pages, elems := l.elems.set elem (page.1, value) }
  | none =>
    if (l.pages.len : Int) ≥ l.capacity then do
      let l ← l.evict
      l.push key value
    else l.push key value

/-- perform one call and log what the client sees (newest first). (/repo/cache/LRU.go:20-53) -/
def exec (s : PLRU T × List (LRUEvent T)) : LRUOp T → Option (PLRU T × List (LRUEvent T))
  | .get k => do
    let (l, r) ← s.1.get k
    match r with
    | some v => return (l, .hit k v :: s.2)
    | none   => return (l, .miss k :: s.2)
  | .put k v => do
    let l ← s.1.put k v
    return (l, .put k v :: s.2)

/-- perform a sequence of calls on a new cache; `none` if some call panics. (/repo/cache/LRU.go:20-53) -/
def run (capacity : Int) (ops : List (LRUOp T)) : Option (PLRU T × List (LRUEvent T)) :=
  ops.foldlM exec (new capacity, [])

/-- `Get`s of the given keys, all present, at the same time: each holds only the read lock (/repo/cache/LRU.go:29-32), so their
`MoveToFront`s interleave as `schedule` says (see `PList.runReaders`).  `some` only if all of them finish. -/
def gets (l : PLRU T) (keys : List String) (schedule : List Nat) : Option (PLRU T) := do
  let elems ← keys.mapM fun k => l.cache.get? k
  let (h, rs) ← PList.runReaders (l.pages, elems.map fun e => ⟨e, 0⟩) schedule
  if rs.all (fun r => r.pc == 7) then some { l with pages := h } else none

end PLRU
end Goir
