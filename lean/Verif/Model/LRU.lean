import Verif.Model.GoMap
/-!
# `cache.LRUCache` (/repo/cache/LRU.go)

`container/list` is used here as a sequence of element identities, front first; `Verif.Model.LinkedList` models its pointers
and proves that each list operation used here has this effect.
Calls are atomic (the mutex); the exception, `Get` under a read lock, is the subject of C50.
-/
namespace Goir

/-- `LRUCache[T]` (/repo/cache/LRU.go:13-18). `elems` is the heap of `list.Element`s holding `*Page[T]` values. -/
structure LRU (T : Type) where
  capacity : Int
  cache    : GoMap String Nat := []
  pages    : List Nat := []
  elems    : GoMap Nat (String × T) := []
  fresh    : Nat := 0
deriving DecidableEq, Repr

namespace LRU
variable {T : Type}

/-- `NewLRUCache` (/repo/cache/LRU.go:20-26). -/
def new (capacity : Int) : LRU T := { capacity := capacity }

/-- `pages.MoveToFront(elem)`. (/repo/cache/LRU.go:28-36, 40-44) -/
def moveToFront (pages : List Nat) (e : Nat) : List Nat := e :: pages.filter (· ≠ e)

/-- `Get` (/repo/cache/LRU.go:28-36). A dangling element would be a nil dereference; it is reported as a miss here and
`lru_wf` shows it never happens. -/
def get (l : LRU T) (key : String) : LRU T × Option T :=
  match l.cache.get? key with
  | some elem => ({ l with pages := moveToFront l.pages elem }, (l.elems.get? elem).map Prod.snd)
  | none      => (l, none)

/-- the eviction in `Put` (/repo/cache/LRU.go:47-50); `Back()` of an empty list is nil and dereferencing it panics: `none`. -/
def evict (l : LRU T) : Option (LRU T) :=
  match l.pages.getLast? with
  | none => none
  | some back =>
    match l.elems.get? back with
    | none => none
    | some page => some { l with cache := l.cache.del page.1, pages := l.pages.dropLast, elems := l.elems.del back }

/-- lines 52: `l.cache[key] = l.pages.PushFront(&Page{key, value})`. (/repo/cache/LRU.go:52) -/
def push (l : LRU T) (key : String) (value : T) : LRU T :=
  { l with cache := l.cache.set key l.fresh, pages := l.fresh :: l.pages,
           elems := l.elems.set l.fresh (key, value), fresh := l.fresh + 1 }

/-- `Put` (/repo/cache/LRU.go:38-53); `none` is a panic. -/
def put (l : LRU T) (key : String) (value : T) : Option (LRU T) :=
  match l.cache.get? key with
  | some elem =>
    some { l with pages := moveToFront l.pages elem, elems := l.elems.set elem (key, value) }
  | none =>
    if (l.pages.length : Int) ≥ l.capacity then (l.evict).map fun l => l.push key value
    else some (l.push key value)

end LRU

/-- A call on the cache. (/repo/cache/LRU.go:20-53) -/
inductive LRUOp (T : Type) where
  | get (key : String)
  | put (key : String) (value : T)

/-- What a client sees: the call with its answer. (/repo/cache/LRU.go:20-53) -/
inductive LRUEvent (T : Type) where
  | put (key : String) (value : T)
  | hit (key : String) (value : T)
  | miss (key : String)

namespace LRU
variable {T : Type}

/-- perform one call and log what the client sees (newest first). (/repo/cache/LRU.go:20-53) -/
def exec (s : LRU T × List (LRUEvent T)) : LRUOp T → Option (LRU T × List (LRUEvent T))
  | .get k =>
    match s.1.get k with
    | (l, some v) => some (l, .hit k v :: s.2)
    | (l, none)   => some (l, .miss k :: s.2)
  | .put k v => (s.1.put k v).map fun l => (l, .put k v :: s.2)

/-- perform a sequence of calls on a new cache; `none` if some call panics. (/repo/cache/LRU.go:20-53) -/
def run (capacity : Int) (ops : List (LRUOp T)) : Option (LRU T × List (LRUEvent T)) :=
  ops.foldlM exec (new capacity, [])

end LRU
end Goir
