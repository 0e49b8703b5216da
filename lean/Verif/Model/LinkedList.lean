/-!
# `container/list` at pointer level, as used by the LRU cache

Element addresses are numbers; address `0` is the list's root sentinel.  `none` is a nil pointer; dereferencing it makes an
operation return `none` (panic).  Each assignment of Go's container/list is one line of the model.
(container/list is in Go's standard library; it is used at /repo/cache/LRU.go:24,32,42,47-49,52.)
-/
namespace Goir

/-- `list.List` and the `next`, `prev`, `list` fields of its elements. (container/list, used at /repo/cache/LRU.go:24,32,42,47-49,52) -/
structure PList where
  next  : Nat → Option Nat
  prev  : Nat → Option Nat
  owned : Nat → Bool
  len   : Nat

namespace PList

/-- assignment to one cell. (container/list, used at /repo/cache/LRU.go:24,32,42,47-49,52) -/
def upd {B : Type} (f : Nat → B) (a : Nat) (b : B) : Nat → B := fun x => if x = a then b else f x

/-- `list.New()` (`Init`): the root points to itself. (container/list, used at /repo/cache/LRU.go:24,32,42,47-49,52) -/
def new : PList := ⟨fun a => if a = 0 then some 0 else none, fun a => if a = 0 then some 0 else none, fun _ => false, 0⟩

/-- `p.next = v`. (container/list, used at /repo/cache/LRU.go:24,32,42,47-49,52) -/
def setNext (h : PList) (p : Option Nat) (v : Option Nat) : Option PList :=
  p.map fun a => { h with next := upd h.next a v }

/-- `p.prev = v`. (container/list, used at /repo/cache/LRU.go:24,32,42,47-49,52) -/
def setPrev (h : PList) (p : Option Nat) (v : Option Nat) : Option PList :=
  p.map fun a => { h with prev := upd h.prev a v }

/-- the six assignments of `(*List).move(e, &l.root)`, in order. (container/list, used at /repo/cache/LRU.go:24,32,42,47-49,52) -/
def moveLine (e : Nat) : Nat → PList → Option PList
  | 0, h => h.setNext (h.prev e) (h.next e)     -- e.prev.next = e.next
  | 1, h => h.setPrev (h.next e) (h.prev e)     -- e.next.prev = e.prev
  | 2, h => h.setPrev (some e) (some 0)         -- e.prev = at
  | 3, h => h.setNext (some e) (h.next 0)       -- e.next = at.next
  | 4, h => h.setNext (h.prev e) (some e)       -- e.prev.next = e
  | _, h => h.setPrev (h.next e) (some e)       -- e.next.prev = e

/-- `(*List).move(e, &l.root)`. (container/list, used at /repo/cache/LRU.go:24,32,42,47-49,52) -/
def move (h : PList) (e : Nat) : Option PList := do
  let h ← moveLine e 0 h
  let h ← moveLine e 1 h
  let h ← moveLine e 2 h
  let h ← moveLine e 3 h
  let h ← moveLine e 4 h
  moveLine e 5 h

/-- the test at the start of `MoveToFront`: nothing to do. (container/list, used at /repo/cache/LRU.go:24,32,42,47-49,52) -/
def moveSkips (h : PList) (e : Nat) : Bool := !h.owned e || h.next 0 == some e

/-- `(*List).MoveToFront(e)`. (container/list, used at /repo/cache/LRU.go:24,32,42,47-49,52) -/
def moveToFront (h : PList) (e : Nat) : Option PList := if h.moveSkips e then some h else h.move e

/-- `(*List).PushFront` = `insert(e, &l.root)` of a fresh element `e`. (container/list, used at /repo/cache/LRU.go:24,32,42,47-49,52) -/
def pushFront (h : PList) (e : Nat) : Option PList := do
  let h ← h.setPrev (some e) (some 0)      -- e.prev = at
  let h ← h.setNext (some e) (h.next 0)    -- e.next = at.next
  let h ← h.setNext (h.prev e) (some e)    -- e.prev.next = e
  let h ← h.setPrev (h.next e) (some e)    -- e.next.prev = e
  return { h with owned := upd h.owned e true, len := h.len + 1 }

/-- `(*List).Remove(e)`. (container/list, used at /repo/cache/LRU.go:24,32,42,47-49,52) -/
def remove (h : PList) (e : Nat) : Option PList :=
  if h.owned e then do
    let h ← h.setNext (h.prev e) (h.next e)   -- e.prev.next = e.next
    let h ← h.setPrev (h.next e) (h.prev e)   -- e.next.prev = e.prev
    let h ← h.setNext (some e) none           -- e.next = nil
    let h ← h.setPrev (some e) none           -- e.prev = nil
    return { h with owned := upd h.owned e false, len := h.len - 1 }
  else some h

/-- `(*List).Back()`. (container/list, used at /repo/cache/LRU.go:24,32,42,47-49,52) -/
def back (h : PList) : Option Nat := if h.len = 0 then none else h.prev 0

/-! ### Readers running concurrently

`LRUCache.Get` takes only `RLock` (/repo/cache/LRU.go:29), so any number of `Get`s can be inside `MoveToFront` at once. -/

/-- a reader: the element it moves and how far it is: 0 = before the test, 1..6 = before assignment 0..5, 7 = done. (container/list, used at /repo/cache/LRU.go:24,32,42,47-49,52) -/
structure Reader where
  elem : Nat
  pc   : Nat
deriving DecidableEq

/-- one step of one reader. (container/list, used at /repo/cache/LRU.go:24,32,42,47-49,52) -/
def readerStep (h : PList) (r : Reader) : Option (PList × Reader) :=
  if r.pc = 0 then some (h, { r with pc := if h.moveSkips r.elem then 7 else 1 })
  else if r.pc ≤ 6 then (moveLine r.elem (r.pc - 1) h).map fun h => (h, { r with pc := r.pc + 1 })
  else none

/-- one step of reader `i`. (container/list, used at /repo/cache/LRU.go:24,32,42,47-49,52) -/
def readersStep (s : PList × List Reader) (i : Nat) : Option (PList × List Reader) :=
  match s.2[i]? with
  | some r => (readerStep s.1 r).map fun (h, r) => (h, s.2.set i r)
  | none => none

/-- run a schedule: the list of readers to step. (container/list, used at /repo/cache/LRU.go:24,32,42,47-49,52) -/
def runReaders (s : PList × List Reader) (schedule : List Nat) : Option (PList × List Reader) :=
  schedule.foldlM readersStep s

end PList
end Goir
