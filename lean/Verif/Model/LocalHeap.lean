import Verif.Model.GoMap
/-!
# `cache.LocalMap` with its pointers

`Set` stores the address of its own copy of the value, `Get` hands this address out, and whoever has it can write through it. The mutex makes `Set` and `Get` atomic; a write through a pointer is one step.
Verif.Model.Caches has the map without pointers.
-/
namespace Goir

/-- what programs do with a LocalMap: `Set(key, value)`, `Get(key)`, and `*p = value` where `p` is the pointer that call number `n` (from 0) of `Get` has returned. (/repo/cache/LocalMap.go:16-33) -/
inductive LEv (T : Type) where
  | set (k : String) (v : T)
  | get (k : String)
  | write (n : Nat) (v : T)
deriving DecidableEq

/-- `LocalMap[T]` (/repo/cache/LocalMap.go:5-8), the variables whose addresses are in it (the parameter `value` of each `Set`, line 16), and the pointers that `Get` has returned so far, `none` for nil. -/
structure LHeap (T : Type) where
  cells : List T := []
  store : GoMap String Nat := []
  held : List (Option Nat) := []
deriving DecidableEq

namespace LHeap
variable {T : Type}

/-- one call, or one write through a pointer; `none` is the panic of a nil pointer, or a program that uses a pointer it has not got. (/repo/cache/LocalMap.go:16-33) -/
def exec (s : LHeap T) : LEv T → Option (LHeap T)
  | .set k v => some { s with cells := s.cells ++ [v], store := s.store.set k s.cells.length }
  | .get k => some { s with held := s.held ++ [s.store.get? k] }
  | .write n v =>
    match s.held[n]? with
    | some (some p) => some { s with cells := s.cells.set p v }
    | _ => none

/-- a history from `NewLocalMap` (/repo/cache/LocalMap.go:10-14). -/
def run (h : List (LEv T)) : Option (LHeap T) := h.foldlM exec {}

/-- `*p`, where `p` is what call number `n` of `Get` has returned. (/repo/cache/LocalMap.go:26-33) -/
def deref (s : LHeap T) (n : Nat) : Option T :=
  match s.held[n]? with
  | some (some p) => s.cells[p]?
  | _ => none

/-- `*p` for the pointer that `Get(key)` returns now; `none` if it returns `nil, false`. (/repo/cache/LocalMap.go:26-33) -/
def value (s : LHeap T) (k : String) : Option T :=
  match s.store.get? k with
  | some p => s.cells[p]?
  | none => none

/-- `GetData()`: the map itself, no copy. (/repo/cache/LocalMap.go:22-24) -/
def getData (s : LHeap T) : GoMap String Nat := s.store

end LHeap
end Goir
