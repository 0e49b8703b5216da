import Verif.Model.GoMap
/-!
# Package `model`: Field, NormalizedDocument, Query, DocumentScore, SearchResult, Set
-/
namespace Goir

/-- `model.Field` (/repo/model/Field.go:3-7).  `Length` and the frequencies are Go `int`s, here unbounded. -/
structure Field where
  name   : String
  length : Int
  tf     : GoMap String Int
deriving DecidableEq, Repr

/-- `model.NormalizedDocument` (/repo/model/NormalizedDocument.go:3-6). -/
structure NormalizedDocument where
  fields : List Field
deriving DecidableEq, Repr

/-- `model.Set` (/repo/model/Set.go:3-5): the map `data map[string]bool`.
Value semantics; the sharing of `data` between copies of the struct is the subject of `Verif.Model.Alias`. -/
abbrev GoSet := GoMap String Bool

namespace GoSet

/-- `NewSet` (/repo/model/Set.go:7-11). -/
def new : GoSet := []

/-- `GetData` (/repo/model/Set.go:13-15). -/
def getData (s : GoSet) : GoMap String Bool := s

/-- `Add` (/repo/model/Set.go:17-19). -/
def add (s : GoSet) (e : String) : GoSet := GoMap.set s e true

/-- `Remove` (/repo/model/Set.go:21-23). -/
def remove (s : GoSet) (e : String) : GoSet := GoMap.del s e

/-- `Contains` (/repo/model/Set.go:25-28). -/
def contains (s : GoSet) (e : String) : Bool := (GoMap.get? s e).isSome

/-- `Size` (/repo/model/Set.go:30-32). -/
def size (s : GoSet) : Nat := s.length

@[simp] theorem contains_nil (e : String) : contains [] e = false := rfl

@[simp] theorem contains_add (s : GoSet) (a e : String) :
    (s.add a).contains e = (decide (a = e) || s.contains e) := by
  simp only [contains, add, GoMap.get?_set]; by_cases h : a = e <;> simp [h]

@[simp] theorem contains_remove (s : GoSet) (a e : String) :
    (s.remove a).contains e = (!decide (a = e) && s.contains e) := by
  simp only [contains, remove, GoMap.get?_del]; by_cases h : a = e <;> simp [h]

theorem contains_iff_mem_keys (s : GoSet) (e : String) : s.contains e = true ↔ e ∈ GoMap.keys s := by
  simp [contains, GoMap.get?_isSome_iff]

end GoSet
end Goir
