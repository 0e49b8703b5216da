import Verif.Model.LRU
import Mathlib.Data.Finset.Card
/-!
# Specification vocabulary: recency

Everything here is about the client's log of calls and answers (newest first), not about the cache's state.
-/
namespace Goir.Spec
variable {T : Type}

/-- the keys put or hit, newest first. -/
def touches (log : List (LRUEvent T)) : List String :=
  log.filterMap fun
    | .put k _ => some k
    | .hit k _ => some k
    | .miss _ => none

/-- the value of the last `Put` of a key. -/
def lastPut (log : List (LRUEvent T)) (k : String) : Option T :=
  log.findSome? fun
    | .put k' v => if k' = k then some v else none
    | _ => none

/-- `k` was put or hit, and fewer than `capacity` distinct other keys were put or hit since the last time. -/
def Recent (capacity : Int) (log : List (LRUEvent T)) (k : String) : Prop :=
  k ∈ touches log ∧ (((touches log).takeWhile (· ≠ k)).toFinset.card : Int) < capacity

end Goir.Spec
