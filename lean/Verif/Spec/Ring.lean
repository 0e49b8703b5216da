import Verif.Model.LinkedList
/-!
# Specification vocabulary: the list as a sequence
-/
namespace Goir.Spec
open Goir

/-- consecutive elements of the sequence point at each other. -/
def Linked (h : PList) : List Nat → Prop
  | a :: b :: r => h.next a = some b ∧ h.prev b = some a ∧ Linked h (b :: r)
  | _ => True

/-- `Ring h l`: the pointers describe exactly the sequence `l` of distinct non-root elements, front first: from the root
through `l` back to the root, `next` and `prev` being inverse; `len` is right and exactly the elements of `l` are owned. -/
structure Ring (h : PList) (l : List Nat) : Prop where
  linked : Linked h (0 :: (l ++ [0]))
  nodup  : l.Nodup
  noRoot : 0 ∉ l
  len    : h.len = l.length
  owned  : ∀ e, e ≠ 0 → (h.owned e = true ↔ e ∈ l)

end Goir.Spec
