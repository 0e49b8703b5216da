import Verif.Model.Flatten
/-!
# Specification vocabulary: paths in JSON objects
-/
namespace Goir.Spec
variable {A : Type}

/-- `LeafAt o p v`: following the keys `p` from `o` leads through objects to the non-object value `v`. -/
inductive LeafAt : JObj A → List String → A → Prop where
  | here (k : String) (v : A) (rest : JObj A) : LeafAt (.leaf k v rest) [k] v
  | into (k : String) (o rest : JObj A) (p : List String) (v : A) (h : LeafAt o p v) : LeafAt (.sub k o rest) (k :: p) v
  | skipLeaf (k : String) (w : A) (rest : JObj A) (p : List String) (v : A) (h : LeafAt rest p v) :
      LeafAt (.leaf k w rest) p v
  | skipSub (k : String) (o rest : JObj A) (p : List String) (v : A) (h : LeafAt rest p v) :
      LeafAt (.sub k o rest) p v

/-- the components joined with dots. -/
def dotted : List String → String
  | [] => ""
  | [k] => k
  | k :: l :: ks => k ++ "." ++ dotted (l :: ks)

/-- the key under which Flatten files the path: as `dotted`, except that empty leading components leave no dot. -/
def joinKey (p : List String) : String := p.foldl (fun pfx k => if pfx = "" then k else pfx ++ "." ++ k) ""

/-- all keys, at all levels, are non-empty and contain no dot. -/
def PlainKeys : JObj A → Prop
  | .nil => True
  | .leaf k _ rest => (k ≠ "" ∧ '.' ∉ k.toList) ∧ PlainKeys rest
  | .sub k o rest => (k ≠ "" ∧ '.' ∉ k.toList) ∧ PlainKeys o ∧ PlainKeys rest

end Goir.Spec
