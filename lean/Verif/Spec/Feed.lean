import Verif.Model.Feed
/-!
# Specification vocabulary: what an Atom feed says
-/
namespace Goir
namespace Collection
namespace Feed

/-- `b` is the content of an element `name` in `body`. -/
def Child (body : List XNode) (name : String) (b : List XNode) : Prop := XNode.elem name b ∈ body

/-- … the last one with this name. -/
def LastChild (body : List XNode) (name : String) (b : List XNode) : Prop :=
  ∃ before after, body = before ++ XNode.elem name b :: after ∧ ∀ b', XNode.elem name b' ∉ after

/-- the texts directly in an element, one after the other. -/
inductive TextIs : List XNode → List Char → Prop
  | nil : TextIs [] []
  | text (t : String) {body : List XNode} {s : List Char} (h : TextIs body s) : TextIs (.text t :: body) (t.toList ++ s)
  | elem (k : String) (b : List XNode) {body : List XNode} {s : List Char} (h : TextIs body s) : TextIs (.elem k b :: body) s

/-- the text of the last element `name`, empty without one. -/
def Says (body : List XNode) (name : String) (s : String) : Prop :=
  (∃ b, LastChild body name b ∧ TextIs b s.toList) ∨ ((∀ b, ¬ Child body name b) ∧ s = "")

/-- the contents of the elements with this name, in order. -/
inductive Children (name : String) : List XNode → List (List XNode) → Prop
  | nil : Children name [] []
  | here (b : List XNode) {body : List XNode} {bs : List (List XNode)} (h : Children name body bs) : Children name (.elem name b :: body) (b :: bs)
  | other (k : String) (b : List XNode) {body : List XNode} {bs : List (List XNode)} (hk : k ≠ name) (h : Children name body bs) : Children name (.elem k b :: body) bs
  | text (t : String) {body : List XNode} {bs : List (List XNode)} (h : Children name body bs) : Children name (.text t :: body) bs

/-- the name of the last author that has one: of all elements `name` in elements `author`, the last. -/
def LastAuthor (entry : List XNode) (s : String) : Prop := ∃ authors, Children "author" entry authors ∧ Says authors.flatten "name" s

/-- the document made of an entry. -/
def Makes (entry : List XNode) (d : Doc) : Prop := Says entry "title" d.title ∧ Says entry "summary" d.summary ∧ LastAuthor entry d.author

end Feed
end Collection
end Goir
