import Verif.Model.Docs
/-!
# Specification vocabulary: what the stored documents should be

In terms of the client's calls only.
-/
namespace Goir.Spec
open DcState (Act)

/-- the field of the last save of document `d` under `name`, if any. -/
def latest (as : List Act) (d name : String) : Option Field :=
  as.reverse.findSome? fun a =>
    match a with
    | .save d' f => if d' = d ∧ f.name = name then some f else none
    | _ => none

/-- what the int32 file format keeps of a field (C34). -/
def cutField (f : Field) : Field := ⟨f.name, toInt32 f.length, f.tf.map fun q => (q.1, toInt32 q.2)⟩

/-- every saved field is a Go value (its TF has no duplicate keys). -/
def GoFields (as : List Act) : Prop := ∀ d f, Act.save d f ∈ as → f.tf.WF

/-- every saved field fits the file format. -/
def FieldsFit (as : List Act) : Prop := ∀ d f, Act.save d f ∈ as → cutField f = f

/-- the documents saved so far. -/
def savedDocs (as : List Act) : List String :=
  as.filterMap fun a =>
    match a with
    | .save d _ => some d
    | _ => none

end Goir.Spec
