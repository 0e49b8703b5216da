import Verif.Model.Memory
/-!
# Specification vocabulary: histories of calls

A history is the list of mutating `Storage` calls made so far, oldest first.  These definitions say, in terms of the history
only, what the counters and lookups of a store are supposed to be.
-/
namespace Goir.Spec

/-- every `TF` argument in the history is a Go map (no duplicate keys); all Go values satisfy this. -/
def GoValues (h : List StoreOp) : Prop := ∀ op ∈ h, op.field.tf.WF

/-- the field passed to the last `SaveOrUpdate(d, f)` with `f.Name = name`, if any. -/
def lastSaved (h : List StoreOp) (d name : String) : Option Field :=
  h.reverse.findSome? fun op =>
    if op.isSave = true ∧ op.doc = d ∧ op.field.name = name then some op.field else none

/-- some call posted `d` under `term` in field `name`. -/
def Posted (h : List StoreOp) (name term d : String) : Prop :=
  ∃ op ∈ h, op.doc = d ∧ op.field.name = name ∧ term ∈ op.field.tf.keys

/-- some `SaveOrUpdate` call posted `d` under `term` in field `name`. -/
def Saved (h : List StoreOp) (name term d : String) : Prop :=
  ∃ op ∈ h, op.isSave = true ∧ op.doc = d ∧ op.field.name = name ∧ term ∈ op.field.tf.keys

/-- number of calls on field `name`. -/
def callCount (h : List StoreOp) (name : String) : Nat :=
  (h.filter fun op => op.field.name = name).length

/-- sum of the lengths over the calls on field `name`. -/
def lengthSum (h : List StoreOp) (name : String) : Int :=
  ((h.filter fun op => op.field.name = name).map fun op => op.field.length).sum

/-- number of `SaveOrUpdate` calls on field `name` whose `TF` has `term`. -/
def termCount (h : List StoreOp) (name term : String) : Nat :=
  (h.filter fun op => op.isSave = true ∧ op.field.name = name ∧ term ∈ op.field.tf.keys).length

/-- number of `SaveOrUpdate` calls on field `name`. -/
def saveCount (h : List StoreOp) (name : String) : Nat :=
  (h.filter fun op => op.isSave = true ∧ op.field.name = name).length

/-- sum of the lengths over the `SaveOrUpdate` calls on field `name`. -/
def saveLengthSum (h : List StoreOp) (name : String) : Int :=
  ((h.filter fun op => op.isSave = true ∧ op.field.name = name).map fun op => op.field.length).sum

/-- the (document, field name) pair a call is about. -/
def target (op : StoreOp) : String × String := (op.doc, op.field.name)

end Goir.Spec
