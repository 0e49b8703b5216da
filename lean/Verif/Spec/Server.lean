import Verif.Model.LiveSearch
import Verif.Model.ConcurrentDisk
import Verif.Spec.Search
import Verif.Spec.History
import Verif.Spec.Docs
/-!
# What a search of several queries returns, in terms of what its index searches returned
-/
namespace Goir
open Spec
variable {F : Type} [GoFloat F]

/-- what the index search of a query returned: the numbers it read, and the documents with their fields. -/
structure Answer (F : Type) where
  query : Query F
  stats : LStats
  docs  : GoMap String Field

/-- the score that an answer gives a document, if the document is in it: BM25 with the numbers of the same answer. -/
def Answer.score (a : Answer F) (d : String) : Option F :=
  (a.docs.get? d).map fun field =>
    bm25 a.query.terms (GoFloat.lit 1.2) (GoFloat.lit 0.75) a.query.boost (GoFloat.div (GoFloat.ofInt a.stats.len) (GoFloat.ofInt a.stats.size)) (GoFloat.ofInt a.stats.size) a.stats.nft field

/-- `l` lists every document of the answers once, with the sum of its scores, added up in the order of the answers. -/
def Merges (answers : List (Answer F)) (l : Scores F) : Prop :=
  (l.map Prod.fst).Nodup ∧ ∀ d x, (d, x) ∈ l ↔
    (answers.filterMap (·.score d)) ≠ [] ∧ x = (answers.filterMap (·.score d)).foldl GoFloat.add (GoFloat.lit 0)

omit [GoFloat F] in
/-- an answer tells only of what the calls in `h` were given: each document was posted with one of the terms in the field, its field is one that a save of the document was given, perhaps with its
numbers cut to 32 bits, and the numbers are not more than the saves, the saved lengths, and the saves with the term. -/
structure Truthful (h : List StoreOp) (a : Answer F) : Prop where
  posted : ∀ d fl, a.docs.get? d = some fl → ∃ t ∈ a.query.terms, Posted h a.query.fieldName t d
  field : ∀ d fl, a.docs.get? d = some fl → ∃ g, StoreOp.save d g ∈ h ∧ g.name = a.query.fieldName ∧ (fl = g ∨ fl = cutField g)
  size : a.stats.size ≤ saveCount h a.query.fieldName
  len : (∀ op ∈ h, 0 ≤ op.field.length) → a.stats.len ≤ saveLengthSum h a.query.fieldName
  nft : ∀ t n, a.stats.nft.get? t = some n → n ≤ termCount h a.query.fieldName t

/-- what the file of a document holds; nothing if there is no such file. -/
def CDisk.onDisk (s : CDisk) (d : String) : GoMap String Field := ((s.load d).getD none).getD []

/-- add the field that a document's file holds to a map of fields, if the file holds it. -/
def CDisk.addField (files : String → GoMap String Field) (f : String) (out : GoMap String Field) (d : String) : GoMap String Field :=
  match (files d).get? f with
  | some fl => out.set d fl
  | none => out

/-- the reads of a store whose documents are those of given files: the methods without GetFields answer as they do now, GetFields answers from the files. -/
def CDisk.readsOf (s : CDisk) (files : String → GoMap String Field) : Reads where
  getDocuments := s.getDocuments
  getFields ids f := ids.foldl (CDisk.addField files f) []
  getFieldSize := s.getFieldSize
  getFieldLength := s.getFieldLength
  getNumberFieldTerm := s.getNumberFieldTerm

end Goir
