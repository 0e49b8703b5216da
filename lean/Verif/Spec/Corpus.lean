import Mathlib.Analysis.SpecialFunctions.Log.Basic
/-!
# BM25 of a collection of texts

What a user of a search engine expects of its scores, in terms of the texts that were put in: nothing here mentions an index, a store or a counter.
The parameters are those that Standard.Search fixes (`k1 = 1.2`, `b = 0.75`, /repo/search/Standard.go).
-/
namespace Goir.Spec

/-- BM25 of a list of query terms for one text (a list of words) of a collection of texts: the sum over the terms of
`ln (1 + (N - n + 1/2) / (n + 1/2)) * f * (k1 + 1) / (f + k1 * (1 - b + b * length / average length))`
where `N` texts are in the collection, `n` of them contain the term, and the term occurs `f` times in this text. -/
noncomputable def textScore (collection : List (List String)) (terms : List String) (text : List String) : ℝ :=
  let N : ℝ := collection.length
  let average : ℝ := (collection.map List.length).sum / N
  (terms.map fun t =>
    let n : ℝ := collection.countP fun w => decide (t ∈ w)
    let f : ℝ := text.count t
    Real.log (1 + (N - n + 1 / 2) / (n + 1 / 2)) * (f * (1.2 + 1) / (f + 1.2 * (1 - 0.75 + 0.75 * (text.length / average))))).sum

/-- a text that was put in: the document it belongs to, the name of the field, and its words. -/
structure Entry where
  doc   : String
  field : String
  words : List String
deriving DecidableEq, Repr

/-- all texts of one field. -/
def column (S : List Entry) (field : String) : List (List String) := (S.filter fun e => e.field = field).map Entry.words

/-- what one query (field, boost, terms) contributes to the score of a document: BM25 of the document's text in that field, among the texts of that
field, times the boost (a boost of zero counts as one). -/
noncomputable def contribution (S : List Entry) (field : String) (boost : ℝ) (terms : List String) (d : String) : ℝ :=
  ((S.filter fun e => e.doc = d ∧ e.field = field).map fun e => (if boost = 0 then 1 else boost) * textScore (column S field) terms e.words).sum

/-- the document has a text in the field with one of the terms. -/
def Hits (S : List Entry) (field : String) (terms : List String) (d : String) : Prop := ∃ e ∈ S, e.doc = d ∧ e.field = field ∧ ∃ t ∈ terms, t ∈ e.words

end Goir.Spec
