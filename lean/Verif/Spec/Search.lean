import Verif.Model.Search
/-!
# What a search is supposed to return, in terms of the answers of the store
-/
namespace Goir

/-- GetDocuments(f, t) has `d`. -/
def Reads.has (st : Reads) (f t d : String) : Bool := (st.getDocuments f t).2 && (st.getDocuments f t).1.contains d

/-- what GetFields finds for one document. -/
def Reads.fieldOf (st : Reads) (d f : String) : Option Field := (st.getFields [d] f).get? d

/-- GetFields returns a map, and what it finds for a document does not depend on which others are asked for. Memory does this
(`memory_consistent`). -/
structure Reads.Consistent (st : Reads) : Prop where
  wf : ∀ ids f, (st.getFields ids f).WF
  fields : ∀ ids f d, (st.getFields ids f).get? d = if d ∈ ids then st.fieldOf d f else none

/-- `d` is posted under one of the terms. -/
def Reads.matches (st : Reads) (f : String) (terms : List String) (d : String) : Bool := terms.any fun t => st.has f t d

/-- the score a query gives a document: none if it is not posted under one of the terms or has no such field. -/
def queryScore {F : Type} [GoFloat F] (st : Reads) (q : Query F) (d : String) : Option F :=
  if st.matches q.fieldName q.terms d then
    (st.fieldOf d q.fieldName).map fun field =>
      bm25 q.terms (GoFloat.lit 1.2) (GoFloat.lit 0.75) q.boost
        (GoFloat.div (GoFloat.ofInt (st.getFieldLength q.fieldName)) (GoFloat.ofInt (st.getFieldSize q.fieldName)))
        (GoFloat.ofInt (st.getFieldSize q.fieldName)) (st.getNumberFieldTerm q.fieldName q.terms) field
  else none

/-- the scores that the queries give a document, in the order of the queries. -/
def docScores {F : Type} [GoFloat F] (st : Reads) (query : List (Query F)) (d : String) : List F := query.filterMap (queryScore st · d)

end Goir
