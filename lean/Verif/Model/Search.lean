import Verif.Model.FanIn
import Verif.Model.Score
import Verif.Model.Memory
/-!
# Packages `index` and `search`: InvertedIndex.Search and Standard.Search

Both are programs of many goroutines; they are transition systems here, and a theorem about every reachable state is a theorem
about every schedule and every map iteration order.

Simplification: nothing is saved while a search runs (C57–C62 are about searches on a store at rest).
-/
namespace Goir

/-- what the reading methods of a Storage (/repo/storage/Storage.go:9-23) answer. -/
structure Reads where
  getDocuments       : String → String → GoSet × Bool
  getFields          : List String → String → GoMap String Field
  getFieldSize       : String → Int
  getFieldLength     : String → Int
  getNumberFieldTerm : String → List String → GoMap String Int

/-- a Memory store. (/repo/storage/Memory.go:48-94) -/
def Memory.reads (m : Memory) : Reads where
  getDocuments := m.getDocuments
  getFields := m.getFields
  getFieldSize := m.getFieldSize
  getFieldLength := m.getFieldLength
  getNumberFieldTerm := m.getNumberFieldTerm

/-- `model.SearchResult` (/repo/model/SearchResult.go:3-8). -/
structure SearchResult (F : Type) where
  avgDocLength      : F
  fieldDocuments    : GoMap String Field
  totalDocuments    : F
  numFieldsWithTerm : GoMap String Int

/-- what the goroutine of a term ranges over (/repo/index/InvertedIndex.go:57-58). -/
def termSource (st : Reads) (fieldName term : String) : List String :=
  match st.getDocuments fieldName term with
  | (documents, true) => documents.getData.keys
  | (_, false) => []

/-- `numBatches := 5` (/repo/index/InvertedIndex.go:71). -/
def numBatches : Nat := 5

/-- batches, hasDocument and ixx (/repo/index/InvertedIndex.go:72-74). -/
structure Batching where
  batches     : List (List String) := List.replicate numBatches []
  hasDocument : GoMap String Bool := []
  ixx         : Nat := 0

/-- the body of the receiving loop (/repo/index/InvertedIndex.go:76-82). -/
def Batching.add (b : Batching) (id : String) : Batching :=
  if (b.hasDocument.get? id).isSome then b else
    { batches := b.batches.modify (b.ixx % numBatches) (· ++ [id])
      hasDocument := b.hasDocument.set id true
      ixx := b.ixx + 1 }

/-- the batches made of the received ids (/repo/index/InvertedIndex.go:71-83). -/
def makeBatches (ids : List String) : List (List String) := (ids.foldl Batching.add {}).batches

/-- the receiving loop of the second phase (/repo/index/InvertedIndex.go:111-117). -/
def collectFields (out : List (String × Field)) : GoMap String Field := out.foldl (fun m e => m.set e.1 e.2) []

/-- `InvertedIndex.Search` (/repo/index/InvertedIndex.go:35-124): in its first phase, in its second, or returned. -/
inductive IState (F : Type) where
  | phase1 (m : FanIn String)
  | phase2 (m : FanIn (String × Field))
  | done (r : SearchResult F)

namespace IState
variable {F : Type} [GoFloat F]

/-- at the beginning; `cpus` is runtime.NumCPU() (/repo/index/InvertedIndex.go:37, 46-64). -/
def start (st : Reads) (terms : List String) (fieldName : String) (cpus : Nat) : IState F :=
  .phase1 (FanIn.start (terms.map (termSource st fieldName)) terms.length (cpus * 2))

/-- the result (/repo/index/InvertedIndex.go:39-44, 119-123). -/
def result (st : Reads) (terms : List String) (fieldName : String) (out : List (String × Field)) : SearchResult F where
  avgDocLength := GoFloat.div (GoFloat.ofInt (st.getFieldLength fieldName)) (GoFloat.ofInt (st.getFieldSize fieldName))
  fieldDocuments := collectFields out
  totalDocuments := GoFloat.ofInt (st.getFieldSize fieldName)
  numFieldsWithTerm := st.getNumberFieldTerm fieldName terms

/-- one step. (/repo/index/InvertedIndex.go:35-128, /repo/search/Standard.go:21-119) -/
inductive Step (st : Reads) (terms : List String) (fieldName : String) (cpus : Nat) : IState F → IState F → Prop where
  | p1 (m m' : FanIn String) (h : FanIn.Step m m') : Step st terms fieldName cpus (.phase1 m) (.phase1 m')
  | next (m : FanIn String) (h : m.Finished) : Step st terms fieldName cpus (.phase1 m)
      (.phase2 (FanIn.start ((makeBatches m.out).map fun documentsId => st.getFields documentsId fieldName) terms.length (cpus * 2)))
  | p2 (m m' : FanIn (String × Field)) (h : FanIn.Step m m') : Step st terms fieldName cpus (.phase2 m) (.phase2 m')
  | finish (m : FanIn (String × Field)) (h : m.Finished) : Step st terms fieldName cpus (.phase2 m) (.done (result st terms fieldName m.out))

end IState

/-- `model.Query` (/repo/model/Query.go:3-7). -/
structure Query (F : Type) where
  fieldName : String
  boost     : F
  terms     : List String

/-- a list of `model.DocumentScore` (/repo/model/DocumentScore.go:3-6). -/
abbrev Scores (F : Type) := List (String × F)

/-- the goroutine of one query (/repo/search/Standard.go:27-44). -/
inductive QState (F : Type) where
  | running (s : IState F)
  | sent

/-- `Standard.Search`. (/repo/search/Standard.go:21-72) -/
structure SState (F : Type) where
  threads : List (QState F)
  chan    : List (Scores F) := []
  closed  : Bool := false
  temp    : GoMap String F := []              -- tempScores
  result  : Option (Scores F) := none         -- what Search returned

/-- `sort.Slice(l, func(i, j) bool { return l[i].Score > l[j].Score })` (/repo/search/Standard.go:68-70): rearranges the slice; if
the comparison is a strict weak ordering of its scores, no later element has a greater score than an earlier one.  (The algorithm
is not modelled; ties and, with NaN, everything may come in any order.) -/
def SortSlice {F : Type} [GoFloat F] (l l' : Scores F) : Prop :=
  l'.Perm l ∧ ((∀ x ∈ l, GoFloat.gt x.2 x.2 = false) →
    (∀ x ∈ l, ∀ y ∈ l, ∀ z ∈ l, GoFloat.gt x.2 y.2 = true → GoFloat.gt y.2 z.2 = true → GoFloat.gt x.2 z.2 = true) →
    (∀ x ∈ l, ∀ y ∈ l, ∀ z ∈ l, GoFloat.gt x.2 y.2 = false → GoFloat.gt y.2 z.2 = false → GoFloat.gt x.2 z.2 = false) →
    l'.Pairwise fun x y => GoFloat.gt y.2 x.2 = false)

namespace SState
variable {F : Type} [GoFloat F]

/-- at the beginning (/repo/search/Standard.go:23-50). -/
def start (st : Reads) (query : List (Query F)) (cpus : Nat) : SState F :=
  { threads := query.map fun q => .running (IState.start st q.terms q.fieldName cpus) }

/-- the score of a document (/repo/search/Standard.go:35). -/
def score (q : Query F) (r : SearchResult F) (field : Field) : F :=
  bm25 q.terms (GoFloat.lit 1.2) (GoFloat.lit 0.75) q.boost r.avgDocLength r.totalDocuments r.numFieldsWithTerm field

/-- documentsScores, for a given iteration order of FieldDocuments (/repo/search/Standard.go:30-39). -/
def scores (q : Query F) (r : SearchResult F) (order : List (String × Field)) : Scores F := order.map fun e => (e.1, score q r e.2)

/-- `tempScores[document.Id] += document.Score` (/repo/search/Standard.go:55). -/
def addScore (temp : GoMap String F) (e : String × F) : GoMap String F := temp.set e.1 (GoFloat.add (temp.getD e.1 (GoFloat.lit 0)) e.2)

/-- one step. (/repo/index/InvertedIndex.go:35-128, /repo/search/Standard.go:21-119) -/
inductive Step (st : Reads) (query : List (Query F)) (cpus : Nat) : SState F → SState F → Prop where
  /-- the goroutine of query `i` runs Index.Search (/repo/search/Standard.go:29) -/
  | inner (s : SState F) (i : Nat) (q : Query F) (t t' : IState F) (hq : query[i]? = some q) (ht : s.threads[i]? = some (.running t))
      (h : IState.Step st q.terms q.fieldName cpus t t') : Step st query cpus s { s with threads := s.threads.set i (.running t') }
  /-- it sends its scores and is done (/repo/search/Standard.go:40, 28); the channel has room for one message per query -/
  | send (s : SState F) (i : Nat) (q : Query F) (r : SearchResult F) (order : List (String × Field)) (hq : query[i]? = some q)
      (ht : s.threads[i]? = some (.running (.done r))) (ho : order.Perm r.fieldDocuments) (hc : s.chan.length < query.length) :
      Step st query cpus s { s with threads := s.threads.set i .sent, chan := s.chan ++ [scores q r order] }
  /-- Wait returns, the channel is closed (/repo/search/Standard.go:46-49) -/
  | close (s : SState F) (h : ∀ t ∈ s.threads, t = .sent) (hc : s.closed = false) : Step st query cpus s { s with closed := true }
  /-- the main goroutine receives and adds up (/repo/search/Standard.go:51-57) -/
  | recv (s : SState F) (l : Scores F) (q : List (Scores F)) (h : s.chan = l :: q) :
      Step st query cpus s { s with chan := q, temp := l.foldl addScore s.temp }
  /-- it leaves the loop, copies the map into a slice in some order, sorts it and returns (/repo/search/Standard.go:59-72) -/
  | return_ (s : SState F) (order l : Scores F) (h : s.closed = true ∧ s.chan = []) (hr : s.result = none)
      (ho : order.Perm s.temp) (hl : SortSlice order l) : Step st query cpus s { s with result := some l }

/-- `l` is a possible result of `Search(query)`: some schedule ends with it. (/repo/index/InvertedIndex.go:35-128, /repo/search/Standard.go:21-119) -/
def Returns (st : Reads) (query : List (Query F)) (cpus : Nat) (l : Scores F) : Prop :=
  ∃ s, Reaches (Step st query cpus) (start st query cpus) s ∧ s.result = some l

end SState
end Goir
