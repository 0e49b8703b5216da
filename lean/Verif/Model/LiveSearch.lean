import Verif.Model.Concurrent
import Verif.Model.Search
/-!
# `InvertedIndex.Search` on a Memory store that clients are writing to

`Model/Search` has a store at rest. Here the goroutines of a search (/repo/index/InvertedIndex.go:35-121) read the maps of a `CMem` one access at a time while the clients of
`Model/Concurrent` write to it: a search from one HTTP request (/repo/main.go:165-190) runs at the same time as the saves of others (/repo/main.go:125-163).

A `range` over a map that is being added to visits, as the Go specification says, every entry that was there when the loop began, and each of the later ones
once or not at all.

Simplifications: as in `Model/FanIn` and `Model/Concurrent`. Other searches need not be in the model, because a search on a Memory store changes nothing.
-/
namespace Goir

/-- what a goroutine of a search does next. (/repo/index/InvertedIndex.go:35-121, /repo/storage/Memory.go:48-94) -/
inductive GAct (α : Type) where
  /-- takes the semaphore -/
  | acquire
  /-- reads the store, or moves on -/
  | look
  /-- sends on the channel -/
  | emit (x : α)
  /-- gives the semaphore back, Done -/
  | release

/-- goroutines of the kind `σ` and their channel, as `FanIn`, but what a goroutine sends depends on what it reads. (/repo/index/InvertedIndex.go:50-112) -/
structure LFan (σ α : Type) where
  gs     : List σ
  cap    : Nat
  sem    : Nat
  chan   : List α := []
  closed : Bool := false
  out    : List α := []

namespace LFan
variable {σ α : Type}

/-- one step; `act` is what the goroutines can do now, `holds` whether one has the semaphore, `fin` whether one is done
(/repo/index/InvertedIndex.go:50-69, 75 and 88-109, 112). -/
inductive Step (act : σ → GAct α → σ → Prop) (holds fin : σ → Bool) : LFan σ α → LFan σ α → Prop where
  /-- `semaphoreCh <- struct{}{}` (:56, 95) -/
  | acquire (s : LFan σ α) (i : Nat) (g g' : σ) (h : s.gs[i]? = some g) (ha : act g .acquire g') (hs : s.gs.countP holds < s.sem) :
      Step act holds fin s { s with gs := s.gs.set i g' }
  | look (s : LFan σ α) (i : Nat) (g g' : σ) (h : s.gs[i]? = some g) (ha : act g .look g') : Step act holds fin s { s with gs := s.gs.set i g' }
  /-- a send on the buffered channel (:59, 98-100) -/
  | send (s : LFan σ α) (i : Nat) (g g' : σ) (x : α) (h : s.gs[i]? = some g) (ha : act g (.emit x) g') (hc : s.chan.length < s.cap) :
      Step act holds fin s { s with gs := s.gs.set i g', chan := s.chan ++ [x] }
  /-- a send on an unbuffered channel, together with the receive -/
  | handoff (s : LFan σ α) (i : Nat) (g g' : σ) (x : α) (h : s.gs[i]? = some g) (ha : act g (.emit x) g') (hc : s.cap = 0) :
      Step act holds fin s { s with gs := s.gs.set i g', out := s.out ++ [x] }
  /-- `<-semaphoreCh` and Done (:62, 102, 54, 93) -/
  | release (s : LFan σ α) (i : Nat) (g g' : σ) (h : s.gs[i]? = some g) (ha : act g .release g') : Step act holds fin s { s with gs := s.gs.set i g' }
  /-- Wait returns, the channel is closed (:66-69, 106-109) -/
  | close (s : LFan σ α) (h : ∀ g ∈ s.gs, fin g = true) (hc : s.closed = false) : Step act holds fin s { s with closed := true }
  /-- the main goroutine receives (:75, 112) -/
  | recv (s : LFan σ α) (x : α) (q : List α) (h : s.chan = x :: q) : Step act holds fin s { s with chan := q, out := s.out ++ [x] }

/-- the main goroutine leaves its range loop. (/repo/index/InvertedIndex.go:50-112) -/
def Finished (s : LFan σ α) : Prop := s.closed = true ∧ s.chan = []

end LFan

/-- the goroutine of a term (/repo/index/InvertedIndex.go:53-63; GetDocuments: /repo/storage/Memory.go:72-79). -/
inductive TermG where
  | waiting (term : String)
  /-- `m.Index[fieldName]` -/
  | look (term : String)
  /-- `indexField[term]` -/
  | look2 (term : String) (r : Ref String)
  /-- in the loop over the set, whose map the copy shares; `must` were there when it began, `seen` have been visited -/
  | iter (term : String) (sr : Ref (String × String)) (must seen : List String)
  /-- about to send `id` -/
  | sending (term : String) (sr : Ref (String × String)) (must seen : List String) (id : String)
  | leaving
  | done

namespace TermG

/-- has it the semaphore? (/repo/index/InvertedIndex.go:35-121, /repo/storage/Memory.go:48-94). -/
def holds : TermG → Bool
  | .waiting _ | .done => false
  | _ => true

/-- has it finished? (/repo/index/InvertedIndex.go:35-121, /repo/storage/Memory.go:48-94). -/
def fin : TermG → Bool
  | .done => true
  | _ => false

/-- what it can do when the store is `m` (/repo/index/InvertedIndex.go:53-63, /repo/storage/Memory.go:72-79). -/
inductive Act (m : CMem) (f : String) : TermG → GAct String → TermG → Prop where
  | acquire (t : String) : Act m f (.waiting t) .acquire (.look t)
  | found (t : String) (r : Ref String) (h : m.index.get? f = some r) : Act m f (.look t) .look (.look2 t r)
  | unknown (t : String) (h : m.index.get? f = none) : Act m f (.look t) .look .leaving
  | found2 (t : String) (r : Ref String) (sr : Ref (String × String)) (h : (m.idxCells r).get? t = some sr) :
      Act m f (.look2 t r) .look (.iter t sr (m.setCells sr).getData.keys [])
  | unknown2 (t : String) (r : Ref String) (h : (m.idxCells r).get? t = none) : Act m f (.look2 t r) .look .leaving
  | next (t : String) (sr : Ref (String × String)) (must seen : List String) (id : String) (h : id ∈ (m.setCells sr).getData.keys) (hs : id ∉ seen) :
      Act m f (.iter t sr must seen) .look (.sending t sr must seen id)
  | send (t : String) (sr : Ref (String × String)) (must seen : List String) (id : String) :
      Act m f (.sending t sr must seen id) (.emit id) (.iter t sr must (id :: seen))
  | end_ (t : String) (sr : Ref (String × String)) (must seen : List String) (h : ∀ id ∈ must, id ∈ seen) : Act m f (.iter t sr must seen) .look .leaving
  | release : Act m f .leaving .release .done

end TermG

/-- the goroutine of a batch (/repo/index/InvertedIndex.go:92-103; GetFields: /repo/storage/Memory.go:81-94). -/
inductive BatchG where
  | waiting (ids : List String)
  /-- in the loop of GetFields: `m.FieldDocument[id]` for the next id -/
  | look (ids : List String) (fields : GoMap String Field)
  /-- `fieldDocument[fieldName]` -/
  | look2 (id : String) (r : Ref String) (ids : List String) (fields : GoMap String Field)
  /-- sending the fields it got, in the order of its own range loop -/
  | sending (rem : List (String × Field))
  | done

namespace BatchG

/-- has it the semaphore? (/repo/index/InvertedIndex.go:35-121, /repo/storage/Memory.go:48-94). -/
def holds : BatchG → Bool
  | .waiting _ | .done => false
  | _ => true

/-- has it finished? (/repo/index/InvertedIndex.go:35-121, /repo/storage/Memory.go:48-94). -/
def fin : BatchG → Bool
  | .done => true
  | _ => false

/-- what it can do when the store is `m` (/repo/index/InvertedIndex.go:92-103, /repo/storage/Memory.go:81-94). -/
inductive Act (m : CMem) (f : String) : BatchG → GAct (String × Field) → BatchG → Prop where
  | acquire (ids : List String) : Act m f (.waiting ids) .acquire (.look ids [])
  | found (id : String) (ids : List String) (fields : GoMap String Field) (r : Ref String) (h : m.fieldDocument.get? id = some r) :
      Act m f (.look (id :: ids) fields) .look (.look2 id r ids fields)
  | unknown (id : String) (ids : List String) (fields : GoMap String Field) (h : m.fieldDocument.get? id = none) :
      Act m f (.look (id :: ids) fields) .look (.look ids fields)
  | found2 (id : String) (r : Ref String) (ids : List String) (fields : GoMap String Field) (fl : Field) (h : (m.docCells r).get? f = some fl) :
      Act m f (.look2 id r ids fields) .look (.look ids (fields.set id fl))
  | unknown2 (id : String) (r : Ref String) (ids : List String) (fields : GoMap String Field) (h : (m.docCells r).get? f = none) :
      Act m f (.look2 id r ids fields) .look (.look ids fields)
  | range (fields rem : GoMap String Field) (h : List.Perm rem fields) : Act m f (.look [] fields) .look (.sending rem)
  | send (e : String × Field) (rem : List (String × Field)) : Act m f (.sending (e :: rem)) (.emit e) (.sending rem)
  | release : Act m f (.sending []) .release .done

end BatchG

/-- the numbers a search has read (/repo/index/InvertedIndex.go:39-44). -/
structure LStats where
  len  : Int := 0
  size : Int := 0
  nft  : GoMap String Int := []

/-- a search in progress. (/repo/index/InvertedIndex.go:35-121, /repo/storage/Memory.go:48-94) -/
inductive LSearch where
  /-- about to read the length (/repo/index/InvertedIndex.go:39) -/
  | readLen
  /-- about to read the size (:40) -/
  | readSize (st : LStats)
  /-- in GetNumberFieldTerm (:43; /repo/storage/Memory.go:50-52): `m.NumberFieldTerm[fieldName]` for the next term -/
  | readNft (st : LStats) (todo : List String)
  /-- `…[term]` -/
  | readTerm (st : LStats) (r : Ref String) (term : String) (todo : List String)
  /-- the goroutines of the terms (:46-83) -/
  | phase1 (st : LStats) (fan : LFan TermG String)
  /-- the goroutines of the batches (:85-117) -/
  | phase2 (st : LStats) (fan : LFan BatchG (String × Field))
  /-- returned (:119-123) -/
  | done (st : LStats) (docs : GoMap String Field)

namespace LSearch

/-- one step of a search for `terms` in field `f` while the store is `m` (/repo/index/InvertedIndex.go:35-121). -/
inductive Step (m : CMem) (terms : List String) (f : String) (cpus : Nat) : LSearch → LSearch → Prop where
  | readLen : Step m terms f cpus .readLen (.readSize { len := m.fieldLength.getD f 0 })
  | readSize (st : LStats) : Step m terms f cpus (.readSize st) (.readNft { st with size := m.fieldSize.getD f 0 } terms)
  | nftFound (st : LStats) (t : String) (ts : List String) (r : Ref String) (h : m.numberFieldTerm.get? f = some r) :
      Step m terms f cpus (.readNft st (t :: ts)) (.readTerm st r t ts)
  | nftUnknown (st : LStats) (t : String) (ts : List String) (h : m.numberFieldTerm.get? f = none) :
      Step m terms f cpus (.readNft st (t :: ts)) (.readNft { st with nft := st.nft.set t 0 } ts)
  | readTerm (st : LStats) (r : Ref String) (t : String) (ts : List String) :
      Step m terms f cpus (.readTerm st r t ts) (.readNft { st with nft := st.nft.set t ((m.nftCells r).getD t 0) } ts)
  | begin1 (st : LStats) :
      Step m terms f cpus (.readNft st []) (.phase1 st { gs := terms.map .waiting, cap := terms.length, sem := cpus * 2 })
  | p1 (st : LStats) (s s' : LFan TermG String) (h : LFan.Step (TermG.Act m f) TermG.holds TermG.fin s s') : Step m terms f cpus (.phase1 st s) (.phase1 st s')
  | begin2 (st : LStats) (s : LFan TermG String) (h : s.Finished) :
      Step m terms f cpus (.phase1 st s) (.phase2 st { gs := (makeBatches s.out).map .waiting, cap := terms.length, sem := cpus * 2 })
  | p2 (st : LStats) (s s' : LFan BatchG (String × Field)) (h : LFan.Step (BatchG.Act m f) BatchG.holds BatchG.fin s s') :
      Step m terms f cpus (.phase2 st s) (.phase2 st s')
  | finish (st : LStats) (s : LFan BatchG (String × Field)) (h : s.Finished) : Step m terms f cpus (.phase2 st s) (.done st (collectFields s.out))

/-- what it returns (/repo/index/InvertedIndex.go:42-44, 119-123). -/
def result {F : Type} [GoFloat F] (st : LStats) (docs : GoMap String Field) : SearchResult F where
  avgDocLength := GoFloat.div (GoFloat.ofInt st.len) (GoFloat.ofInt st.size)
  fieldDocuments := docs
  totalDocuments := GoFloat.ofInt st.size
  numFieldsWithTerm := st.nft

end LSearch

/-- the store with its clients, and a search. (/repo/index/InvertedIndex.go:35-121, /repo/storage/Memory.go:48-94) -/
structure Live where
  conc : Conc
  search : LSearch

namespace Live

/-- one step of a client or of the search. (/repo/index/InvertedIndex.go:35-121, /repo/storage/Memory.go:48-94) -/
inductive Step (terms : List String) (f : String) (cpus : Nat) : Live → Live → Prop where
  | client (s : Live) (c : Conc) (i k : Nat) (h : s.conc.step i k = some c) : Step terms f cpus s { s with conc := c }
  | search (s : Live) (q : LSearch) (h : LSearch.Step s.conc.mem terms f cpus s.search q) : Step terms f cpus s { s with search := q }

end Live
end Goir
