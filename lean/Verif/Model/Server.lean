import Verif.Model.LiveDisk
import Verif.Model.Http
/-!
# The program of /repo/main.go: one Disk store, POST handlers that save to it and GET handlers that search it

The POST handlers (/repo/main.go:122-163) are the clients of the store (`CDisk`): a POST is a client that makes three calls of SaveOrUpdate. A GET handler
(/repo/main.go:164-215) calls `Standard.Search` (/repo/search/Standard.go:21-72), which runs one goroutine per query; each of them calls
`InvertedIndex.Search`, which is a `DSearch`. Any number of requests are under way at the same time, a request may arrive at any moment, and the process may end at any
moment and be started again; the store is then opened from its folder, and the requests are gone.

Simplifications: those of `Model/LiveDisk`; gin and JSON are not modelled.
-/
namespace Goir

/-- the goroutine of one query (/repo/search/Standard.go:27-44). -/
inductive DQ where
  /-- in Index.Search, or after it -/
  | running (x : DSearch)
  /-- has sent its scores -/
  | sent

/-- a call of `Standard.Search` in progress: `SState` with searches of a live store. (/repo/main.go:113-219) -/
structure DReq (F : Type) where
  threads : List (Query F × DQ)
  chan    : List (Scores F) := []
  closed  : Bool := false
  temp    : GoMap String F := []
  result  : Option (Scores F) := none

namespace DReq
variable {F : Type} [GoFloat F]

/-- at the beginning (/repo/search/Standard.go:23-50). -/
def start (query : List (Query F)) : DReq F := { threads := query.map fun q => (q, .running (.first .readLen)) }

/-- one step of a request, and what it does to the store (/repo/search/Standard.go:21-72). -/
inductive Move (cpus : Nat) : CDisk → DReq F → CDisk → DReq F → Prop where
  /-- the goroutine of query `i` runs Index.Search (:29) -/
  | inner (d d' : CDisk) (s : DReq F) (i : Nat) (q : Query F) (x x' : DSearch) (ht : s.threads[i]? = some (q, .running x))
      (h : DLive.Move q.terms q.fieldName cpus ⟨d, x⟩ ⟨d', x'⟩) : Move cpus d s d' { s with threads := s.threads.set i (q, .running x') }
  /-- it sends its scores and is done (:30-41, 28); the channel has room for one message per query -/
  | send (d : CDisk) (s : DReq F) (i : Nat) (q : Query F) (st : LStats) (docs : GoMap String Field) (order : List (String × Field))
      (ht : s.threads[i]? = some (q, .running (.done st docs))) (ho : order.Perm docs) (hc : s.chan.length < s.threads.length) :
      Move cpus d s d { s with threads := s.threads.set i (q, .sent), chan := s.chan ++ [SState.scores q (LSearch.result st docs) order] }
  /-- Wait returns, the channel is closed (:46-49) -/
  | close (d : CDisk) (s : DReq F) (h : ∀ t ∈ s.threads, t.2 = .sent) (hc : s.closed = false) : Move cpus d s d { s with closed := true }
  /-- the main goroutine receives and adds up (:51-57) -/
  | recv (d : CDisk) (s : DReq F) (l : Scores F) (q : List (Scores F)) (h : s.chan = l :: q) : Move cpus d s d { s with chan := q, temp := l.foldl SState.addScore s.temp }
  /-- it leaves the loop, copies the map into a slice in some order, sorts it and returns (:59-72) -/
  | return_ (d : CDisk) (s : DReq F) (order l : Scores F) (h : s.closed = true ∧ s.chan = []) (hr : s.result = none) (ho : order.Perm s.temp) (hl : SortSlice order l) :
      Move cpus d s d { s with result := some l }

end DReq

/-- the store with its folder and its clients, and the searches under way. (/repo/main.go:113-219) -/
structure Server (F : Type) where
  disk : CDisk := {}
  reqs : List (DReq F) := []

namespace Server
variable {F : Type} [GoFloat F]

/-- one step of the program or of its environment; `allow` says what the clients and the process may do (/repo/main.go:107-219). -/
inductive Step (allow : CDisk.Act → Prop) (cpus : Nat) : Server F → Server F → Prop where
  /-- a step of a client or of a goroutine of the store, the end of the process, or its start -/
  | store (s : Server F) (a : CDisk.Act) (d : CDisk) (ha : allow a) (h : s.disk.exec a = some d) : Step allow cpus s { disk := d, reqs := if d.up then s.reqs else [] }
  /-- a search begins -/
  | arrive (s : Server F) (query : List (Query F)) (hu : s.disk.up = true) : Step allow cpus s { s with reqs := s.reqs ++ [DReq.start query] }
  /-- search number `i` makes a step -/
  | req (s : Server F) (i : Nat) (r r' : DReq F) (d : CDisk) (hr : s.reqs[i]? = some r) (h : DReq.Move cpus s.disk r d r') : Step allow cpus s { disk := d, reqs := s.reqs.set i r' }

/-- a step during which the process does not end. (/repo/main.go:113-219) -/
def UpStep (allow : CDisk.Act → Prop) (cpus : Nat) (s s' : Server F) : Prop := Step allow cpus s s' ∧ s'.disk.up = true

end Server
end Goir
