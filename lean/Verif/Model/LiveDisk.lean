import Verif.Model.ConcurrentDisk
import Verif.Model.LiveSearch
/-!
# `InvertedIndex.Search` on a Disk store that clients are using

This is what the program of /repo/main.go does: GET /nir searches (/repo/main.go:164-190) the Disk store that the POST /nir handlers of other connections are saving to (/repo/main.go:122-163).

The numbers and the postings are read from the maps of the store as in `Model/LiveSearch` (/repo/storage/DiskStorage.go:89-116 is the code of /repo/storage/Memory.go:48-79). The
goroutines of the batches call the store's GetFields (/repo/storage/DiskStorage.go:118-139), which reads and writes the cache and reads files (`CDisk.rexec`).

What other searches do to the store at the same time is what clients that call GetFields do to it, so they are among the clients.

Simplifications: those of `Model/LiveSearch` and `Model/ConcurrentDisk`.
-/
namespace Goir

/-- the goroutine of a batch (/repo/index/InvertedIndex.go:92-103). -/
inductive DBatchG where
  | waiting (ids : List String)
  /-- inside GetFields -/
  | reading (ids : List String) (loc : RLoc)
  /-- sending the fields it got, in the order of its own range loop -/
  | sending (rem : List (String × Field))
  | done

namespace DBatchG

/-- has it the semaphore? (/repo/index/InvertedIndex.go:35-121, /repo/storage/DiskStorage.go:89-139). -/
def holds : DBatchG → Bool
  | .waiting _ | .done => false
  | _ => true

/-- has it finished? (/repo/index/InvertedIndex.go:35-121, /repo/storage/DiskStorage.go:89-139). -/
def fin : DBatchG → Bool
  | .done => true
  | _ => false

/-- what it can do without the store (/repo/index/InvertedIndex.go:95-96, 97-101, 102). -/
inductive Act : DBatchG → GAct (String × Field) → DBatchG → Prop where
  | acquire (ids : List String) : Act (.waiting ids) .acquire (.reading ids (.get ids []))
  | send (e : String × Field) (rem : List (String × Field)) : Act (.sending (e :: rem)) (.emit e) (.sending rem)
  | release : Act (.sending []) .release .done

end DBatchG

/-- a search of a Disk store. (/repo/index/InvertedIndex.go:35-121, /repo/storage/DiskStorage.go:89-139) -/
inductive DSearch where
  /-- reading the numbers, or in the phase of the terms (/repo/index/InvertedIndex.go:39-83): as on a Memory store -/
  | first (q : LSearch)
  /-- the goroutines of the batches (:85-117) -/
  | phase2 (st : LStats) (fan : LFan DBatchG (String × Field))
  /-- returned (:119-123) -/
  | done (st : LStats) (docs : GoMap String Field)

/-- not yet in the phase of the batches. (/repo/index/InvertedIndex.go:35-121, /repo/storage/DiskStorage.go:89-139) -/
def LSearch.early : LSearch → Bool
  | .phase2 .. | .done .. => false
  | _ => true

/-- a Disk store with its clients, and a search. (/repo/storage/DiskStorage.go:11-23, /repo/index/InvertedIndex.go:35-121) -/
structure DLive where
  disk : CDisk
  search : DSearch

namespace DLive

/-- one step of the search (/repo/index/InvertedIndex.go:35-121). -/
inductive Move (terms : List String) (f : String) (cpus : Nat) : DLive → DLive → Prop where
  | first (d : CDisk) (q q' : LSearch) (h : LSearch.Step d.mem terms f cpus q q') (he : q'.early = true) : Move terms f cpus ⟨d, .first q⟩ ⟨d, .first q'⟩
  | begin2 (d : CDisk) (st : LStats) (fan : LFan TermG String) (h : fan.Finished) :
      Move terms f cpus ⟨d, .first (.phase1 st fan)⟩ ⟨d, .phase2 st { gs := (makeBatches fan.out).map .waiting, cap := terms.length, sem := cpus * 2 }⟩
  | p2 (d : CDisk) (st : LStats) (fan fan' : LFan DBatchG (String × Field)) (h : LFan.Step DBatchG.Act DBatchG.holds DBatchG.fin fan fan') :
      Move terms f cpus ⟨d, .phase2 st fan⟩ ⟨d, .phase2 st fan'⟩
  /-- a step inside GetFields -/
  | fetch (d d' : CDisk) (st : LStats) (fan : LFan DBatchG (String × Field)) (i : Nat) (ids : List String) (loc loc' : RLoc) (hg : fan.gs[i]? = some (.reading ids loc))
      (h : d.rexec f loc = some (d', .inl loc')) : Move terms f cpus ⟨d, .phase2 st fan⟩ ⟨d', .phase2 st { fan with gs := fan.gs.set i (.reading ids loc') }⟩
  /-- GetFields returns, and the `range` over its result begins -/
  | fetched (d d' : CDisk) (st : LStats) (fan : LFan DBatchG (String × Field)) (i : Nat) (ids : List String) (loc : RLoc) (out : GoMap String Field) (rem : List (String × Field))
      (hg : fan.gs[i]? = some (.reading ids loc)) (h : d.rexec f loc = some (d', .inr out)) (hp : List.Perm rem out) :
      Move terms f cpus ⟨d, .phase2 st fan⟩ ⟨d', .phase2 st { fan with gs := fan.gs.set i (.sending rem) }⟩
  | finish (d : CDisk) (st : LStats) (fan : LFan DBatchG (String × Field)) (h : fan.Finished) : Move terms f cpus ⟨d, .phase2 st fan⟩ ⟨d, .done st (collectFields fan.out)⟩

/-- one step of the store (of a client or of one of its goroutines; the process does not end) or of the search. (/repo/index/InvertedIndex.go:35-121, /repo/storage/DiskStorage.go:89-139) -/
inductive Step (terms : List String) (f : String) (cpus : Nat) : DLive → DLive → Prop where
  | store (s : DLive) (a : CDisk.Act) (d : CDisk) (h : s.disk.exec a = some d) (hu : d.up = true) : Step terms f cpus s { s with disk := d }
  | search (s s' : DLive) (h : Move terms f cpus s s') : Step terms f cpus s s'

end DLive
end Goir
