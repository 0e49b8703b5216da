import Verif.Model.DiskBytes
import Verif.Model.Server
/-!
# The program of /repo/main.go on the bytes of its files

`Server` (Verif.Model.Server) with the store of `Verif.Model.DiskBytes`: one file system of bytes, in which the POST handlers, the goroutines of the store and the searches
read and write. The steps of a search are those of `DReq.Move` and `DLive.Move`; the one that reads a file reads bytes.

Simplifications: those of the two models.
-/
namespace Goir

/-- one step of GetFields (/repo/storage/DiskStorage.go:118-139), as `CDisk.rexec`; in place of a result, `none` says that reading the file has ended the process (a panic in DecompressData or DeserializeFieldMap,
/repo/storage/DiskIO.go:62-69: no handler recovers it, it is in a goroutine of the search). -/
def BDisk.rexec (root : Path) (s : BDisk) (name : String) : RLoc → Option (BDisk × Option (RLoc ⊕ GoMap String Field))
  | .load id todo out =>
    match BDisk.loadDoc s.fs root id with
    | none => some (s.kill, none)
    | some none => some (s, some (.inl (.get todo out)))
    | some (some fd) =>
      some ({ s with d := { s.d with mem := { s.d.mem with docCells := Ref.upd s.d.mem.docCells ⟨id, s.d.mem.next⟩ fd, next := s.d.mem.next + 1 } } },
        some (.inl (.put id ⟨id, s.d.mem.next⟩ todo (CDisk.found out id (fd.get? name)))))
  | loc => (s.d.rexec name loc).map fun x => ({ s with d := x.1 }, some x.2)

/-- one step of InvertedIndex.Search (/repo/index/InvertedIndex.go:35-121), as `DLive.Move`; `none` in place of the search: the process has ended. -/
inductive BMove (root : Path) (terms : List String) (f : String) (cpus : Nat) : BDisk → DSearch → BDisk → Option DSearch → Prop where
  | first (s : BDisk) (q q' : LSearch) (h : LSearch.Step s.d.mem terms f cpus q q') (he : q'.early = true) : BMove root terms f cpus s (.first q) s (some (.first q'))
  | begin2 (s : BDisk) (st : LStats) (fan : LFan TermG String) (h : fan.Finished) :
      BMove root terms f cpus s (.first (.phase1 st fan)) s (some (.phase2 st { gs := (makeBatches fan.out).map .waiting, cap := terms.length, sem := cpus * 2 }))
  | p2 (s : BDisk) (st : LStats) (fan fan' : LFan DBatchG (String × Field)) (h : LFan.Step DBatchG.Act DBatchG.holds DBatchG.fin fan fan') :
      BMove root terms f cpus s (.phase2 st fan) s (some (.phase2 st fan'))
  /-- a step inside GetFields -/
  | fetch (s s' : BDisk) (st : LStats) (fan : LFan DBatchG (String × Field)) (i : Nat) (ids : List String) (loc loc' : RLoc) (hg : fan.gs[i]? = some (.reading ids loc))
      (h : s.rexec root f loc = some (s', some (.inl loc'))) : BMove root terms f cpus s (.phase2 st fan) s' (some (.phase2 st { fan with gs := fan.gs.set i (.reading ids loc') }))
  /-- GetFields returns, and the `range` over its result begins -/
  | fetched (s s' : BDisk) (st : LStats) (fan : LFan DBatchG (String × Field)) (i : Nat) (ids : List String) (loc : RLoc) (out : GoMap String Field) (rem : List (String × Field))
      (hg : fan.gs[i]? = some (.reading ids loc)) (h : s.rexec root f loc = some (s', some (.inr out))) (hp : List.Perm rem out) :
      BMove root terms f cpus s (.phase2 st fan) s' (some (.phase2 st { fan with gs := fan.gs.set i (.sending rem) }))
  /-- GetFields panics -/
  | panics (s s' : BDisk) (st : LStats) (fan : LFan DBatchG (String × Field)) (i : Nat) (ids : List String) (loc : RLoc) (hg : fan.gs[i]? = some (.reading ids loc))
      (h : s.rexec root f loc = some (s', none)) : BMove root terms f cpus s (.phase2 st fan) s' none
  | finish (s : BDisk) (st : LStats) (fan : LFan DBatchG (String × Field)) (h : fan.Finished) : BMove root terms f cpus s (.phase2 st fan) s (some (.done st (collectFields fan.out)))

/-- one step of a request (/repo/search/Standard.go:21-72), as `DReq.Move`; `none` in place of the request: the process has ended. -/
inductive BReq.Move {F : Type} [GoFloat F] (root : Path) (cpus : Nat) : BDisk → DReq F → BDisk → Option (DReq F) → Prop where
  | inner (d d' : BDisk) (s : DReq F) (i : Nat) (q : Query F) (x x' : DSearch) (ht : s.threads[i]? = some (q, .running x)) (h : BMove root q.terms q.fieldName cpus d x d' (some x')) :
      Move root cpus d s d' (some { s with threads := s.threads.set i (q, .running x') })
  | panics (d d' : BDisk) (s : DReq F) (i : Nat) (q : Query F) (x : DSearch) (ht : s.threads[i]? = some (q, .running x)) (h : BMove root q.terms q.fieldName cpus d x d' none) : Move root cpus d s d' none
  | send (d : BDisk) (s : DReq F) (i : Nat) (q : Query F) (st : LStats) (docs : GoMap String Field) (order : List (String × Field))
      (ht : s.threads[i]? = some (q, .running (.done st docs))) (ho : order.Perm docs) (hc : s.chan.length < s.threads.length) :
      Move root cpus d s d (some { s with threads := s.threads.set i (q, .sent), chan := s.chan ++ [SState.scores q (LSearch.result st docs) order] })
  | close (d : BDisk) (s : DReq F) (h : ∀ t ∈ s.threads, t.2 = .sent) (hc : s.closed = false) : Move root cpus d s d (some { s with closed := true })
  | recv (d : BDisk) (s : DReq F) (l : Scores F) (q : List (Scores F)) (h : s.chan = l :: q) : Move root cpus d s d (some { s with chan := q, temp := l.foldl SState.addScore s.temp })
  | return_ (d : BDisk) (s : DReq F) (order l : Scores F) (h : s.closed = true ∧ s.chan = []) (hr : s.result = none) (ho : order.Perm s.temp) (hl : SortSlice order l) :
      Move root cpus d s d (some { s with result := some l })

/-- the store with its file system and its clients, and the searches under way. (/repo/main.go:113-219) -/
structure BServer (F : Type) where
  disk : BDisk
  reqs : List (DReq F) := []

namespace BServer
variable {F : Type} [GoFloat F]

/-- one step of the program or of its environment; `allow` says what the clients and the process may do (/repo/main.go:107-219). -/
inductive Step (z : Bytes → Bytes) (root : Path) (allow : CDisk.Act → Prop) (cpus : Nat) : BServer F → BServer F → Prop where
  /-- a step of a client or of a goroutine of the store, the end of the process, or its start -/
  | store (s : BServer F) (a : CDisk.Act) (d : BDisk) (ha : allow a) (h : s.disk.exec z root a = some d) : Step z root allow cpus s { disk := d, reqs := if d.d.up then s.reqs else [] }
  /-- a search begins -/
  | arrive (s : BServer F) (query : List (Query F)) (hu : s.disk.d.up = true) : Step z root allow cpus s { s with reqs := s.reqs ++ [DReq.start query] }
  /-- search number `i` makes a step -/
  | req (s : BServer F) (i : Nat) (r r' : DReq F) (d : BDisk) (hr : s.reqs[i]? = some r) (h : BReq.Move root cpus s.disk r d (some r')) : Step z root allow cpus s { disk := d, reqs := s.reqs.set i r' }
  /-- search number `i` panics -/
  | panics (s : BServer F) (i : Nat) (r : DReq F) (d : BDisk) (hr : s.reqs[i]? = some r) (h : BReq.Move root cpus s.disk r d none) : Step z root allow cpus s { disk := d }

/-- a step during which the process does not end. (/repo/main.go:113-219) -/
def UpStep (z : Bytes → Bytes) (root : Path) (allow : CDisk.Act → Prop) (cpus : Nat) (s s' : BServer F) : Prop := Step z root allow cpus s s' ∧ s'.disk.d.up = true

end BServer
end Goir
