import Verif.Model.Shared
import Verif.Model.ServerBytes
/-!
# Several instances of the program that have one folder

Each is a program of Model/ServerBytes (/repo/main.go) with its searches; as in Model/Shared they share nothing but the files, and the simplification is the one made there.
-/
namespace Goir

/-- the files, and the instances of the program. (/repo/main.go:113-219, several times) -/
structure Replicas (F : Type) where
  fs : FS
  procs : List (BServer F)

namespace Replicas
variable {F : Type} [GoFloat F]

/-- instance `v` and the files as they are now. (/repo/main.go:113-219, several times) -/
def sees (s : Replicas F) (v : BServer F) : BServer F := { v with disk := { v.disk with fs := s.fs } }

/-- one step of one instance; `cpus i` are the processors of instance `i`. (/repo/main.go:113-219, several times) -/
inductive Step (z : Bytes → Bytes) (root : Path) (allow : CDisk.Act → Prop) (cpus : Nat → Nat) : Replicas F → Replicas F → Prop where
  | mk (s : Replicas F) (i : Nat) (v v' : BServer F) (hi : s.procs[i]? = some v) (h : BServer.Step z root allow (cpus i) (s.sees v) v') : Step z root allow cpus s ⟨v'.disk.fs, s.procs.set i v'⟩

/-- `n` instances, none of them running yet. (/repo/main.go:113-219, several times) -/
def start (fs : FS) (n : Nat) : Replicas F := ⟨fs, List.replicate n { disk := ({ fs := fs } : BDisk).kill }⟩

/-- the states of a run from `t`, the last one first. (/repo/main.go:113-219, several times) -/
inductive Run (z : Bytes → Bytes) (root : Path) (allow : CDisk.Act → Prop) (cpus : Nat → Nat) (t : Replicas F) : List (Replicas F) → Prop where
  | start : Run z root allow cpus t [t]
  | step (s s' : Replicas F) (before : List (Replicas F)) (h : Run z root allow cpus t (s :: before)) (hs : Step z root allow cpus s s') : Run z root allow cpus t (s' :: s :: before)

end Replicas
end Goir
