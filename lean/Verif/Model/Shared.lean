import Verif.Model.DiskBytes
/-!
# Several processes that have one folder

Each process is a store of Model/DiskBytes (NewDiskStore on the same rootFolder, /repo/storage/DiskStorage.go:29-104); they share nothing but the files. One step is one step of one of them. A process writes to an open file by its path: this is what the
operating system does as long as no other process renames or removes the file in between.
-/
namespace Goir

/-- the files, and the processes. (/repo/storage/DiskStorage.go:25-228, several times) -/
structure Shared where
  fs : FS
  procs : List BDisk

namespace Shared

/-- process `p` and the files as they are now. (/repo/storage/DiskStorage.go:25-228, several times) -/
def sees (s : Shared) (p : BDisk) : BDisk := { p with fs := s.fs }

/-- one step of process `i`. (/repo/storage/DiskStorage.go:25-228, several times) -/
def exec (z : Bytes → Bytes) (root : Path) (s : Shared) (x : Nat × CDisk.Act) : Option Shared :=
  match s.procs[x.1]? with
  | none => none
  | some p => ((s.sees p).exec z root x.2).map fun p' => ⟨p'.fs, s.procs.set x.1 p'⟩

/-- a sequence of steps. (/repo/storage/DiskStorage.go:25-228, several times) -/
def run (z : Bytes → Bytes) (root : Path) (s : Shared) (xs : List (Nat × CDisk.Act)) : Option Shared := xs.foldlM (exec z root) s

/-- `n` processes, none of them running yet. (/repo/storage/DiskStorage.go:25-228, several times) -/
def start (fs : FS) (n : Nat) : Shared := ⟨fs, List.replicate n ({ fs := fs } : BDisk).kill⟩

end Shared
end Goir
