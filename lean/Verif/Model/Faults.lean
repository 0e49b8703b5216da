import Verif.Model.DiskBytes
/-!
# A Disk store on a file system that can fail

In Verif.Model.DiskBytes a file operation fails only when the files make it fail (a file that is not there). Here any operation can fail at any time for any other reason (no space,
too many open files, a bad disk); what the code does then is its error branches. A write that fails has written any number of bytes before (these are steps of their own); a rename or a
removal that fails has changed nothing.

Simplification: when the merge cannot read an index file, the folder `temp` that it would have made just before (/repo/storage/DiskIO.go:98) is left as it was.
-/
namespace Goir
namespace BDisk

/-- what can happen next. (the error branches of /repo/storage/DiskStorage.go:25-84, 118-139 and /repo/storage/DiskIO.go:23-379) -/
inductive FAct where
  /-- a step without such an error -/
  | ok (a : CDisk.Act)
  /-- LoadIndexOnHD, on opening or in the background: reading an index or a fragment, an operation of SecureSaveFile other than the next one, or deleting a fragment fails (/repo/storage/DiskIO.go:101-104, 108-111, 136-139, 144-147) -/
  | mergeError
  /-- LoadIndexOnHD: the rename of `index_temp` to `index` fails (/repo/file/File.go:153-156, /repo/storage/DiskIO.go:136-139) -/
  | renameError
  /-- client `i`: ReadFileOnDisk of a document fails (/repo/storage/DiskIO.go:64-67) -/
  | readError (i : Nat)
  /-- an error that ends the process: of one of the four writers (/repo/storage/DiskIO.go:212-214, 254-256, 296-298, 362-364), of MkdirAll or ReadDir (/repo/file/File.go:74-79, 105-109, 124-127), or of NewDiskStore (/repo/storage/DiskStorage.go:36-38, 43-45, 50-52) -/
  | fatal
deriving DecidableEq, Repr

/-- the merge is at a file operation whose error LoadIndexOnHD returns; `rename`: it is the rename of `index_temp` to `index`. (the error branches of /repo/storage/DiskStorage.go:25-84, 118-139 and /repo/storage/DiskIO.go:23-379) -/
def mergeAt (s : BDisk) (rename : Bool) : Bool :=
  match s.d.ix.merger, s.saveI with
  | .atField (_ :: _) _, none => !rename
  | .reading _ _ _ (_ :: _) _ _, none => !rename
  | .reading _ _ _ [] _ _, some (_, .moved) => rename
  | .reading _ _ _ [] _ _, some (_, .done) => false
  | .reading _ _ _ [] _ _, some (_, .failed) => false
  | .reading _ _ _ [] _ _, some _ => !rename
  | .deleting _ _ (_ :: _) _, none => !rename
  | _, _ => false

/-- the effect of an action, `none` if it is not possible. (the error branches of /repo/storage/DiskStorage.go:25-84, 118-139 and /repo/storage/DiskIO.go:23-379) -/
def fexec (z : Bytes → Bytes) (root : Path) (s : BDisk) : FAct → Option BDisk
  | .ok a => s.exec z root a
  | .mergeError => if s.d.ix.proc ≠ .down ∧ s.mergeAt false = true then some s.loadError else none
  | .renameError => if s.d.ix.proc ≠ .down ∧ s.mergeAt true = true then some s.loadError else none
  | .readError i =>
    match s.d.curOf i with
    | some (.read ids name (.load _ todo out)) => if s.d.up then some { s with d := s.d.handoff i (some (.read ids name (.get todo out))) } else none
    | _ => none
  | .fatal => if s.d.ix.proc ≠ .down then some s.kill else none

/-- a sequence of actions. (the error branches of /repo/storage/DiskStorage.go:25-84, 118-139 and /repo/storage/DiskIO.go:23-379) -/
def frun (z : Bytes → Bytes) (root : Path) (s : BDisk) (as : List FAct) : Option BDisk := as.foldlM (fexec z root) s

end BDisk
end Goir
