import Verif.Spec.Opening
/-!
# What a copy of a folder is that is taken file by file
-/
namespace Goir.Spec.Backup
open Goir

/-- `copy` has been taken of a folder, file by file: what it has at `p` (a file, a directory or nothing) is what the folder had there at the moment `time p`. The folder at moment `k` is `folder k`. -/
def Copied (folder : Nat → FS → Prop) (time : Path → Nat) (copy : FS) : Prop := copy.WF ∧ ∀ p, ∃ fs, folder (time p) fs ∧ copy.get? p = fs.get? p

/-- the fragments of each field have been copied before its index file (or at the same moment). -/
def FragmentsFirst (root : Path) (time : Path → Nat) : Prop := ∀ f n, time (root ++ [f, "temp", n]) ≤ time (root ++ [f, "index"])

end Goir.Spec.Backup
