import Verif.Model.DiskBytes
import Verif.Lemmas.FS
import Verif.Spec.Gzip
/-!
# What a folder says: the contents of the files from which a Disk store is opened

Nothing here refers to the steps in which a store is opened: it says which files of a folder count, what it is for a file to be readable, and what a readable file says.
-/
namespace Goir.Spec.Opening
open Goir

/-- the bytes are a gzip file of a FlatBuffer that reads as an index `m`. -/
def HoldsIndex (buf : Bytes) (m : GoMap String (GoMap String Bool)) : Prop := ∃ raw, Gz.File raw buf ∧ FBB.deserializeIndex raw = some m

/-- … as the name, the size and the length of a field. -/
def HoldsMetrics (buf : Bytes) (e : String × Int × Int) : Prop := ∃ raw, Gz.File raw buf ∧ FBB.deserializeFieldSizeLength raw = some e

/-- … as the term counts of a field. -/
def HoldsCounts (buf : Bytes) (m : GoMap String Int) : Prop := ∃ raw, Gz.File raw buf ∧ FBB.deserializeNumberFieldTerm raw = some m

/-- … as the fields of a document. -/
def HoldsFields (buf : Bytes) (m : GoMap String Field) : Prop := ∃ raw, Gz.File raw buf ∧ FBB.deserializeFieldMap raw = some m

/-- an ordinary file tree: no name occurs twice, the names of files are names (not empty, not `.` or `..`, without slashes), and the folder is a directory. -/
structure Tree (root : Path) (fs : FS) : Prop where
  wf : fs.WF
  names : ∀ p n, fs.get? p = some n → ∀ x ∈ p, PlainName x
  root : ∀ i < root.length, fs.get? (root.take (i + 1)) = some .dir

/-- the folder has a directory for field `f`. -/
def IsField (fs : FS) (root : Path) (f : String) : Prop := fs.get? (root ++ [f]) = some .dir ∧ f ≠ "docs"

/-- the files that make up the index of a field: the index file, and every fragment in the directory `temp`. -/
inductive Part (fs : FS) (root : Path) (f : String) : Path → Bytes → Prop
  | index {buf : Bytes} : fs.get? (root ++ [f, "index"]) = some (.file buf) → Part fs root f (root ++ [f, "index"]) buf
  | fragment {n : String} {buf : Bytes} : fs.get? (root ++ [f, "temp", n]) = some (.file buf) → Part fs root f (root ++ [f, "temp", n]) buf

/-- the folder says that document `d` has term `t` in field `f`. -/
def Says (fs : FS) (root : Path) (f t d : String) : Prop :=
  IsField fs root f ∧ ∃ p buf m ds, Part fs root f p buf ∧ HoldsIndex buf m ∧ m.get? t = some ds ∧ d ∈ ds.keys

/-- the folder names term `t` in field `f`, with documents or without. -/
def Names (fs : FS) (root : Path) (f t : String) : Prop :=
  IsField fs root f ∧ ∃ p buf m, Part fs root f p buf ∧ HoldsIndex buf m ∧ t ∈ GoMap.keys m

/-- the folder has, in the directory of some field, a metrics file that speaks of field `f`. -/
def Metrics (fs : FS) (root : Path) (f : String) (size length : Int) : Prop :=
  ∃ g buf, IsField fs root g ∧ fs.get? (root ++ [g, "metrics"]) = some (.file buf) ∧ HoldsMetrics buf (f, size, length)

/-- the folder has a file of term counts for field `f`. -/
def Counts (fs : FS) (root : Path) (f : String) (m : GoMap String Int) : Prop :=
  IsField fs root f ∧ ∃ buf, fs.get? (root ++ [f, "nfterm"]) = some (.file buf) ∧ HoldsCounts buf m

/-- the folder has a file for document `id` that says that its field `name` is `fd`. -/
def Stored (fs : FS) (root : Path) (id name : String) (fd : Field) : Prop :=
  ∃ buf m, fs.get? (root ++ ["docs", "metrics", id]) = some (.file buf) ∧ HoldsFields buf m ∧ m.get? name = some fd

/-- the folder has a file for document `id` that cannot be read. -/
def DamagedDocument (fs : FS) (root : Path) (id : String) : Prop := ∃ buf, fs.get? (root ++ ["docs", "metrics", id]) = some (.file buf) ∧ ∀ m, ¬ HoldsFields buf m

/-- a file that counts cannot be read: it was cut short, overwritten, changed, or never was such a file; or it is a directory; or a file stands in the place of the directory of the fragments. -/
inductive Damaged (fs : FS) (root : Path) : Path → Prop
  | part {f : String} {p : Path} {buf : Bytes} : IsField fs root f → Part fs root f p buf → (∀ m, ¬ HoldsIndex buf m) → Damaged fs root p
  | metrics {f : String} {buf : Bytes} : IsField fs root f → fs.get? (root ++ [f, "metrics"]) = some (.file buf) → (∀ e, ¬ HoldsMetrics buf e) → Damaged fs root (root ++ [f, "metrics"])
  | counts {f : String} {buf : Bytes} : IsField fs root f → fs.get? (root ++ [f, "nfterm"]) = some (.file buf) → (∀ m, ¬ HoldsCounts buf m) → Damaged fs root (root ++ [f, "nfterm"])
  | directory {f x : String} : IsField fs root f → x ∈ ["index", "metrics", "nfterm"] → fs.get? (root ++ [f, x]) = some .dir → Damaged fs root (root ++ [f, x])
  | temp {f : String} {buf : Bytes} : IsField fs root f → fs.get? (root ++ [f, "temp"]) = some (.file buf) → Damaged fs root (root ++ [f, "temp"])

/-- no directory stands where the store puts the two files that it writes an index with. -/
def Tidy (fs : FS) (root : Path) : Prop := ∀ f, IsField fs root f → ∀ x ∈ ["index_temp", "index_old"], fs.get? (root ++ [f, x]) ≠ some .dir

/-- the terms of a field, and for each term its documents, each written once, fit into a file: they need less than 1 GiB. -/
def Small (fs : FS) (root : Path) : Prop :=
  ∀ (f : String) (td : GoMap String (GoMap String Bool)), td.WF → (∀ e ∈ td, GoMap.WF e.2) → (∀ t ∈ td.keys, Names fs root f t) → (∀ e ∈ td, ∀ d ∈ GoMap.keys e.2, Says fs root f e.1 d) →
    (td.map fun e => (Goir.utf8 e.1).length + (e.2.map fun q => (Goir.utf8 q.1).length + 16).sum + 90).sum + 54 < 2 ^ 30

end Goir.Spec.Opening
