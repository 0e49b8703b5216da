import Verif.Spec.Opening
import Verif.Spec.Search
/-!
# What a search over a folder has to return

A store that stands still and whose answers are those of the files of a folder.
-/
namespace Goir.Spec.Opening
open Goir

/-- the answers of the store are what the folder says: GetDocuments lists the documents that the index of the field has for the term, GetFields gives what the files of the documents hold, the size and the length of a field come
from a metrics file that speaks of it (0 without one), and the term counts from the field's own file (0 without one). -/
structure Answers (fs : FS) (root : Path) (st : Reads) : Prop where
  documents : ∀ f t d, st.has f t d = true ↔ Says fs root f t d
  fields : ∀ ids f d, PlainName d → ∀ fd, (st.getFields ids f).get? d = some fd ↔ d ∈ ids ∧ Stored fs root d f fd
  metrics : ∀ f, Metrics fs root f (st.getFieldSize f) (st.getFieldLength f) ∨ ((∀ x y, ¬ Metrics fs root f x y) ∧ st.getFieldSize f = 0 ∧ st.getFieldLength f = 0)
  counts : ∀ f terms t, t ∈ terms → (∀ m, Counts fs root f m → (st.getNumberFieldTerm f terms).getD t 0 = m.getD t 0) ∧ ((∀ m, ¬ Counts fs root f m) → (st.getNumberFieldTerm f terms).getD t 0 = 0)

/-- the metrics files of the folder agree with each other on every field. -/
def OneMetrics (fs : FS) (root : Path) : Prop := ∀ f x y x' y', Metrics fs root f x y → Metrics fs root f x' y' → x = x' ∧ y = y'

/-- two folders with the same contents. -/
def SameFolder (fs : FS) (root : Path) (fs' : FS) (root' : Path) : Prop := ∀ p, fs.get? (root ++ p) = fs'.get? (root' ++ p)

end Goir.Spec.Opening
