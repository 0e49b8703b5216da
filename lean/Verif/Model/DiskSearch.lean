import Verif.Model.DiskStore
import Verif.Model.Search
/-!
# Searching a disk store

`index.NewIndex(store)` with a `storage.Disk` (/repo/main.go:117-123): what its reading methods answer, as `Reads`.

Simplification: `GetFields` of a Disk store also moves entries of its cache and may load documents into it
(/repo/storage/DiskStorage.go:118-139).  Here every answer during a search is that of the state in which the search starts;
`disk_answers_stable` (Props/DiskSearch) proves that this makes no difference while the cache is large enough for all documents.
-/
namespace Goir

/-- the answers of a disk store (/repo/storage/DiskStorage.go:89-139); a panic in GetFields counts as the empty answer here. -/
def Disk.reads (s : Disk) : Reads where
  getDocuments := s.getDocuments
  getFields := fun ids name => ((s.getFields ids name).map Prod.snd).getD []
  getFieldSize := s.getFieldSize
  getFieldLength := s.getFieldLength
  getNumberFieldTerm := s.getNumberFieldTerm

end Goir
