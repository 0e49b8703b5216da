import Verif.Model.Types
/-!
# Package `metric`: TermFrequency
-/
namespace Goir

/-- `metric.TermFrequency` (/repo/metric/TF.go:3-9): `for _, term := range terms { frequencyMap[term]++ }`. -/
def termFrequency (terms : List String) : GoMap String Int :=
  terms.foldl (fun m t => m.set t (m.getD t 0 + 1)) []

end Goir
