import Mathlib.Analysis.SpecialFunctions.Log.Basic
/-!
# The BM25 formula, over the reals

The textbook definition (Robertson & Zaragoza 2009, with the idf variant that adds 1 inside the logarithm).
-/
namespace Goir.Spec

/-- inverse document frequency of a term found in `n` of `N` documents. -/
noncomputable def idf (N n : ℝ) : ℝ := Real.log (1 + (N - n + 1 / 2) / (n + 1 / 2))

/-- saturated frequency of a term occurring `f` times in a field of length `len`. -/
noncomputable def saturation (k1 b avg f len : ℝ) : ℝ := f * (k1 + 1) / (f + k1 * (1 - b + b * (len / avg)))

/-- BM25 of a list of query terms: `n t` documents contain `t`, which occurs `f t` times in the field. -/
noncomputable def bm25 (query : List String) (k1 b boost avg N : ℝ) (n f : String → ℝ) (len : ℝ) : ℝ :=
  (query.map fun t => boost * idf N (n t) * saturation k1 b avg (f t) len).sum

end Goir.Spec
