/-!
# Specification vocabulary: segmenting a text
-/
namespace Goir.Spec

/-- `Segmented sep s ws`: the text `s` reads as: separators, a word, (at least one separator, a word)*, separators, where
words are non-empty and contain no separator; `ws` are the words in order.  A word is followed by the end of the text or by
a separator, so words are maximal runs. -/
inductive Segmented (sep : Char → Bool) : List Char → List (List Char) → Prop where
  | blank (s : List Char) (hs : ∀ c ∈ s, sep c = true) : Segmented sep s []
  | word (pre w rest : List Char) (ws : List (List Char))
      (hpre : ∀ c ∈ pre, sep c = true) (hne : w ≠ []) (hw : ∀ c ∈ w, sep c = false)
      (hrest : rest = [] ∨ ∃ c cs, rest = c :: cs ∧ sep c = true)
      (h : Segmented sep rest ws) : Segmented sep (pre ++ w ++ rest) (w :: ws)

end Goir.Spec
