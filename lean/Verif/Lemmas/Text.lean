import Verif.Model.Text
import Verif.Spec.Text
/-! # Helper lemmas for the text pipeline -/
namespace Goir.Text
open Spec

/-- recursive form of the scan; `cur` is the current field. -/
def runs (f : Char → Bool) : List Char → List Char → List (List Char)
  | cur, [] => if cur = [] then [] else [cur]
  | cur, c :: s => if f c then (if cur = [] then runs f [] s else cur :: runs f [] s) else runs f (cur ++ [c]) s

def slice (full : List Char) (p : Nat × Nat) : List Char := (full.drop p.1).take (p.2 - p.1)

theorem slice_end (pre rest : List Char) (a : Nat) (h : a ≤ pre.length) :
    slice (pre ++ rest) (a, pre.length) = pre.drop a := by
  simp only [slice]
  rw [List.drop_append_of_le_length h, List.take_append_of_le_length (by simp)]
  apply List.take_of_length_le; simp

theorem scan_eq (f : Char → Bool) (rest : List Char) : ∀ (pre : List Char) (start : Option Nat) (spans : List (Nat × Nat)),
    (∀ a, start = some a → a < pre.length) →
    (scanFinish (rest.foldl (scanStep f) ⟨pre.length, start, spans⟩)).map (slice (pre ++ rest)) =
      spans.map (slice (pre ++ rest)) ++ runs f (match start with | none => [] | some a => pre.drop a) rest := by
  induction rest with
  | nil =>
    intro pre start spans h
    cases start with
    | none => simp [scanFinish, runs]
    | some a =>
      have ha := h a rfl
      have : pre.drop a ≠ [] := by simp; omega
      have e := slice_end pre [] a (by omega)
      simp only [List.append_nil] at e
      simp [scanFinish, runs, e]; omega
  | cons c rest ih =>
    intro pre start spans h
    have hl : pre.length + 1 = (pre ++ [c]).length := by simp
    have happ : pre ++ c :: rest = (pre ++ [c]) ++ rest := by simp
    simp only [List.foldl_cons]
    cases start with
    | none =>
      by_cases hc : f c = true
      · simp only [scanStep, hc, if_true, runs]
        rw [hl, happ, ih _ _ _ (by simp)]
      · simp only [scanStep, hc, runs]
        rw [hl, happ]
        simp only [Bool.false_eq_true, if_false]
        rw [ih _ _ _ (by simp)]
        simp
    | some a =>
      have ha := h a rfl
      have hne : pre.drop a ≠ [] := by simp; omega
      by_cases hc : f c = true
      · simp only [scanStep, hc, if_true, runs]
        have e := slice_end pre (c :: rest) a (by omega)
        rw [if_neg hne, hl]
        have := ih (pre ++ [c]) none (spans ++ [(a, pre.length)]) (by simp)
        rw [← happ] at this
        rw [this]
        simp [e]
      · simp only [scanStep, hc, runs, Bool.false_eq_true, if_false]
        rw [hl, happ, ih _ _ _ (by simp; omega)]
        simp only [List.drop_append_of_le_length (Nat.le_of_lt ha)]

theorem fieldsFunc_eq_runs (f : Char → Bool) (s : List Char) : fieldsFunc f s = runs f [] s := by
  have := scan_eq f s [] none [] (by simp)
  exact this

theorem Segmented.cons_sep {sep : Char → Bool} {s : List Char} {ws} {c : Char} (hc : sep c = true)
    (h : Segmented sep s ws) : Segmented sep (c :: s) ws := by
  cases h with
  | blank _ hs => exact .blank _ (List.forall_mem_cons.2 ⟨hc, hs⟩)
  | word pre w rest ws hpre hne hw hrest h =>
    have := Segmented.word (sep := sep) (c :: pre) w rest ws
      (List.forall_mem_cons.2 ⟨hc, hpre⟩) hne hw hrest h
    simpa using this

theorem segmented_runs (f : Char → Bool) (s : List Char) : ∀ cur : List Char, (∀ c ∈ cur, f c = false) →
    Segmented f (cur ++ s) (runs f cur s) := by
  induction s with
  | nil =>
    intro cur h
    by_cases hc : cur = []
    · subst hc; exact .blank _ (by simp)
    · have := Segmented.word (sep := f) [] cur [] [] (by simp) hc h (Or.inl rfl) (.blank [] (by simp))
      simpa [runs, hc] using this
  | cons c s ih =>
    intro cur h
    by_cases hc : f c = true
    · have h0 : Segmented f (c :: s) (runs f [] s) := Segmented.cons_sep hc (by simpa using ih [] (by simp))
      by_cases he : cur = []
      · subst he; simpa [runs, hc] using h0
      · have := Segmented.word (sep := f) [] cur (c :: s) _ (by simp) he h (Or.inr ⟨c, s, rfl, hc⟩) h0
        simpa [runs, hc, he] using this
    · have := ih (cur ++ [c]) (by
        intro x hx; rcases List.mem_append.1 hx with hx | hx
        · exact h x hx
        · simp only [List.mem_singleton] at hx; subst hx; simpa using hc)
      simpa [runs, hc] using this

theorem runs_sep_prefix (f : Char → Bool) (pre s : List Char) (h : ∀ c ∈ pre, f c = true) :
    runs f [] (pre ++ s) = runs f [] s := by
  induction pre with
  | nil => rfl
  | cons c pre ih =>
    simp only [List.cons_append, runs, h c (by simp), if_true]
    exact ih (fun x hx => h x (by simp [hx]))

theorem runs_word (f : Char → Bool) (w s : List Char) : ∀ cur, (∀ c ∈ w, f c = false) →
    runs f cur (w ++ s) = runs f (cur ++ w) s := by
  induction w with
  | nil => simp
  | cons c w ih =>
    intro cur h
    simp only [List.cons_append, runs, h c (by simp), Bool.false_eq_true, if_false]
    rw [ih _ (fun x hx => h x (by simp [hx]))]; simp

theorem runs_end (f : Char → Bool) (cur rest : List Char) (hne : cur ≠ [])
    (h : rest = [] ∨ ∃ c cs, rest = c :: cs ∧ f c = true) : runs f cur rest = cur :: runs f [] rest := by
  rcases h with rfl | ⟨c, cs, rfl, hc⟩
  · simp [runs, hne]
  · simp [runs, hc, hne]

theorem segmented_unique {f : Char → Bool} {s : List Char} {ws} (h : Segmented f s ws) : runs f [] s = ws := by
  induction h with
  | blank s hs => have := runs_sep_prefix f s [] hs; simpa [runs] using this
  | word pre w rest ws hpre hne hw hrest _ ih =>
    rw [List.append_assoc, runs_sep_prefix f _ _ hpre, runs_word f _ _ _ hw, runs_end f _ _ (by simpa using hne) hrest, ih]
    simp

theorem runs_append_sep (f : Char → Bool) (a b : List Char) (c : Char) (hc : f c = true) : ∀ cur,
    runs f cur (a ++ c :: b) = runs f cur a ++ runs f [] b := by
  induction a with
  | nil => intro cur; by_cases h : cur = [] <;> simp [runs, hc, h]
  | cons x a ih =>
    intro cur
    simp only [List.cons_append, runs]
    split
    · split
      · exact ih _
      · simp [ih]
    · exact ih _

theorem stopWords_eq_filter (words : GoMap String Bool) (text : List String) :
    stopWords words text = text.filter (fun t => words.getD t false = false) := by
  have : ∀ acc, text.foldl (fun temp element => if words.getD element false then temp else temp ++ [element]) acc =
      acc ++ text.filter (fun t => words.getD t false = false) := by
    induction text with
    | nil => simp
    | cons t text ih =>
      intro acc
      simp only [List.foldl_cons, ih]
      by_cases h : words.getD t false = true <;> simp [h]
  simpa [stopWords] using this []

end Goir.Text
