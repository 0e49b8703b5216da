import Verif.Spec.Language
import Verif.Props.Text
/-!
# C74: the stop word tables
-/
namespace Goir
open GoMap Text

/-- a lower case ASCII letter. -/
def asciiLower (c : Char) : Bool := 'a' ≤ c && c ≤ 'z'

/-- **C74.** GetWords has a table for exactly the languages EN and PT, and panics for every other string. -/
theorem c74_languages (l : String) : (getWords l).isSome = true ↔ l = "EN" ∨ l = "PT" := by
  unfold getWords
  by_cases h1 : l = "EN"
  · simp [h1]
  · by_cases h2 : l = "PT" <;> simp [h1, h2]

theorem table_of {w : GoMap String Bool} {ws : List String} (h1 : w.keys = ws) (h2 : w.all (fun e => e.2) = true) (s : String) :
    w.get? s = some true ↔ s ∈ ws := by
  subst h1
  constructor
  · intro h
    exact (GoMap.get?_isSome_iff w s).1 (by simp [h])
  · intro h
    obtain ⟨b, hb⟩ := Option.isSome_iff_exists.1 ((GoMap.get?_isSome_iff w s).2 h)
    have := List.all_eq_true.1 h2 _ (GoMap.mem_of_get? hb)
    simp only at this
    rw [hb, this]

/-- **C74.** The words marked in the tables are those of the lists. -/
theorem c74_tables : (∃ w, getWords "EN" = some w ∧ ∀ s, w.get? s = some true ↔ s ∈ Spec.words Spec.english) ∧
    (∃ w, getWords "PT" = some w ∧ ∀ s, w.get? s = some true ↔ s ∈ Spec.words Spec.portuguese) :=
  ⟨⟨_, rfl, table_of (by decide +kernel) (by decide +kernel)⟩, ⟨_, rfl, table_of (by decide +kernel) (by decide +kernel)⟩⟩

theorem all_lower : (Spec.words Spec.english).all (fun s => s ≠ "" && s.toList.all asciiLower) = true ∧
    (Spec.words Spec.portuguese).all (fun s => s ≠ "" && s.toList.all asciiLower) = true := by decide +kernel

/-- **C74.** Every stop word consists of lower case ASCII letters only, whatever the language … -/
theorem c74_stopwords_plain {l : String} {w : GoMap String Bool} (h : getWords l = some w) {s : String} (hs : w.get? s = some true) :
    s ≠ "" ∧ ∀ c ∈ s.toList, asciiLower c = true := by
  have key : ∀ ws : List String, ws.all (fun s => s ≠ "" && s.toList.all asciiLower) = true → s ∈ ws →
      s ≠ "" ∧ ∀ c ∈ s.toList, asciiLower c = true := by
    intro ws hw hm
    have := List.all_eq_true.1 hw s hm
    simpa using this
  obtain ⟨⟨we, he, hte⟩, ⟨wp, hp, htp⟩⟩ := c74_tables
  rcases (c74_languages l).1 (by simp [h]) with rfl | rfl
  · rw [he] at h; cases h; exact key _ all_lower.1 ((hte s).1 hs)
  · rw [hp] at h; cases h; exact key _ all_lower.2 ((htp s).1 hs)

/-- … so after Lowercase, StopWords removes a stop word in every letter case (as far as ToLower maps `A`–`Z` to `a`–`z`) … -/
theorem c74_any_case_removed (env : TextEnv) {l : String} {w : GoMap String Bool} (_h : getWords l = some w) (text : List String) {tok : String}
    (hs : w.get? (toLower env tok) = some true) : toLower env tok ∉ stopWords w (lowercase env text) := by
  rw [(c03_stopwords_exact w (lowercase env text)).1]
  simp [hs]

/-- … and a token with an accented letter is never removed: in Portuguese StopWords has to run after ASCII, not before. -/
theorem c74_accented_kept {l : String} {w : GoMap String Bool} (h : getWords l = some w) (text : List String) {tok : String} (ht : tok ∈ text)
    (hc : ∃ c ∈ tok.toList, asciiLower c = false) : tok ∈ stopWords w text := by
  rw [(c03_stopwords_exact w text).1]
  rw [List.mem_filter]
  refine ⟨ht, ?_⟩
  obtain ⟨c, hc, hf⟩ := hc
  have : ¬ w.get? tok = some true := fun hs => by
    have := (c74_stopwords_plain h hs).2 c hc
    rw [hf] at this; cases this
  simp [this]

example : ∃ w, getWords "PT" = some w ∧ w.get? "nao" = some true ∧ "não" ∈ stopWords w ["não", "nao"] ∧ "nao" ∉ stopWords w ["não", "nao"] :=
  ⟨_, rfl, by decide, by decide, by decide⟩

end Goir
