import Verif.Lemmas.Text
import Mathlib.Data.List.Forall2
/-!
# Properties of the text pipeline (C01–C03, C05, C06, C08)

`env : TextEnv` holds the external functions (Unicode tables, stemmer, ASCII folding); everything is proved for every `env`.
-/
namespace Goir
open Spec Text

/-- an environment for examples: ASCII letters and digits, ASCII lower-casing, identity stemmer, folding of `á`. -/
def demoEnv : TextEnv where
  isLetter c := c.isAlpha || c == 'á'
  isNumber := Char.isDigit
  lowerRune := Char.toLower
  stem := id
  fold s := if s = "á" then "a" else s

/-- **C01** `Tokenize(text)` is the one and only segmentation of `text` into maximal runs of letters, numbers and
apostrophes. -/
theorem c01_tokens_are_maximal_runs (env : TextEnv) (text : String) (ws : List String) :
    tokenize env text = ws ↔
      Segmented (fun r => !(env.isLetter r || env.isNumber r || r == '\'')) text.toList (ws.map String.toList) := by
  have hf : isNotAlnum env = fun r => !(env.isLetter r || env.isNumber r || r == '\'') := by
    funext r; cases h1 : env.isLetter r <;> cases h2 : env.isNumber r <;> simp [isNotAlnum, h1, h2, bne]
  rw [← hf]
  unfold tokenize
  rw [fieldsFunc_eq_runs]
  constructor
  · rintro rfl
    have := segmented_runs (isNotAlnum env) text.toList [] (by simp)
    simpa [Function.comp_def] using this
  · intro h
    rw [segmented_unique h, List.map_map]
    simp [Function.comp_def]

/-- C01, two consequences spelled out: the tokens concatenated are the text without its separators, and every token is a
non-empty string of letters, numbers and apostrophes. -/
theorem c01_tokens_content (env : TextEnv) (text : String) :
    ((tokenize env text).map String.toList).flatten =
      text.toList.filter (fun r => env.isLetter r || env.isNumber r || r == '\'') ∧
    ∀ w ∈ tokenize env text, w ≠ "" ∧ ∀ r ∈ w.toList, env.isLetter r = true ∨ env.isNumber r = true ∨ r = '\'' := by
  have hseg := (c01_tokens_are_maximal_runs env text _).1 rfl
  have key : ∀ (sep : Char → Bool) s ws, Segmented sep s ws →
      ws.flatten = s.filter (fun c => !sep c) ∧ ∀ w ∈ ws, w ≠ [] ∧ ∀ r ∈ w, sep r = false := by
    intro sep s ws h
    induction h with
    | blank s hs =>
      constructor
      · symm; simp only [List.flatten_nil, List.filter_eq_nil_iff]
        intro a ha; simp [hs a ha]
      · simp
    | word pre w rest ws hpre hne hw hrest _ ih =>
      obtain ⟨ih1, ih2⟩ := ih
      constructor
      · have h1 : pre.filter (fun c => !sep c) = [] := by
          rw [List.filter_eq_nil_iff]; intro a ha; simp [hpre a ha]
        have h2 : w.filter (fun c => !sep c) = w := by
          rw [List.filter_eq_self]; intro a ha; simp [hw a ha]
        simp [h1, h2, ih1]
      · intro x hx
        rcases List.mem_cons.1 hx with rfl | hx
        · exact ⟨hne, hw⟩
        · exact ih2 x hx
  obtain ⟨k1, k2⟩ := key _ _ _ hseg
  refine ⟨by simpa using k1, fun w hw => ?_⟩
  obtain ⟨a, b⟩ := k2 w.toList (List.mem_map_of_mem hw)
  refine ⟨fun e => a (by simp [e]), fun r hr => ?_⟩
  have := b r hr
  simp only [Bool.not_eq_false', Bool.or_eq_true, beq_iff_eq] at this
  rcases this with (h | h) | h
  · exact Or.inl h
  · exact Or.inr (Or.inl h)
  · exact Or.inr (Or.inr h)

example : tokenize demoEnv "Don't stop, 2 birds!" = ["Don't", "stop", "2", "birds"] := by decide

/-- **C02** a separator splits tokenization. -/
theorem c02_tokenize_distributes (env : TextEnv) (a b : String) (sep : Char)
    (hsep : env.isLetter sep = false ∧ env.isNumber sep = false ∧ sep ≠ '\'') :
    tokenize env (a ++ String.ofList [sep] ++ b) = tokenize env a ++ tokenize env b := by
  have hs : isNotAlnum env sep = true := by simp [isNotAlnum, hsep]
  unfold tokenize
  simp only [fieldsFunc_eq_runs, String.toList_append, String.toList_ofList, List.append_assoc, List.singleton_append]
  rw [runs_append_sep _ _ _ _ hs]; simp

example : tokenize demoEnv ("ab" ++ String.ofList ['-'] ++ "c d") = ["ab"] ++ ["c", "d"] := by decide

/-- **C03** the stop-word filter: the sublist of the tokens that are not stop words, with order and multiplicity; it is
idempotent. -/
theorem c03_stopwords_exact (words : GoMap String Bool) (text : List String) :
    stopWords words text = text.filter (fun t => ¬ words.get? t = some true) ∧
    List.Sublist (stopWords words text) text ∧
    (∀ t, (stopWords words text).count t = if words.get? t = some true then 0 else text.count t) ∧
    stopWords words (stopWords words text) = stopWords words text := by
  have e : stopWords words text = text.filter (fun t => ¬ words.get? t = some true) := by
    rw [stopWords_eq_filter]; congr 1; funext t
    cases h : words.get? t with
    | none => simp [GoMap.getD, h]
    | some b => cases b <;> simp [GoMap.getD, h]
  refine ⟨e, ?_, fun t => ?_, ?_⟩
  · rw [e]; exact List.filter_sublist
  · rw [e]
    by_cases h : words.get? t = some true
    · simp only [h, if_true]; rw [List.count_eq_zero]; simp [h]
    · simp only [h, if_false]; rw [List.count_filter]; simpa using h
  · rw [stopWords_eq_filter, stopWords_eq_filter, List.filter_filter]; simp

example : stopWords stopWordsEnglish ["the", "cat", "in", "the", "cat"] = ["cat", "cat"] := by decide

/-- **C05** `Preprocessing` never panics and is a per-token function of the text. -/
theorem c05_preprocessing_per_token (env : TextEnv) (text : String) :
    preprocessing env text = some ((tokenize env text).filterMap fun w =>
      if stopWordsEnglish.get? (toLower env w) = some true then none
      else some (env.fold (env.stem (toLower env w)))) := by
  simp only [preprocessing, getWords, stemmer, if_true, bind, Option.bind, pure, lowercase, ascii]
  simp only [ne_eq, not_true_eq_false, if_false, Option.some.injEq]
  rw [(c03_stopwords_exact _ _).1]
  generalize tokenize env text = ws
  induction ws with
  | nil => rfl
  | cons w ws ih =>
    by_cases h : stopWordsEnglish.get? (toLower env w) = some true
    · simp [h] at ih ⊢; exact ih
    · simp [h] at ih ⊢; exact ih

/-- C05: `Preprocessing` distributes over separated concatenation. -/
theorem c05_preprocessing_distributes (env : TextEnv) (a b : String) (sep : Char)
    (hsep : env.isLetter sep = false ∧ env.isNumber sep = false ∧ sep ≠ '\'') :
    preprocessing env (a ++ String.ofList [sep] ++ b) =
      (do return (← preprocessing env a) ++ (← preprocessing env b)) := by
  simp only [c05_preprocessing_per_token, c02_tokenize_distributes env a b sep hsep, List.filterMap_append]
  rfl

/-- C05: texts whose tokens agree up to case have the same terms. -/
theorem c05_preprocessing_case_insensitive (env : TextEnv) (a b : String)
    (h : (tokenize env a).map (toLower env) = (tokenize env b).map (toLower env)) :
    preprocessing env a = preprocessing env b := by
  rw [c05_preprocessing_per_token, c05_preprocessing_per_token]
  have : ∀ ws : List String, (ws.filterMap fun w =>
      if stopWordsEnglish.get? (toLower env w) = some true then none
      else some (env.fold (env.stem (toLower env w)))) = ((ws.map (toLower env)).filterMap fun w =>
      if stopWordsEnglish.get? w = some true then none else some (env.fold (env.stem w))) := by
    intro ws; rw [List.filterMap_map]; rfl
  rw [this, this, h]

example : (tokenize demoEnv "The CAT").map (toLower demoEnv) = (tokenize demoEnv "the,cat").map (toLower demoEnv) ∧
    preprocessing demoEnv "The CAT sat on 1 mat" = some ["cat", "sat", "1", "mat"] := by decide

private theorem runs_map_lower {f : Char → Bool} {l : Char → Char} : ∀ {a b : List Char} {c c' : List Char},
    List.Forall₂ (fun x y => l x = l y ∧ f x = f y) a b → c.map l = c'.map l →
    (runs f c a).map (List.map l) = (runs f c' b).map (List.map l) := by
  intro a b c c' h
  induction h generalizing c c' with
  | nil =>
    intro hc
    have : c = [] ↔ c' = [] := by
      rw [← List.map_eq_nil_iff (f := l) (l := c), hc, List.map_eq_nil_iff]
    by_cases h0 : c = []
    · simp [runs, h0, this.1 h0]
    · simp [runs, h0, mt this.2 h0, hc]
  | @cons x y as bs hxy _ ih =>
    intro hc
    have : c = [] ↔ c' = [] := by
      rw [← List.map_eq_nil_iff (f := l) (l := c), hc, List.map_eq_nil_iff]
    unfold runs
    rw [← hxy.2]
    split
    · by_cases h0 : c = []
      · simp [h0, this.1 h0, ih rfl]
      · simp [h0, mt this.2 h0, hc, ih rfl]
    · exact ih (by simp [hc, hxy.1])

/-- C05: two texts that differ rune by rune only in case (the same lower-case rune at every position, and a separator in one is a
separator in the other) have the same terms. -/
theorem c05_preprocessing_ignores_case (env : TextEnv) (a b : String)
    (h : List.Forall₂ (fun x y => env.lowerRune x = env.lowerRune y ∧
      ((env.isLetter x = true ∨ env.isNumber x = true ∨ x = '\'') ↔ (env.isLetter y = true ∨ env.isNumber y = true ∨ y = '\'')))
      a.toList b.toList) :
    preprocessing env a = preprocessing env b := by
  apply c05_preprocessing_case_insensitive
  have h' : List.Forall₂ (fun x y => env.lowerRune x = env.lowerRune y ∧ isNotAlnum env x = isNotAlnum env y) a.toList b.toList := by
    refine h.imp fun x y hxy => ⟨hxy.1, ?_⟩
    have h2 := hxy.2
    have e : ∀ z, isNotAlnum env z = true ↔ ¬ (env.isLetter z = true ∨ env.isNumber z = true ∨ z = '\'') := by
      intro z; simp [isNotAlnum, bne, and_assoc]
    rw [Bool.eq_iff_iff, e, e, h2]
  have k := runs_map_lower h' (c := []) (c' := []) rfl
  have e : ∀ t : String, (tokenize env t).map (toLower env) =
      ((runs (isNotAlnum env) [] t.toList).map (List.map env.lowerRune)).map String.ofList := by
    intro t; simp [tokenize, fieldsFunc_eq_runs, toLower, Function.comp_def]
  rw [e, e, k]

example : List.Forall₂ (fun x y => demoEnv.lowerRune x = demoEnv.lowerRune y ∧
      ((demoEnv.isLetter x = true ∨ demoEnv.isNumber x = true ∨ x = '\'') ↔
        (demoEnv.isLetter y = true ∨ demoEnv.isNumber y = true ∨ y = '\'')))
      "The CAT".toList "tHe cAt".toList := by
  have e1 : "The CAT".toList = ['T', 'h', 'e', ' ', 'C', 'A', 'T'] := by decide
  have e2 : "tHe cAt".toList = ['t', 'H', 'e', ' ', 'c', 'A', 't'] := by decide
  rw [e1, e2]
  simp only [List.forall₂_cons]
  decide

/-- **C06, refuted**: stop words are dropped before stemming and folding, so `Preprocessing("á")` is `["a"]` with every
environment in which `á` is a lower-case letter, its own stem, and folds to `a`. -/
theorem c06_no_stopword_emitted_refuted (env : TextEnv)
    (hl : env.isLetter 'á' = true) (hlow : env.lowerRune 'á' = 'á') (hstem : env.stem "á" = "á") (hfold : env.fold "á" = "a") :
    stopWordsEnglish.get? "a" = some true ∧ preprocessing env "á" = some ["a"] := by
  refine ⟨by decide, ?_⟩
  have ht : tokenize env "á" = ["á"] := by
    rw [c01_tokens_are_maximal_runs]
    have := Segmented.word (sep := fun r => !(env.isLetter r || env.isNumber r || r == '\'')) [] ['á'] [] []
      (by simp) (by simp) (by simp [hl]) (Or.inl rfl) (.blank [] (by simp))
    exact this
  have hw : toLower env "á" = "á" := by
    have : "á".toList = ['á'] := by decide
    simp [toLower, this, hlow]
  rw [c05_preprocessing_per_token, ht]
  have hns : ¬ stopWordsEnglish.get? "á" = some true := by decide
  simp [hw, hns, hstem, hfold]

example : demoEnv.isLetter 'á' = true ∧ demoEnv.lowerRune 'á' = 'á' ∧ demoEnv.stem "á" = "á" ∧ demoEnv.fold "á" = "a" := by
  decide

/-- **C06, partial**: a term is emitted iff it is the folded stem of a token whose lower-case form is not a stop word; so no
stop word is emitted provided stemming+folding never turns a non-stop word into a stop word. Missing: that proviso is not
true of the actual folding. -/
theorem c06_emitted_terms_partial (env : TextEnv) (text : String) (out : List String)
    (h : preprocessing env text = some out) :
    (∀ t, t ∈ out ↔ ∃ w ∈ tokenize env text, ¬ stopWordsEnglish.get? (toLower env w) = some true ∧
      t = env.fold (env.stem (toLower env w))) ∧
    ((∀ w, ¬ stopWordsEnglish.get? w = some true → ¬ stopWordsEnglish.get? (env.fold (env.stem w)) = some true) →
      ∀ t ∈ out, ¬ stopWordsEnglish.get? t = some true) := by
  rw [c05_preprocessing_per_token] at h
  simp only [Option.some.injEq] at h
  have h1 : ∀ t, t ∈ out ↔ ∃ w ∈ tokenize env text, ¬ stopWordsEnglish.get? (toLower env w) = some true ∧
      t = env.fold (env.stem (toLower env w)) := by
    intro t; subst h
    simp only [List.mem_filterMap]
    constructor
    · rintro ⟨w, hw, he⟩
      split at he
      · simp at he
      · rename_i hn; exact ⟨w, hw, hn, by simpa using he.symm⟩
    · rintro ⟨w, hw, hn, rfl⟩; exact ⟨w, hw, by simp [hn]⟩
  refine ⟨h1, fun hp t ht => ?_⟩
  obtain ⟨w, _, hn, rfl⟩ := (h1 t).1 ht
  exact hp _ hn

/-! ### C08 -/

private theorem tf_foldl (terms : List String) : ∀ (m : GoMap String Int) (t : String),
    (terms.foldl (fun m t => m.set t (m.getD t 0 + 1)) m).get? t =
      if t ∈ terms then some (m.getD t 0 + (terms.count t : Int)) else m.get? t := by
  induction terms with
  | nil => simp
  | cons a terms ih =>
    intro m t
    simp only [List.foldl_cons, ih]
    by_cases h : a = t
    · subst h
      simp only [GoMap.getD_set, GoMap.get?_set, if_true, List.mem_cons, true_or, List.count_cons_self]
      by_cases hm : a ∈ terms
      · simp [hm]; omega
      · simp [hm, List.count_eq_zero.2 hm]
    · have h' : ¬ t = a := fun e => h e.symm
      simp [GoMap.getD_set, GoMap.get?_set, h, h']

private theorem tf_wf (terms : List String) : ∀ (m : GoMap String Int), m.WF →
    (terms.foldl (fun m t => m.set t (m.getD t 0 + 1)) m).WF := by
  induction terms with
  | nil => simp
  | cons a terms ih => intro m h; exact ih _ (h.set _ _)

private theorem sum_set (m : GoMap String Int) (wf : m.WF) (t : String) :
    ((m.set t (m.getD t 0 + 1)).map Prod.snd).sum = (m.map Prod.snd).sum + 1 := by
  induction m with
  | nil => simp [GoMap.set, GoMap.getD]
  | cons p m ih =>
    obtain ⟨k, v⟩ := p
    by_cases h : k = t
    · subst h; simp [GoMap.set, GoMap.getD, GoMap.get?]; omega
    · have := ih wf.tail
      simp only [GoMap.getD] at this
      simp [GoMap.set, GoMap.getD, GoMap.get?, h, this]; omega

private theorem tf_sum (terms : List String) : ∀ (m : GoMap String Int), m.WF →
    ((terms.foldl (fun m t => m.set t (m.getD t 0 + 1)) m).map Prod.snd).sum = (m.map Prod.snd).sum + terms.length := by
  induction terms with
  | nil => simp
  | cons a terms ih =>
    intro m h
    simp only [List.foldl_cons]
    rw [ih _ (h.set _ _), sum_set m h]; simp; omega

/-- **C08** `TermFrequency` counts occurrences; its keys are the occurring terms; its values sum to the number of tokens;
it does not depend on the order of the tokens. -/
theorem c08_term_frequency (terms : List String) :
    (∀ t, (termFrequency terms).get? t = if t ∈ terms then some (terms.count t : Int) else none) ∧
    GoMap.WF (termFrequency terms) ∧
    ((termFrequency terms).map Prod.snd).sum = terms.length ∧
    (∀ terms', terms.Perm terms' → ∀ t, (termFrequency terms).get? t = (termFrequency terms').get? t) := by
  have h1 : ∀ (terms : List String) t,
      (termFrequency terms).get? t = if t ∈ terms then some (terms.count t : Int) else none := by
    intro terms t; unfold termFrequency; rw [tf_foldl]; simp [GoMap.getD]
  refine ⟨h1 terms, tf_wf _ _ (by simp), ?_, fun terms' hp t => ?_⟩
  · unfold termFrequency; rw [tf_sum _ _ (by simp)]; simp
  · rw [h1, h1, hp.count_eq]; simp only [hp.mem_iff]

/-- C08 for a field built as `POST /nir` builds it: `Length` is the sum of `TF`, every frequency is positive, and `TF` is a
proper map. -/
theorem c08_field_length (name : String) (p : List String) :
    ((makeField name p).tf.map Prod.snd).sum = (makeField name p).length ∧ (makeField name p).tf.WF ∧
    ∀ t v, (makeField name p).tf.get? t = some v → 0 < v := by
  obtain ⟨h1, h2, h3, -⟩ := c08_term_frequency p
  refine ⟨h3, h2, fun t v hv => ?_⟩
  have := h1 t
  simp only [makeField] at hv
  rw [this] at hv
  split at hv
  · rename_i hm
    have := List.count_pos_iff.2 hm
    simp only [Option.some.injEq] at hv; omega
  · simp at hv

example : (termFrequency ["a", "b", "a"]).get? "a" = some 2 ∧ (termFrequency ["a", "b", "a"]).get? "c" = none := by decide

end Goir
