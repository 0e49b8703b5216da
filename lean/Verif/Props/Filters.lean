import Verif.Model.StemmerMachine
import Verif.Model.Slices
import Verif.Props.Text
/-!
# C04 (concurrent stemming) and C07 (who writes to the caller's slice)
-/
namespace Goir
open Text

/-! ### C04 -/
namespace StemmerMachine

/-- invariant of the call on `text`. -/
private structure Inv (stem : String → String) (text : List String) (s : State) : Prop where
  next_le : s.next ≤ text.length
  temp_len : s.temp.length = text.length
  wg_eq : s.wg = (text.length - s.next) + s.pending.length + s.written
  pend : ∀ i w, (i, w) ∈ s.pending → text[i]? = some w
  slots : ∀ i, i < s.next → (∃ w, (i, w) ∈ s.pending) ∨ s.temp[i]? = (text[i]?).map stem
  ret : s.returned = true → s.next = text.length ∧ s.wg = 0

private theorem inv_init (stem : String → String) (text : List String) :
    Inv stem text ⟨0, [], 0, List.replicate text.length "", text.length, false⟩ := by
  constructor <;> simp

private theorem inv_step (stem : String → String) (text : List String) (s u : State) (h : Inv stem text s)
    (hs : step stem text s u) : Inv stem text u := by
  cases hs with
  | spawn hn =>
    refine ⟨hn, h.temp_len, ?_, ?_, ?_, ?_⟩
    · simp only [List.length_append, List.length_singleton]; have := h.wg_eq; omega
    · intro i w hm
      rcases List.mem_append.1 hm with hm | hm
      · exact h.pend i w hm
      · simp only [List.mem_singleton, Prod.mk.injEq] at hm
        obtain ⟨rfl, rfl⟩ := hm; simp [hn]
    · intro i hi
      by_cases hin : i < s.next
      · rcases h.slots i hin with ⟨w, hw⟩ | h'
        · exact Or.inl ⟨w, List.mem_append_left _ hw⟩
        · exact Or.inr h'
      · have : i = s.next := by simp only at hi; omega
        subst this
        exact Or.inl ⟨text[s.next], List.mem_append_right _ (by simp)⟩
    · intro hr; have := h.ret hr; omega
  | write l r i w hp =>
    have hmem : ∀ x, x ∈ s.pending ↔ x = (i, w) ∨ x ∈ l ++ r := by
      intro x; rw [hp]; simp only [List.mem_append, List.mem_cons]; constructor
      · rintro (h | h | h) <;> simp [h]
      · rintro (h | h | h) <;> simp [h]
    have hti := h.pend i w ((hmem _).2 (Or.inl rfl))
    have hil : i < text.length := by
      have := List.getElem?_eq_some_iff.1 hti; exact this.1
    refine ⟨h.next_le, by simp [h.temp_len], ?_, ?_, ?_, ?_⟩
    · have := h.wg_eq; rw [hp] at this
      simp only [List.length_append, List.length_cons] at this ⊢; omega
    · intro j v hm; exact h.pend j v ((hmem _).2 (Or.inr hm))
    · intro j hj
      by_cases hji : i = j
      · subst hji
        refine Or.inr ?_
        simp only [List.getElem?_set, if_true, h.temp_len, hil, hti, Option.map_some]
      · rcases h.slots j hj with ⟨v, hv⟩ | h'
        · rcases (hmem _).1 hv with e | e
          · simp only [Prod.mk.injEq] at e; exact absurd e.1.symm hji
          · exact Or.inl ⟨v, e⟩
        · refine Or.inr ?_
          simp only [List.getElem?_set, hji, if_false, h']
    · intro hr; have := h.ret hr; have h2 := h.wg_eq; rw [hp] at h2
      simp only [List.length_append, List.length_cons] at h2; omega
  | done hw =>
    refine ⟨h.next_le, h.temp_len, ?_, h.pend, h.slots, ?_⟩
    · have := h.wg_eq; simp only; omega
    · intro hr; have := h.ret hr; have h2 := h.wg_eq; omega
  | wait a b c => exact ⟨h.next_le, h.temp_len, h.wg_eq, h.pend, h.slots, fun _ => ⟨a, b⟩⟩

private def measure (text : List String) (s : State) : Nat :=
  3 * (text.length - s.next) + 2 * s.pending.length + s.written + (if s.returned then 0 else 1)

private theorem measure_step (stem : String → String) (text : List String) (s u : State)
    (hs : step stem text s u) : measure text u < measure text s := by
  cases hs with
  | spawn hn => simp only [measure, List.length_append, List.length_singleton]; omega
  | write l r i w hp =>
    simp only [measure, hp, List.length_append, List.length_cons]; omega
  | done hw => simp only [measure]; omega
  | wait a b c => simp [measure, c]

private theorem progress (stem : String → String) (text : List String) (s : State) (h : Inv stem text s)
    (hr : ¬ s.returned = true) : ∃ u, step stem text s u := by
  by_cases h1 : s.next < text.length
  · exact ⟨_, .spawn s h1⟩
  · cases hp : s.pending with
    | cons x l => exact ⟨_, .write s [] l x.1 x.2 (by simp [hp])⟩
    | nil =>
      by_cases hw : 0 < s.written
      · exact ⟨_, .done s hw⟩
      · have := h.wg_eq; have := h.next_le
        have hl : s.pending.length = 0 := by simp [hp]
        exact ⟨_, .wait s (by omega) (by omega) (by simpa using hr)⟩

/-- **C04** For `Snowball`: under every schedule, if the call has returned, the result is the list of stems in order;
no schedule makes more than `3n+1` steps; and as long as the call has not returned some goroutine can step (no deadlock).
For any other algorithm the call panics before doing anything. -/
theorem c04_stemmer_schedule_independent (stem : String → String) (algorithm : Int) (text : List String) :
    (algorithm ≠ 1 → init algorithm text = none) ∧
    (algorithm = 1 → ∃ s0, init algorithm text = some s0 ∧
      (∀ s, Reaches (step stem text) s0 s → s.returned = true → s.temp = text.map stem) ∧
      (∀ k s, Steps (step stem text) k s0 s → k ≤ 3 * text.length + 1) ∧
      (∀ s, Reaches (step stem text) s0 s → s.returned = false → ∃ s', step stem text s s')) := by
  constructor
  · intro h; simp [init, snowball, h]
  · rintro rfl
    refine ⟨_, by simp [init, snowball]; rfl, ?_, ?_, ?_⟩
    · intro s hs hr
      have inv := hs.invariant (inv_init stem text) (inv_step stem text)
      obtain ⟨h1, h2⟩ := inv.ret hr
      have h3 : s.pending = [] := by
        have := inv.wg_eq; apply List.length_eq_zero_iff.1; omega
      apply List.ext_getElem?
      intro i
      by_cases hi : i < text.length
      · rcases inv.slots i (by omega) with ⟨w, hw⟩ | h
        · simp [h3] at hw
        · simpa using h
      · have := inv.temp_len
        rw [List.getElem?_eq_none (by omega), List.getElem?_eq_none (by simp; omega)]
    · intro k s hs
      have := hs.bounded (P := Inv stem text) (measure text) (inv_init stem text) (inv_step stem text)
        (fun t u _ h => measure_step stem text t u h)
      simp only [measure] at this; simp at this; omega
    · intro s hs hr
      exact progress stem text s (hs.invariant (inv_init stem text) (inv_step stem text)) (by simp [hr])

/-- a schedule in which the second goroutine finishes first. -/
example : ∃ s0 s, init 1 ["a", "b"] = some s0 ∧ Reaches (step (· ++ "!") ["a", "b"]) s0 s ∧
    s.returned = true ∧ s.temp = ["a!", "b!"] := by
  refine ⟨⟨0, [], 0, ["", ""], 2, false⟩, ⟨2, [], 0, ["a!", "b!"], 0, true⟩, rfl, ?_, ?_⟩
  · exact ((((((Reaches.refl _).tail (.spawn _ (by decide))).tail (.spawn _ (by decide))).tail
      (.write _ [(0, "a")] [] 1 "b" rfl)).tail (.done _ (by decide))).tail
      (.write _ [] [] 0 "a" rfl)).tail (.done _ (by decide)) |>.tail (.wait _ rfl rfl rfl)
  · exact ⟨rfl, rfl⟩

end StemmerMachine

/-! ### C07 -/
namespace Slices

theorem read_alloc_old (h : Heap) (xs : List String) (r : Nat) (hr : r < h.length) : read (alloc h xs).1 r = read h r := by
  simp [read, alloc, List.getElem?_append_left hr]

theorem read_alloc_new (h : Heap) (xs : List String) : read (alloc h xs).1 (alloc h xs).2 = xs := by
  simp [read, alloc]

theorem alloc_len (h : Heap) (xs : List String) : (alloc h xs).1.length = h.length + 1 := by simp [alloc]

private theorem lowerAt_len (env : TextEnv) (r : Nat) (h : Heap) (i : Nat) : (lowerAt env r h i).length = h.length := by
  unfold lowerAt; split <;> simp

private theorem lowerAt_other (env : TextEnv) (r q : Nat) (hq : q ≠ r) (h : Heap) (i : Nat) :
    read (lowerAt env r h i) q = read h q := by
  unfold lowerAt; split
  · simp [read, List.getElem?_set, hq.symm]
  · rfl

private theorem lowerAt_self (env : TextEnv) (r : Nat) (h : Heap) (hr : r < h.length) (i : Nat) :
    read (lowerAt env r h i) r = (read h r).modify i (toLower env) := by
  unfold lowerAt
  split
  · rename_i t ht
    simp only [read, List.getElem?_set, hr, if_true, Option.getD_some]
    apply List.ext_getElem?
    intro j
    simp only [read] at ht
    simp only [List.getElem?_set, List.getElem?_modify]
    by_cases hij : i = j
    · subst hij
      obtain ⟨h1, h2⟩ := List.getElem?_eq_some_iff.1 ht
      simp [h1, h2]
    · simp [hij]
  · rename_i ht
    rw [List.modify_eq_self]
    simpa using ht

private theorem lower_fold (env : TextEnv) (r : Nat) : ∀ (n : Nat) (h : Heap), r < h.length →
    let h' := (List.range n).foldl (lowerAt env r) h
    h'.length = h.length ∧ (∀ q, q ≠ r → read h' q = read h q) ∧
    ∀ j, (read h' r)[j]? = if j < n then ((read h r)[j]?).map (toLower env) else (read h r)[j]? := by
  intro n
  induction n with
  | zero => intro h _; simp
  | succ n ih =>
    intro h hr
    obtain ⟨a, b, c⟩ := ih h hr
    simp only [List.range_succ, List.foldl_append, List.foldl_cons, List.foldl_nil]
    refine ⟨by rw [lowerAt_len, a], fun q hq => by rw [lowerAt_other _ _ _ hq, b q hq], fun j => ?_⟩
    rw [lowerAt_self _ _ _ (by rw [a]; exact hr), List.getElem?_modify, c]
    by_cases hj : n = j
    · subst hj; simp
    · have : j < n + 1 ↔ j < n := by omega
      simp only [hj, if_false, this]
      split <;> simp

/-- **C07, refuted** for `Lowercase`: the caller's slice is overwritten. -/
theorem c07_lowercase_mutates_refuted : ∃ (env : TextEnv) (h : Heap) (r : Nat), r < h.length ∧
    read (lowercase env h r).1 r ≠ read h r :=
  ⟨demoEnv, [["The", "CAT"]], 0, by decide, by decide⟩

/-- what `Lowercase` does in every case: it returns the same slice, whose elements are now lower-cased, and touches no other
array. -/
theorem c07_lowercase_in_place (env : TextEnv) (h : Heap) (r : Nat) (hr : r < h.length) :
    (lowercase env h r).2 = r ∧ read (lowercase env h r).1 r = (read h r).map (toLower env) ∧
    (lowercase env h r).1.length = h.length ∧ ∀ q, q ≠ r → read (lowercase env h r).1 q = read h q := by
  obtain ⟨a, b, c⟩ := lower_fold env r (read h r).length h hr
  refine ⟨rfl, ?_, a, b⟩
  apply List.ext_getElem?
  intro j
  have := c j
  simp only [lowercase]
  rw [this, List.getElem?_map]
  split
  · rfl
  · rename_i hj; rw [List.getElem?_eq_none (by omega)]; rfl

/-- **C07, partial**: the other filters leave every existing slice alone and return a fresh one; and `Preprocessing` as a
whole writes to no existing slice, although it uses `Lowercase`. Missing: `Lowercase` itself (refuted above). -/
theorem c07_other_filters_pure_partial (env : TextEnv) (h : Heap) (r : Nat) :
    (∀ words, (stopWords words h r).2 = h.length ∧
      read (stopWords words h r).1 (stopWords words h r).2 = Text.stopWords words (read h r) ∧
      ∀ q, q < h.length → read (stopWords words h r).1 q = read h q) ∧
    ((ascii env h r).2 = h.length ∧ read (ascii env h r).1 (ascii env h r).2 = Text.ascii env (read h r) ∧
      ∀ q, q < h.length → read (ascii env h r).1 q = read h q) ∧
    (∀ alg h' r', stemmer env alg h r = some (h', r') → r' = h.length ∧
      Text.stemmer env alg (read h r) = some (read h' r') ∧ ∀ q, q < h.length → read h' q = read h q) ∧
    (∀ text, ∃ h' r', preprocessing env h text = some (h', r') ∧ h.length ≤ r' ∧
      Text.preprocessing env text = some (read h' r') ∧ ∀ q, q < h.length → read h' q = read h q) := by
  refine ⟨fun words => ⟨rfl, read_alloc_new _ _, fun q hq => read_alloc_old _ _ _ hq⟩,
    ⟨rfl, read_alloc_new _ _, fun q hq => read_alloc_old _ _ _ hq⟩, ?_, ?_⟩
  · intro alg h' r' he
    unfold stemmer at he
    cases hs : Text.stemmer env alg (read h r) with
    | none => simp [hs] at he
    | some xs =>
      simp only [hs, Option.map_some, Option.some.injEq] at he
      have e1 : h' = (alloc h xs).1 := by rw [he]
      have e2 : r' = (alloc h xs).2 := by rw [he]
      subst e1; subst e2
      exact ⟨rfl, by rw [read_alloc_new], fun q hq => read_alloc_old _ _ _ hq⟩
  · intro text
    let h1 := (tokenize env h text).1
    have hl1 : h1.length = h.length + 1 := alloc_len _ _
    have r1 : read h1 h.length = Text.tokenize env text := read_alloc_new h _
    obtain ⟨-, l2, l3, l4⟩ := c07_lowercase_in_place env h1 h.length (by omega)
    let h2 := (lowercase env h1 h.length).1
    have hl2 : h2.length = h.length + 1 := l3.trans hl1
    let h3 := (stopWords stopWordsEnglish h2 h.length).1
    have hl3 : h3.length = h.length + 2 := by rw [show h3.length = h2.length + 1 from alloc_len _ _, hl2]
    have r3 : read h3 h2.length = Text.stopWords stopWordsEnglish (read h2 h.length) := read_alloc_new h2 _
    let h4 := (alloc h3 ((read h3 h2.length).map env.stem)).1
    have hl4 : h4.length = h.length + 3 := by rw [show h4.length = h3.length + 1 from alloc_len _ _, hl3]
    have r4 : read h4 h3.length = (read h3 h2.length).map env.stem := read_alloc_new h3 _
    refine ⟨(ascii env h4 h3.length).1, (ascii env h4 h3.length).2, rfl, ?_, ?_, ?_⟩
    · show h.length ≤ h4.length; omega
    · rw [show read (ascii env h4 h3.length).1 (ascii env h4 h3.length).2 = Text.ascii env (read h4 h3.length)
        from read_alloc_new _ _, r4, r3, l2, r1]
      rfl
    · intro q hq
      rw [show read (ascii env h4 h3.length).1 q = read h4 q from read_alloc_old _ _ _ (by omega),
        show read h4 q = read h3 q from read_alloc_old _ _ _ (by omega),
        show read h3 q = read h2 q from read_alloc_old _ _ _ (by omega),
        l4 q (by omega), show read h1 q = read h q from read_alloc_old _ _ _ hq]

example : (preprocessing demoEnv [["Keep", "ME"]] "The CAT").map (fun p => (read p.1 p.2, read p.1 0)) =
    some (["cat"], ["Keep", "ME"]) := by decide

end Slices
end Goir
