/-!
# Transition systems

Goroutines are modelled by small-step relations `step : S → S → Prop`: one step of one goroutine.  A run is any sequence of
steps, so a theorem about every reachable state or every run covers every schedule.
-/
namespace Goir

/-- `Steps step k s s'`: some schedule leads from `s` to `s'` in `k` steps. (no code: runs of goroutines in general, e.g. of /repo/index/InvertedIndex.go:35-121) -/
inductive Steps {S : Type} (step : S → S → Prop) : Nat → S → S → Prop where
  | refl (s : S) : Steps step 0 s s
  | tail {k : Nat} {s t u : S} : Steps step k s t → step t u → Steps step (k + 1) s u

/-- reachable by some schedule. (no code: runs of goroutines in general, e.g. of /repo/index/InvertedIndex.go:35-121) -/
def Reaches {S : Type} (step : S → S → Prop) (s s' : S) : Prop := ∃ k, Steps step k s s'

theorem Reaches.refl {S : Type} {step : S → S → Prop} (s : S) : Reaches step s s := ⟨0, .refl s⟩

theorem Reaches.tail {S : Type} {step : S → S → Prop} {s t u : S} (h : Reaches step s t) (h' : step t u) :
    Reaches step s u := let ⟨k, hk⟩ := h; ⟨k + 1, .tail hk h'⟩

theorem Steps.trans {S : Type} {step : S → S → Prop} {j k : Nat} {s t u : S} (h : Steps step j s t)
    (h' : Steps step k t u) : Steps step (j + k) s u := by
  induction h' with
  | refl => exact h
  | tail _ hs ih => exact .tail (ih h) hs

theorem Reaches.trans {S : Type} {step : S → S → Prop} {s t u : S} (h : Reaches step s t)
    (h' : Reaches step t u) : Reaches step s u :=
  let ⟨_, a⟩ := h; let ⟨_, b⟩ := h'; ⟨_, a.trans b⟩

theorem Reaches.single {S : Type} {step : S → S → Prop} {s t : S} (h : step s t) : Reaches step s t :=
  (Reaches.refl s).tail h

/-- invariant rule. -/
theorem Reaches.invariant {S : Type} {step : S → S → Prop} {P : S → Prop} {s s' : S} (h : Reaches step s s')
    (h0 : P s) (hs : ∀ t u, P t → step t u → P u) : P s' := by
  obtain ⟨k, h⟩ := h
  induction h with
  | refl => exact h0
  | tail _ st ih => exact hs _ _ (ih h0) st

/-- if every step (from states satisfying an invariant) lowers a measure, runs are no longer than the measure. -/
theorem Steps.bounded {S : Type} {step : S → S → Prop} {P : S → Prop} (μ : S → Nat) {k : Nat} {s s' : S}
    (h : Steps step k s s') (h0 : P s) (hs : ∀ t u, P t → step t u → P u) (hμ : ∀ t u, P t → step t u → μ u < μ t) :
    k + μ s' ≤ μ s := by
  have : k + μ s' ≤ μ s ∧ P s' := by
    induction h with
    | refl => exact ⟨by omega, h0⟩
    | tail _ st ih =>
      obtain ⟨a, b⟩ := ih h0
      have := hμ _ _ b st
      exact ⟨by omega, hs _ _ b st⟩
  exact this.1

/-- if a measure decreases and every unfinished state can step, every state can reach a finished one. -/
theorem exists_finished {S : Type} {step : S → S → Prop} {P : S → Prop} (fin : S → Prop) (μ : S → Nat)
    (hs : ∀ t u, P t → step t u → P u) (hμ : ∀ t u, P t → step t u → μ u < μ t)
    (hp : ∀ t, P t → ¬ fin t → ∃ u, step t u) (s : S) (h0 : P s) : ∃ s', Reaches step s s' ∧ fin s' := by
  generalize hm : μ s = m
  induction m using Nat.strongRecOn generalizing s with
  | _ m ih =>
    by_cases hf : fin s
    · exact ⟨s, .refl s, hf⟩
    · obtain ⟨u, hu⟩ := hp s h0 hf
      obtain ⟨s', h1, h2⟩ := ih (μ u) (by have := hμ _ _ h0 hu; omega) u (hs _ _ h0 hu) rfl
      exact ⟨s', (Reaches.single hu).trans h1, h2⟩

end Goir
