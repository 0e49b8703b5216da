import Verif.Lemmas.DiskBytesSim
/-!
# Closing and opening the store with bytes
-/
namespace Goir
open GoMap

/-- the model with bytes has its own steps for SecureSaveFile. -/
def NotSaving (m : MergePc) : Prop := ∀ f rest seen td acc b pc, m ≠ .saving f rest seen td acc b pc

theorem ixExec_notSaving {s s' : IxState} {a : IxState.Act} (ha : a = .recv ∨ (∃ o, a = .tick o) ∨ a = .flushed ∨ ∃ f t d, a = .post f t d) (h : NotSaving s.merger) (he : s.exec a = some s') : NotSaving s'.merger := by
  rcases ha with rfl | ⟨o, rfl⟩ | rfl | ⟨f, t, d, rfl⟩ <;> simp only [IxState.exec] at he <;> repeat' split at he
  all_goals first | (cases he; exact h) | (cases he; intro _ _ _ _ _ _ _ e; cases e) | cases he

theorem cdiskExec_notSaving {s s' : CDisk} {act : CDisk.Act}
    (ha : act ≠ .open_ ∧ ∀ a, act = .ix a → a = .recv ∨ (∃ o, a = .tick o) ∨ a = .flushed) (h : NotSaving s.ix.merger) (he : s.exec act = some s') : NotSaving s'.ix.merger := by
  have hs := CDisk.exec_step he
  clear he
  cases hs with
  | sendI hu hi hc he => exact ixExec_notSaving (.inr (.inr (.inr ⟨_, _, _, rfl⟩))) h he
  | ix hb hu he hp => exact ixExec_notSaving (by rcases ha.2 _ rfl with h | h | h; exacts [.inl h, .inr (.inl h), .inr (.inr (.inl h))]) h he
  | ixDown hb hu he hp => exact ixExec_notSaving (by rcases ha.2 _ rfl with h | h | h; exacts [.inl h, .inr (.inl h), .inr (.inr (.inl h))]) h he
  | crash he =>
    simp only [IxState.exec] at he
    split at he
    · cases he
    · cases he; intro _ _ _ _ _ _ _ e; cases e
  | open_ he => exact absurd rfl ha.1
  | _ => exact h

section
variable {root : Path} {D : String → Prop} {s : BDisk} {a : CDisk}

theorem notSaving_step {z : Bytes → Bytes} {act : CDisk.Act} {s' : BDisk} (h : NotSaving s.d.ix.merger) (he : s.exec z root act = some s') : NotSaving s'.d.ix.merger := by
  have kill : ∀ t : BDisk, NotSaving t.kill.d.ix.merger := by intro t _ _ _ _ _ _ _ e; cases e
  have lerr : ∀ t : BDisk, NotSaving t.loadError.d.ix.merger := by
    intro t
    unfold BDisk.loadError
    split
    · exact kill t
    · intro _ _ _ _ _ _ _ e; cases e
  cases act with
  | client i k =>
    simp only [BDisk.exec] at he
    split at he
    · split at he
      · cases he
        unfold BDisk.readDoc
        split
        · exact kill _
        · exact h
        · exact h
      · cases he
    · obtain ⟨d', h1, rfl⟩ := Option.map_eq_some_iff.1 he
      exact cdiskExec_notSaving ⟨fun e => (by cases e), fun _ e => (by cases e)⟩ h h1
  | recvM i =>
    obtain ⟨d', h1, rfl⟩ := Option.map_eq_some_iff.1 he
    exact cdiskExec_notSaving ⟨fun e => (by cases e), fun _ e => (by cases e)⟩ h h1
  | recvN i =>
    obtain ⟨d', h1, rfl⟩ := Option.map_eq_some_iff.1 he
    exact cdiskExec_notSaving ⟨fun e => (by cases e), fun _ e => (by cases e)⟩ h h1
  | recvD i =>
    obtain ⟨d', h1, rfl⟩ := Option.map_eq_some_iff.1 he
    exact cdiskExec_notSaving ⟨fun e => (by cases e), fun _ e => (by cases e)⟩ h h1
  | tickM o =>
    obtain ⟨d', h1, rfl⟩ := Option.map_eq_some_iff.1 he
    exact cdiskExec_notSaving ⟨fun e => (by cases e), fun _ e => (by cases e)⟩ h h1
  | tickN o =>
    obtain ⟨d', h1, rfl⟩ := Option.map_eq_some_iff.1 he
    exact cdiskExec_notSaving ⟨fun e => (by cases e), fun _ e => (by cases e)⟩ h h1
  | tickD o =>
    obtain ⟨d', h1, rfl⟩ := Option.map_eq_some_iff.1 he
    exact cdiskExec_notSaving ⟨fun e => (by cases e), fun _ e => (by cases e)⟩ h h1
  | stepM =>
    obtain ⟨⟨fs', r⟩, hf, rfl⟩ := Option.map_eq_some_iff.1 he
    cases r with
    | none => exact kill _
    | some r => exact h
  | stepN =>
    obtain ⟨⟨fs', r⟩, hf, rfl⟩ := Option.map_eq_some_iff.1 he
    cases r with
    | none => exact kill _
    | some r => exact h
  | stepD =>
    obtain ⟨⟨fs', r⟩, hf, rfl⟩ := Option.map_eq_some_iff.1 he
    cases r with
    | none => exact kill _
    | some r => exact h
  | ix b =>
    simp only [BDisk.exec] at he
    split at he
    · cases b with
      | create name =>
        simp only [BDisk.ixExec, BDisk.create] at he
        repeat' split at he
        all_goals first | (cases he; exact kill _) | (cases he; exact h) | cases he
      | write =>
        simp only [BDisk.ixExec, BDisk.write] at he
        repeat' split at he
        all_goals first | (cases he; exact h) | cases he
      | merge =>
        simp only [BDisk.ixExec, BDisk.mergeStep] at he
        repeat' split at he
        all_goals first | (cases he; exact kill _) | (cases he; exact lerr _) | (cases he; exact h) | (cases he; intro _ _ _ _ _ _ _ e; cases e) | cases he
      | startMerge =>
        simp only [BDisk.ixExec] at he
        split at he
        · cases he; intro _ _ _ _ _ _ _ e; cases e
        · cases he
      | recv =>
        obtain ⟨d', h1, rfl⟩ := Option.map_eq_some_iff.1 he
        exact cdiskExec_notSaving ⟨fun e => (by cases e), fun _ e => by cases e; simp⟩ h h1
      | tick o =>
        obtain ⟨d', h1, rfl⟩ := Option.map_eq_some_iff.1 he
        exact cdiskExec_notSaving ⟨fun e => (by cases e), fun _ e => by cases e; simp⟩ h h1
      | flushed =>
        obtain ⟨d', h1, rfl⟩ := Option.map_eq_some_iff.1 he
        exact cdiskExec_notSaving ⟨fun e => (by cases e), fun _ e => by cases e; simp⟩ h h1
      | _ => cases he
    · cases he
  | crash =>
    simp only [BDisk.exec] at he
    split at he
    · cases he
    · cases he; exact kill _
  | open_ =>
    simp only [BDisk.exec] at he
    split at he
    · cases he; intro _ _ _ _ _ _ _ e; cases e
    · cases he
  | openRest n progs =>
    simp only [BDisk.exec] at he
    repeat' split at he
    all_goals first | (cases he; exact kill _) | (cases he; exact h) | cases he

theorem notSaving_run {z : Bytes → Bytes} {as : List CDisk.Act} {s' : BDisk} (h : NotSaving s.d.ix.merger) (he : s.run z root as = some s') : NotSaving s'.d.ix.merger := by
  induction as generalizing s with
  | nil => cases he; exact h
  | cons act as ih =>
    obtain ⟨t, h1, h2⟩ := brun_cons.1 he
    exact ih (notSaving_step h h1) h2

/-- the steps of the merge when a store is opened. -/
theorem merges_sim (hD : Ids D) {z : Bytes → Bytes} (hz : ∀ d, Spec.Gz.Written d (z d)) {k : Nat} {s' : BDisk} (h : BRel root D s a) (hi : AInv D a)
    (he : s.run z root (List.replicate k (.ix .merge)) = some s') (hp : s'.d.ix.proc ≠ .down) :
    ∃ j a', a.run (List.replicate j (.ix .merge)) = some a' ∧ BRel root D s' a' ∧ AInv D a' := by
  induction k generalizing s a with
  | zero => cases he; exact ⟨0, a, rfl, h, hi⟩
  | succ k ih =>
    obtain ⟨t, h1, h2⟩ := brun_cons.1 he
    have h1' := h1
    simp only [BDisk.exec] at h1
    split at h1
    · rename_i hg
      obtain ⟨bs, a1, r1, r2, r3⟩ := merge_sim h hi hD hz hg h1
      have hi1 : AInv D a1 := hi.run r1 fun n progs hm => absurd rfl (r3.quiet _ hm n progs)
      rcases r3 with ⟨rfl, -⟩ | rfl | ⟨rfl, hd, -⟩
      · cases r1
        exact ih r2 hi1 h2
      · obtain ⟨j, a', q1, q2, q3⟩ := ih r2 hi1 h2
        obtain ⟨u, q4, q5⟩ := CDisk.run_cons.1 r1
        cases q5
        exact ⟨j + 1, a', CDisk.run_cons.2 ⟨_, q4, q1⟩, q2, q3⟩
      · exfalso
        cases k with
        | zero => cases h2; exact hp hd
        | succ k =>
          obtain ⟨t2, h3, -⟩ := brun_cons.1 h2
          simp only [BDisk.exec] at h3
          split at h3
          · rename_i hg2
            exact (live r2 hi1 hg2).2 (by rw [r2.iproc]; exact hd)
          · cases h3
    · cases h1

/-- the next step of the merge is to serialise an index that is too large. -/
def TooLarge (s : BDisk) : Prop := ∃ f rest seen td acc, s.d.ix.merger = .reading f rest seen [] td acc ∧ s.saveI = none ∧ FBB.serializeIndex td = none

theorem mergeStep_down {x y : IxState} (hx : x.proc ≠ .down) (h : x.mergeStep = some y) (hy : y.proc = .down) : y.merger = .idle := by
  unfold IxState.mergeStep IxState.loadError at h
  repeat' split at h
  all_goals first | (cases h; first | rfl | exact absurd hy hx | cases hy) | cases h

/-- opening goes on until the store is open, or an index is too large. -/
theorem merges_live (hD : Ids D) {z : Bytes → Bytes} (hz : ∀ d, Spec.Gz.Written d (z d)) {k : Nat} (h : BRel root D s a) (hi : AInv D a) (hns : NotSaving s.d.ix.merger) (hop : s.d.ix.proc = .opening)
    {aix : IxState} (ha : a.ix.run (List.replicate k .merge) = some aix) (hu : aix.proc = .up) :
    ∃ j s', s.run z root (List.replicate j (.ix .merge)) = some s' ∧ (s'.d.ix.proc = .up ∨ (s'.d.ix.proc = .opening ∧ TooLarge s')) := by
  induction k generalizing s a with
  | zero =>
    rw [List.replicate_zero, IxState.run_nil] at ha
    subst ha
    rw [h.iproc, hop] at hu
    cases hu
  | succ k ih =>
    obtain ⟨ix1, ha1, ha2⟩ := (IxState.run_cons _ _ _ _).1 ha
    have hnd : ix1.proc ≠ .down := by
      intro e
      cases k with
      | zero =>
        rw [List.replicate_zero, IxState.run_nil] at ha2
        subst ha2
        rw [e] at hu; cases hu
      | succ k =>
        obtain ⟨ix2, ha3, -⟩ := (IxState.run_cons _ _ _ _).1 ha2
        have hid := mergeStep_down (by rw [h.iproc, hop]; intro e; cases e) ha1 e
        have ha3 : ix1.mergeStep = some ix2 := ha3
        rw [IxState.mergeStep, hid] at ha3
        cases ha3
    induction hm : stutter s.saveI using Nat.strong_induction_on generalizing s with
    | _ m ihm =>
      subst hm
      obtain ⟨s1, h1⟩ := merge_total (z := z) h ha1 hns
      have hx : s.exec z root (.ix .merge) = some s1 := by
        simp only [BDisk.exec, BDisk.ixExec]
        rw [if_pos (.inr hop)]; exact h1
      obtain ⟨bs, a1, r1, r2, r3⟩ := merge_sim h hi hD hz (.inr hop) h1
      have hi1 : AInv D a1 := hi.run r1 fun n progs hm => absurd rfl (r3.quiet _ hm n progs)
      have hns1 := notSaving_step hns hx
      rcases r3 with ⟨rfl, hlt⟩ | rfl | ⟨rfl, -, hf⟩
      · cases r1
        obtain ⟨j, s', q1, q2⟩ := ihm _ hlt r2 hns1 (by rw [← r2.iproc, h.iproc]; exact hop) rfl
        exact ⟨j + 1, s', brun_cons.2 ⟨s1, hx, q1⟩, q2⟩
      · have e := merge_exec (.inr (by rw [h.iproc]; exact hop)) ha1 hnd
        rw [e] at r1
        cases r1
        cases hp : ix1.proc with
        | down => exact absurd hp hnd
        | up => exact ⟨1, s1, brun_cons.2 ⟨s1, hx, rfl⟩, .inl (by rw [← r2.iproc]; exact hp)⟩
        | opening =>
          obtain ⟨j, s', q1, q2⟩ := ih r2 hi1 hns1 (by rw [← r2.iproc]; exact hp) ha2
          exact ⟨j + 1, s', brun_cons.2 ⟨s1, hx, q1⟩, q2⟩
      · rcases hf with ⟨ix, hf, hd⟩ | hf
        · have ha1 : a.ix.mergeStep = some ix1 := ha1
          rw [ha1] at hf
          cases hf
          exact absurd hd hnd
        · exact ⟨0, s, rfl, .inr ⟨hop, hf⟩⟩

end
end Goir
