import Verif.Lemmas.DiskIndex
/-!
# C28–C30, C35, C36, C41, C71: postings on disk

Statements about `IxState.run {} as`: any sequence of client calls, writer and merge steps, crashes and reopenings starting from
an empty folder.
-/
namespace Goir
open GoMap IxState

/-- `GetDocuments(f, t)` contains `d`. -/
def Visible (s : IxState) (f t d : String) : Prop := GoSet.contains (s.getDocuments f t).1 d = true

instance (s : IxState) (f t d : String) : Decidable (Visible s f t d) := inferInstanceAs (Decidable (_ = true))

/-- the index file of some field is between the two renames of SecureSaveFile (/repo/file/File.go:147 and 153). -/
def inRenameWindow (s : IxState) : Bool :=
  match s.merger with
  | .saving _ _ _ _ _ _ .moved => true
  | _ => false

/-- as `exec`, but the process is never killed in the rename window. -/
def execSafe (s : IxState) (a : Act) : Option IxState := if a = .crash ∧ inRenameWindow s then none else s.exec a

/-- a run in which the process is never killed in the rename window. -/
def runSafe (s : IxState) (as : List Act) : Option IxState := as.foldlM execSafe s

theorem runSafe_cons (s s' : IxState) (a : Act) (as : List Act) :
    runSafe s (a :: as) = some s' ↔ ∃ s₁, execSafe s a = some s₁ ∧ runSafe s₁ as = some s' := by
  unfold runSafe; rw [List.foldlM_cons]
  cases execSafe s a <;> simp

theorem execSafe_exec {s s' : IxState} {a : Act} (h : execSafe s a = some s') : s.exec a = some s' := by
  unfold execSafe at h; split at h
  · cases h
  · exact h

theorem runSafe_run {s s' : IxState} {as : List Act} (h : runSafe s as = some s') : s.run as = some s' := by
  induction as generalizing s with
  | nil => exact h
  | cons a as ih =>
    obtain ⟨s₁, h1, h2⟩ := (runSafe_cons _ _ _ _).1 h
    exact (run_cons _ _ _ _).2 ⟨s₁, execSafe_exec h1, ih h2⟩

theorem not_window_of_flag {s : IxState} (h : inRenameWindow s = false) (f t d : String) : ¬ Window s f t d := by
  unfold inRenameWindow at h
  unfold Window
  split
  · rename_i hm; rw [hm] at h; cases h
  · exact id

theorem stored_killed {s : IxState} (hw : ∀ f t d, ¬ Window s f t d) {f t d : String} (h : Stored s f t d) : Stored s.killed f t d :=
  .inl (h.resolve_right (hw f t d))

/-- nothing stored is lost by an action. -/
theorem stored_exec {s s' : IxState} {a : Act} (h : Inv s) (he : execSafe s a = some s') {f t d : String} (hs : Stored s f t d) :
    Stored s' f t d := by
  have he' := execSafe_exec he
  cases a with
  | touch g =>
    simp only [exec] at he'; split at he'
    · cases he'; exact hs
    · cases he'
  | post g u e =>
    simp only [exec] at he'; split at he'
    · cases he'; exact hs
    · cases he'
  | recv =>
    simp only [exec] at he'; split at he'
    · cases he'; exact hs
    · cases he'
  | tick o =>
    simp only [exec] at he'; split at he'
    · cases he'; exact hs
    · cases he'
  | create name =>
    simp only [exec] at he'
    split at he'
    · rename_i g p rest hw
      split at he'
      · rename_i hn
        obtain ⟨b, hb, hdec⟩ := (h.sane.buf _ ((writerOk_flushing h.writer hw).2.1 (g, p) (by simp))).readBack
        rw [hb] at he'
        cases he'
        have fc : FragChange s { s.setFiles g { s.files g with temp := (s.files g).temp.set name .torn } with
              writer := .flushing ((g, p) :: rest) (some name) } g name .torn :=
          ⟨.inl hn, fun g => files_setFiles _ _ _ _, rfl, .inl rfl⟩
        exact (fc.stored f t d).2 (.inl hs)
      · cases he'
    · cases he'
  | write =>
    simp only [exec] at he'
    split at he'
    · rename_i g p rest name hw
      obtain ⟨hp, hsub, hall, hl⟩ := writerOk_flushing h.writer hw
      obtain ⟨f', p', r', hr, htorn⟩ := hl _ rfl
      simp only [List.cons.injEq, Prod.mk.injEq] at hr
      obtain ⟨⟨rfl, rfl⟩, rfl⟩ := hr
      have hgood := h.sane.buf _ (hsub (g, p) (by simp))
      obtain ⟨b, hb, hdec⟩ := hgood.readBack
      rw [hb] at he'
      cases he'
      have fc : FragChange s { s.setFiles g { s.files g with temp := (s.files g).temp.set name (.full b) } with
            writer := .flushing rest none } g name (.full b) :=
        ⟨.inr htorn, fun g => files_setFiles _ _ _ _, rfl, .inr ⟨b, p, rfl, hdec, hgood⟩⟩
      exact (fc.stored f t d).2 (.inl hs)
    · cases he'
  | flushed =>
    simp only [exec] at he'; split at he'
    · cases he'; exact hs
    · cases he'
  | startMerge =>
    simp only [exec] at he'; split at he'
    · rename_i hp
      cases he'
      exact (stored_merger _ (not_window_of hp.2) (fun _ _ _ => id) f t d).2 hs
    · cases he'
  | merge =>
    rcases (exec_merge h he').2 with h1 | ⟨rfl, hw, _⟩
    · exact (h1.2 f t d).2 hs
    · exact stored_killed hw hs
  | mkdir g =>
    simp only [exec] at he'; split at he'
    · cases he'
      have hff : (s.setFiles g (s.files g)).files = s.files := by
        funext x; rw [files_setFiles]; split
        · rename_i e; rw [e]
        · rfl
      exact (stored_congr hff rfl f t d).2 hs
    · cases he'
  | crash =>
    unfold execSafe at he
    split at he
    · cases he
    · rename_i hw
      have hw : inRenameWindow s = false := by simpa using hw
      simp only [exec] at he'
      split at he'
      · cases he'
      · cases he'; exact stored_killed (not_window_of_flag hw) hs
  | open_ =>
    simp only [exec] at he'; split at he'
    · rename_i hp
      cases he'
      rcases hs with hs | hs
      · exact .inl hs
      · exact absurd hs (not_window_of (h.down hp).merger _ _ _)
    · cases he'

theorem stored_run {s s' : IxState} {as : List Act} (h : Inv s) (hr : runSafe s as = some s') {f t d : String}
    (hs : Stored s f t d) : Stored s' f t d := by
  induction as generalizing s with
  | nil =>
    have : s = s' := by simpa [runSafe] using hr
    exact this ▸ hs
  | cons a as ih =>
    obtain ⟨s₁, h1, h2⟩ := (runSafe_cons _ _ _ _).1 hr
    exact ih (exec_inv h (execSafe_exec h1)) h2 (stored_exec h h1 hs)

theorem visible_of_stored {s : IxState} (h : Inv s) (hp : s.proc = .up) {f t d : String} (hs : Stored s f t d) : Visible s f t d :=
  (has2_iff_getDocuments s f t d).1 ((h.up hp f t d).2 (.inl hs))

/-- **C28**: take any moment at which the index writer completes a flush, and any posting that `GetDocuments` showed then and
that was not still waiting in the channel.  In every continuation in which the process is not killed between the two renames of
SecureSaveFile, whenever a store is up (this process or a later one), `GetDocuments` shows the posting. -/
theorem c28_flushed_postings_survive (as bs : List Act) (s s₁ s₂ : IxState) (f t d : String) (hr : run {} as = some s)
    (hf : s.exec .flushed = some s₁) (hv : Visible s f t d) (hc : (f, t, d) ∉ s.chan)
    (hr2 : runSafe s₁ bs = some s₂) (hp : s₂.proc = .up) : Visible s₂ f t d := by
  have h := run_inv init_inv hr
  have h1 := exec_inv h hf
  have h2 := run_inv h1 (runSafe_run hr2)
  refine visible_of_stored h2 hp (stored_run h1 hr2 ?_)
  simp only [exec] at hf
  split at hf
  · rename_i hw
    cases hf
    have hup := (writerOk_flushing h.writer hw).1
    have := (h1.up hup f t d).1 ((has2_iff_getDocuments s f t d).2 hv)
    rcases this with h3 | ⟨p, h3, _⟩ | h3
    · exact h3
    · simp at h3
    · exact absurd h3 hc
  · cases hf

/-- **C28**, for any posting that is in a complete file of its field's folder at any moment. -/
theorem c28_on_disk_postings_survive (as bs : List Act) (s s₂ : IxState) (f t d : String) (hr : run {} as = some s)
    (hd : OnDisk s f t d) (hr2 : runSafe s bs = some s₂) (hp : s₂.proc = .up) : Visible s₂ f t d := by
  have h := run_inv init_inv hr
  exact visible_of_stored (run_inv h (runSafe_run hr2)) hp (stored_run h hr2 (.inl hd))

/-- a first process that saves one posting, flushes it and merges it: the actions up to the end of the flush. -/
def demoFlush : List Act :=
  [.open_, .merge, .touch "f", .post "f" "t" "d", .recv, .tick [("f", [("t", [("d", true)])])], .create "u1", .write]

/-- a later history: merge, crash in the middle of SecureSaveFile but outside the window, reopen. -/
def demoLater : List Act :=
  [.startMerge, .merge, .merge, .merge, .merge, .crash, .open_] ++ List.replicate 12 .merge

example : ∃ s s₁ s₂, run {} demoFlush = some s ∧ s.exec .flushed = some s₁ ∧ Visible s "f" "t" "d" ∧ ("f", "t", "d") ∉ s.chan ∧
    runSafe s₁ demoLater = some s₂ ∧ s₂.proc = .up ∧ Visible s₂ "f" "t" "d" := by
  refine ⟨_, _, _, rfl, rfl, by decide, by decide, rfl, by decide, by decide⟩

/-- **C29**: at any moment of any run, with any number of crashes and reopenings, `GetDocuments(f, t)` shows only documents that
were handed to UpdateIndex under that field and term. -/
theorem c29_never_invents (as : List Act) (s : IxState) (f t d : String) (hr : run {} as = some s) (hv : Visible s f t d) :
    .post f t d ∈ as := by
  have h := run_inv init_inv hr
  have hh : (f, t, d) ∈ s.hist := by
    have h2 := (has2_iff_getDocuments s f t d).2 hv
    have hp : s.proc = .up ∨ s.mem = [] := by
      cases hp : s.proc with
      | up => exact .inl rfl
      | down => exact .inr (h.down hp).mem
      | opening => exact .inr (h.opening hp).mem
    rcases hp with hp | hp
    · rcases (h.up hp f t d).1 h2 with h3 | h3 | h3
      · exact h.histS _ _ _ h3
      · exact h.histB _ _ _ h3
      · exact h.histC _ h3
    · obtain ⟨p, h3, _⟩ := h2; rw [hp] at h3; simp at h3
  rcases hist_run hr _ hh with h1 | h1
  · cases h1
  · exact h1

example : ∃ as s, run {} as = some s ∧ Visible s "f" "t" "d" :=
  ⟨demoFlush ++ [.crash, .open_] ++ List.replicate 12 .merge, _, rfl, by decide⟩

theorem run_merges_stored {s s' : IxState} {k : Nat} (h : Inv s) (hr : s.run (List.replicate k .merge) = some s')
    (hp : s'.proc ≠ .down) (f t d : String) : Stored s' f t d ↔ Stored s f t d := by
  induction k generalizing s with
  | zero => have : s = s' := by simpa [run] using hr
            rw [this]
  | succ k ih =>
    rw [List.replicate_succ] at hr
    obtain ⟨s₁, h1, h2⟩ := (run_cons _ _ _ _).1 hr
    have hi := exec_inv h h1
    rw [ih hi h2]
    rcases (exec_merge h h1).2 with h3 | ⟨rfl, -, -⟩
    · exact h3.2 f t d
    · exfalso
      cases k with
      | zero => have : s.panic = s' := by simpa [run] using h2
                exact hp (this ▸ rfl)
      | succ k =>
        rw [List.replicate_succ] at h2
        obtain ⟨s₂, h4, _⟩ := (run_cons _ _ _ _).1 h2
        cases h4

theorem stored_open {s s' : IxState} {k : Nat} (h : Inv s) (hr : s.run (.open_ :: List.replicate k .merge) = some s')
    (hp : s'.proc ≠ .down) (f t d : String) : Stored s' f t d ↔ OnDisk s f t d := by
  obtain ⟨s₁, h1, h2⟩ := (run_cons _ _ _ _).1 hr
  rw [run_merges_stored (exec_inv h h1) h2 hp]
  simp only [exec] at h1
  split at h1
  · cases h1
    exact stored_iff_onDisk (fun _ _ _ => id) f t d
  · cases h1

/-- during the opening there is nothing queued. -/
theorem quiet_merges {s s' : IxState} {k : Nat} (hr : s.run (List.replicate k .merge) = some s') (hq : s.buf = [] ∧ s.chan = []) :
    s'.buf = [] ∧ s'.chan = [] := by
  induction k generalizing s with
  | zero => have : s = s' := by simpa [run] using hr
            rw [← this]; exact hq
  | succ k ih =>
    rw [List.replicate_succ] at hr
    obtain ⟨s₁, h1, h2⟩ := (run_cons _ _ _ _).1 hr
    refine ih h2 ?_
    have he : s.mergeStep = some s₁ := h1
    revert he
    unfold mergeStep loadError
    (repeat' split) <;> intro he <;> first | (cases he; exact hq) | (cases he; exact ⟨rfl, rfl⟩) | (cases he)

theorem quiet_open {s s' : IxState} {k : Nat} (hr : s.killed.run (.open_ :: List.replicate k .merge) = some s') :
    s'.buf = [] ∧ s'.chan = [] := by
  obtain ⟨s₁, h1, h2⟩ := (run_cons _ _ _ _).1 hr
  refine quiet_merges h2 ?_
  simp only [exec] at h1
  split at h1
  · cases h1; exact ⟨rfl, rfl⟩
  · cases h1

/-- **C30**: everything is flushed, the process ends (the merge goroutine may be anywhere outside the rename window) and the
folder is opened again.  The new store comes up, and it gives the same `GetDocuments` answers, including the `found` flag. -/
theorem c30_clean_restart (as : List Act) (s : IxState) (hr : run {} as = some s) (hp : s.proc = .up) (hc : s.chan = [])
    (hb : s.buf = []) (hwr : s.writer = .idle) (hw : inRenameWindow s = false) :
    (∃ k s', s.run (.crash :: .open_ :: List.replicate k .merge) = some s' ∧ s'.proc = .up) ∧
    ∀ k s', s.run (.crash :: .open_ :: List.replicate k .merge) = some s' → s'.proc = .up →
      ∀ f t, (s'.getDocuments f t).2 = (s.getDocuments f t).2 ∧ ∀ d, Visible s' f t d ↔ Visible s f t d := by
  have h := run_inv init_inv hr
  have h2 := run_inv2 init_inv init_inv2 hr
  have hcr : s.exec .crash = some s.killed := by simp [exec, hp]
  have hk := exec_inv h hcr
  constructor
  · have ho : s.killed.exec .open_ = some { s.killed with proc := .opening, panicked := false, merger := .atField (GoMap.keys s.killed.dirs) [] } := by
      simp [exec, killed]
    have hio := exec_inv hk ho
    obtain ⟨k, s', h3, h4⟩ := open_completes hio (by
      intro f n ht
      obtain ⟨p, r, hw'⟩ := h2.up hp f n ht
      rw [hwr] at hw'; cases hw') rfl
    exact ⟨k, s', (run_cons _ _ _ _).2 ⟨_, hcr, (run_cons _ _ _ _).2 ⟨_, ho, h3⟩⟩, h4⟩
  · intro k s' hr' hp' f t
    obtain ⟨s₁, h1, h3⟩ := (run_cons _ _ _ _).1 hr'
    rw [hcr] at h1; cases h1
    have h' := run_inv hk h3
    have key : ∀ d, has2 s'.mem f t d ↔ has2 s.mem f t d := by
      intro d
      have hb' : s'.buf = [] ∧ s'.chan = [] := quiet_open h3
      rw [h'.up hp', h.up hp, hb'.1, hb'.2, hc, hb, stored_open hk h3 (by simp [hp']), stored_iff_onDisk (not_window_of_flag hw)]
      exact Iff.rfl
    constructor
    · rw [Bool.eq_iff_iff, found_iff h', found_iff h]
      exact exists_congr key
    · intro d
      exact (has2_iff_getDocuments s' f t d).symm.trans ((key d).trans (has2_iff_getDocuments s f t d))

example : ∃ as s, run {} as = some s ∧ s.proc = .up ∧ s.chan = [] ∧ s.buf = [] ∧ s.writer = .idle ∧
    inRenameWindow s = false ∧ Visible s "f" "t" "d" :=
  ⟨demoFlush ++ [.flushed], _, rfl, by decide, by decide, by decide, by decide, by decide, by decide⟩

/-! ### C35: merging -/

/-- when the store comes up after merging, no fragments are left and the merge is idle. -/
theorem last_merge {s s' : IxState} {k : Nat} (h : Inv s) (h2 : Inv2 s) (ho : s.proc = .opening)
    (hr : s.run (List.replicate k .merge) = some s') (hp : s'.proc = .up) :
    (∀ f n, (s'.files f).temp.get? n = none) ∧ s'.merger = .idle := by
  induction k generalizing s with
  | zero => have : s = s' := by simpa [run] using hr
            subst this; rw [ho] at hp; cases hp
  | succ k ih =>
    rw [List.replicate_succ] at hr
    obtain ⟨s₁, h1, h3⟩ := (run_cons _ _ _ _).1 hr
    cases hs₁ : s₁.proc with
    | opening => exact ih (exec_inv h h1) (exec_inv2 h h2 h1) hs₁ h3
    | down =>
      exfalso
      cases k with
      | zero => have : s₁ = s' := by simpa [run] using h3
                subst this; rw [hs₁] at hp; cases hp
      | succ k =>
        rw [List.replicate_succ] at h3
        obtain ⟨s₂, h4, _⟩ := (run_cons _ _ _ _).1 h3
        have h4' : s₁.mergeStep = some s₂ := h4
        unfold mergeStep at h4'
        rw [((exec_inv h h1).down hs₁).merger] at h4'
        cases h4'
    | up =>
      have key : (∀ f n, (s₁.files f).temp.get? n = none) ∧ s₁.merger = .idle := by
        have he : s.mergeStep = some s₁ := h1
        match hm : s.merger with
        | .atField [] acc =>
          have hrem := h2.opening ho
          unfold mergeStep at he
          rw [hm] at he
          simp only [ho, if_true] at he
          cases he
          exact ⟨fun f n => hrem f (by simp [hm, remaining]) n, rfl⟩
        | .idle | .dead | .atField (_ :: _) _ | .reading _ _ _ (_ :: _) _ _ | .reading _ _ _ [] _ _ | .deleting _ _ [] _
        | .deleting _ _ (_ :: _) _ | .saving _ _ _ _ _ _ _ =>
          exfalso
          revert he hs₁
          unfold mergeStep loadError killed IxState.panic killed
          rw [hm]
          (repeat' split) <;> intro hs₁ he <;> first | contradiction | (cases he; simp [ho, setFiles] at hs₁; done) | (cases he; done) | (simp_all; done)
      cases k with
      | zero => have : s₁ = s' := by simpa [run] using h3
                subst this; exact key
      | succ k =>
        rw [List.replicate_succ] at h3
        obtain ⟨s₂, h4, _⟩ := (run_cons _ _ _ _).1 h3
        have h4' : s₁.mergeStep = some s₂ := h4
        unfold mergeStep at h4'
        rw [key.2] at h4'
        cases h4'

/-- **C35**: opening a folder (which merges it) returns exactly the union of the index files and all fragments; afterwards the
index file of every field holds exactly that union and no fragment is left. -/
theorem c35_open_returns_union (as : List Act) (s s' : IxState) (k : Nat) (hr : run {} as = some s)
    (hr' : s.run (.open_ :: List.replicate k .merge) = some s') (hp : s'.proc = .up) (f t d : String) :
    (Visible s' f t d ↔ OnDisk s f t d) ∧ (ContentHas (s'.files f).index.cur t d ↔ OnDisk s f t d) ∧
      ∀ n, (s'.files f).temp.get? n = none := by
  have h := run_inv init_inv hr
  have h' := run_inv h hr'
  have hst := stored_open h hr' (by simp [hp]) f t d
  obtain ⟨s₁, h1, h2⟩ := (run_cons _ _ _ _).1 hr'
  have hd : s.proc = .down := by
    simp only [exec] at h1; split at h1
    · assumption
    · cases h1
  have hq : s'.buf = [] ∧ s'.chan = [] := by
    refine quiet_merges h2 ?_
    have := h.down hd
    simp only [exec] at h1
    rw [if_pos hd] at h1
    cases h1; exact ⟨this.buf, this.chan⟩
  have hvis : Visible s' f t d ↔ OnDisk s f t d := by
    refine (has2_iff_getDocuments s' f t d).symm.trans ?_
    rw [h'.up hp, hq.1, hq.2, hst]
    have hn : ¬ has2 [] f t d := by rintro ⟨p, hp, _⟩; simp at hp
    simp [hn]
  have hlast := last_merge (exec_inv h h1) (exec_inv2 h (inv2_of_down hd) h1) (by
    simp only [exec] at h1
    rw [if_pos hd] at h1
    cases h1; rfl) h2 hp
  refine ⟨hvis, ?_, fun n => hlast.1 f n⟩
  rw [← hst]
  constructor
  · intro hc; exact .inl (.inl hc)
  · rintro ((hc | ⟨n, hc⟩) | hc)
    · exact hc
    · rw [hlast.1 f n] at hc; exact absurd hc (contentHas_none _ _)
    · exact absurd hc (not_window_of hlast.2 _ _ _)

/-- **C35**: merging again changes nothing: a second opening of the folder gives the same answers. -/
theorem c35_idempotent (as : List Act) (s s₁ s₂ : IxState) (k j : Nat) (hr : run {} as = some s)
    (h1 : s.run (.open_ :: List.replicate k .merge) = some s₁) (hp1 : s₁.proc = .up)
    (h2 : s₁.run (.crash :: .open_ :: List.replicate j .merge) = some s₂) (hp2 : s₂.proc = .up) (f t d : String) :
    Visible s₂ f t d ↔ Visible s₁ f t d := by
  obtain ⟨g1, g2, g3⟩ := c35_open_returns_union as s s₁ k hr h1 hp1 f t d
  obtain ⟨sk, h3, h4⟩ := (run_cons _ _ _ _).1 h2
  have hk : sk = s₁.killed := by simp [exec, hp1] at h3; exact h3.symm
  have hr2 : run {} (as ++ (.open_ :: List.replicate k .merge) ++ [.crash]) = some sk := by
    rw [run_append]
    exact ⟨s₁, (run_append _ _ _ _).2 ⟨s, hr, h1⟩, (run_cons _ _ _ _).2 ⟨sk, h3, rfl⟩⟩
  obtain ⟨e1, -, -⟩ := c35_open_returns_union _ sk s₂ j hr2 h4 hp2 f t d
  rw [e1, g1, ← g2, hk]
  unfold OnDisk
  have hf : s₁.killed.files = s₁.files := rfl
  rw [hf]
  constructor
  · rintro (h | ⟨n, h⟩)
    · exact h
    · rw [g3 n] at h; exact absurd h (contentHas_none _ _)
  · exact .inl

/-- **C35**, the background merge: whatever else happens meanwhile — new postings, fragments being written, other merges — as
long as the process lives, what is in the complete files of a folder stays there (the state between the two renames, when the
index file is only reachable under its temporary name, excepted). -/
theorem c35_merge_loses_nothing (as bs : List Act) (s s' : IxState) (hr : run {} as = some s) (hr' : s.run bs = some s')
    (hk : .crash ∉ bs) (f t d : String) (hd : OnDisk s f t d) (hw : inRenameWindow s' = false) : OnDisk s' f t d := by
  have h := run_inv init_inv hr
  have hs : runSafe s bs = some s' := by
    clear hd hw h hr
    induction bs generalizing s with
    | nil => exact hr'
    | cons a bs ih =>
      obtain ⟨s₁, h1, h2⟩ := (run_cons _ _ _ _).1 hr'
      refine (runSafe_cons _ _ _ _).2 ⟨s₁, ?_, ih _ h2 (fun hm => hk (List.mem_cons_of_mem _ hm))⟩
      unfold execSafe
      rw [if_neg]
      · exact h1
      · rintro ⟨rfl, _⟩; exact hk List.mem_cons_self
  exact (stored_run h hs (.inl hd)).resolve_right (not_window_of_flag hw f t d)

/-- **C35**, the background merge adds nothing: a merge from start to end leaves exactly what was there. -/
theorem c35_merge_exact (as : List Act) (s s' : IxState) (k : Nat) (hr : run {} as = some s)
    (hr' : s.run (.startMerge :: List.replicate k .merge) = some s') (hp : s'.proc = .up) (hi : s'.merger = .idle) (f t d : String) :
    OnDisk s' f t d ↔ OnDisk s f t d := by
  have h := run_inv init_inv hr
  obtain ⟨s₁, h1, h2⟩ := (run_cons _ _ _ _).1 hr'
  have := run_merges_stored (exec_inv h h1) h2 (by simp [hp]) f t d
  rw [stored_iff_onDisk (not_window_of hi)] at this
  rw [this]
  simp only [exec] at h1; split at h1
  · rename_i hx
    cases h1
    exact (stored_merger _ (not_window_of hx.2) (fun _ _ _ => id) f t d).trans (stored_iff_onDisk (not_window_of hx.2) f t d)
  · cases h1

/-- two fragments of two flushes, then killed: the union comes back. -/
def demoTwo : List Act :=
  demoFlush ++ [.flushed, .post "f" "t" "e", .post "f" "u" "d", .recv, .recv,
    .tick [("f", [("t", [("e", true)]), ("u", [("d", true)])])], .create "u2", .write, .flushed]

example : ∃ s s', run {} (demoTwo ++ [.crash]) = some s ∧ s.run (.open_ :: List.replicate 14 .merge) = some s' ∧ s'.proc = .up ∧
    OnDisk s "f" "t" "e" ∧ Visible s' "f" "t" "d" ∧ Visible s' "f" "t" "e" ∧ Visible s' "f" "u" "d" ∧ ¬ Visible s' "f" "u" "e" :=
  ⟨_, _, rfl, rfl, by decide, .inr ⟨"u2", _, _, rfl, rfl, rfl⟩, by decide, by decide, by decide, by decide⟩

example : ∃ s s', run {} demoTwo = some s ∧ s.run (.startMerge :: List.replicate 14 .merge) = some s' ∧ s'.proc = .up ∧
    s'.merger = .idle := ⟨_, _, rfl, rfl, by decide, by decide⟩

/-! ### C36: half-written fragments -/

/-- **C36 is false**: the writer has created the fragment file but not finished it when the merge reads it; DecompressData panics
and the process dies. -/
theorem c36_merge_reads_torn_refuted : ∃ as s, run {} as = some s ∧ .crash ∉ as ∧ s.panicked = true ∧ s.proc = .down :=
  ⟨[.open_, .merge, .post "f" "t" "d", .recv, .tick [("f", [("t", [("d", true)])])], .create "u1", .startMerge, .merge, .merge],
    _, rfl, by decide, by decide, by decide⟩

/-- What holds of C36: a merge step in a running store panics only if at that moment the index writer is inside the write of a
fragment. Missing: the code does not prevent that. -/
theorem c36_no_panic_partial (as : List Act) (s s' : IxState) (hr : run {} as = some s) (hp : s.proc = .up)
    (hw : ∀ rest n, s.writer ≠ .flushing rest (some n)) (he : s.exec .merge = some s') : s'.proc = .up := by
  have h := run_inv init_inv hr
  have h2 := run_inv2 init_inv init_inv2 hr
  rcases (exec_merge h he).2 with h1 | ⟨-, -, f, n, h1⟩
  · have h3 := exec_inv h he
    cases hp' : s'.proc with
    | up => rfl
    | down => exact absurd hp' h1.1
    | opening =>
      exfalso
      have he' : s.mergeStep = some s' := he
      revert he' hp'
      unfold mergeStep loadError killed IxState.panic killed
      (repeat' split) <;> intro hp' he' <;> first | (cases he'; simp [hp, setFiles] at hp') | (cases he')
  · obtain ⟨p, r, hw'⟩ := h2.up hp f n h1
    exact absurd hw' (hw _ _)

example : ∃ as s s', run {} as = some s ∧ s.proc = .up ∧ s.writer = .idle ∧ s.exec .merge = some s' :=
  ⟨demoFlush ++ [.flushed, .startMerge, .merge], _, _, rfl, by decide, by decide, rfl⟩

/-! ### C41: a crash in the rename window -/

/-- **C41 is false**: the posting was flushed, merged into the index file and shown; the process dies between the two renames of
the next merge; the reopened store no longer shows it (and no later one will: the left-over `_old` file is deleted). -/
theorem c41_window_loses_index_refuted : ∃ as s bs s', run {} as = some s ∧ s.proc = .up ∧ Visible s "f" "t" "d" ∧
    ContentHas (s.files "f").index.cur "t" "d" ∧
    s.run bs = some s' ∧ s'.proc = .up ∧ ¬ Visible s' "f" "t" "d" ∧ (s'.files "f").index.old = none :=
  ⟨demoFlush ++ [.flushed, .startMerge] ++ List.replicate 12 .merge, _,
    [.startMerge] ++ List.replicate 5 .merge ++ [.crash, .open_] ++ List.replicate 10 .merge, _, rfl, by decide, by decide,
    ⟨_, _, rfl, rfl, rfl⟩, rfl, by decide, by decide, by decide⟩

/-- What holds of C41: the process is killed anywhere else in the SecureSaveFile call that rewrites the index file of field `f`
(or later): the reopened store shows every posting of the old index. Missing: the window between the two renames. -/
theorem c41_outside_window_partial (as bs : List Act) (s₀ s s' : IxState) (k : Nat) (f t d : String) (hr : run {} as = some s₀)
    (hd : ContentHas (s₀.files f).index.cur t d) (hb : s₀.run bs = some s) (hk : .crash ∉ bs)
    (hw : inRenameWindow s = false)
    (hr' : s.run (.crash :: .open_ :: List.replicate k .merge) = some s') (hp : s'.proc = .up) : Visible s' f t d := by
  have hd' := c35_merge_loses_nothing as bs s₀ s hr hb hk f t d (.inl hd) hw
  obtain ⟨s₁, h1, h2⟩ := (run_cons _ _ _ _).1 hr'
  have hs₁ : s₁ = s.killed := by
    simp only [exec] at h1; split at h1
    · cases h1
    · cases h1; rfl
  have hr2 : run {} ((as ++ bs) ++ [.crash]) = some s₁ :=
    (run_append _ _ _ _).2 ⟨s, (run_append _ _ _ _).2 ⟨s₀, hr, hb⟩, (run_cons _ _ _ _).2 ⟨s₁, h1, rfl⟩⟩
  refine (c35_open_returns_union _ s₁ s' k hr2 h2 hp f t d).1.2 ?_
  rw [hs₁]; exact hd'

example : ∃ as bs s₀ s s', run {} as = some s₀ ∧ ContentHas (s₀.files "f").index.cur "t" "d" ∧ s₀.run bs = some s ∧ .crash ∉ bs ∧
    inRenameWindow s = false ∧ s.run (.crash :: .open_ :: List.replicate 10 .merge) = some s' ∧ s'.proc = .up :=
  ⟨demoFlush ++ [.flushed, .startMerge] ++ List.replicate 12 .merge, [.startMerge] ++ List.replicate 6 .merge, _, _, _, rfl,
    ⟨_, _, rfl, rfl, rfl⟩, rfl, by decide, by decide, rfl, by decide⟩

/-- What holds of C41 even in the window: postings of fragments not yet deleted survive. -/
theorem c41_fragments_partial (as : List Act) (s s' : IxState) (k : Nat) (f t d n : String) (hr : run {} as = some s)
    (hd : ContentHas ((s.files f).temp.get? n) t d)
    (hr' : s.run (.crash :: .open_ :: List.replicate k .merge) = some s') (hp : s'.proc = .up) : Visible s' f t d := by
  obtain ⟨s₁, h1, h2⟩ := (run_cons _ _ _ _).1 hr'
  have hs₁ : s₁ = s.killed := by
    simp only [exec] at h1; split at h1
    · cases h1
    · cases h1; rfl
  have hr2 : run {} (as ++ [.crash]) = some s₁ := (run_append _ _ _ _).2 ⟨s, hr, (run_cons _ _ _ _).2 ⟨s₁, h1, rfl⟩⟩
  refine (c35_open_returns_union _ s₁ s' k hr2 h2 hp f t d).1.2 ?_
  rw [hs₁]; exact .inr ⟨n, hd⟩

example : ∃ as s s', run {} as = some s ∧ inRenameWindow s = true ∧ ContentHas ((s.files "f").temp.get? "u1") "t" "d" ∧
    s.run (.crash :: .open_ :: List.replicate 12 .merge) = some s' ∧ s'.proc = .up :=
  ⟨demoFlush ++ [.flushed, .startMerge] ++ List.replicate 6 .merge, _, _, rfl, by decide, ⟨_, _, rfl, rfl, rfl⟩, rfl, by decide⟩

/-! ### C71: a crash while a fragment is being written -/

/-- a merge step leaves incomplete fragments alone. -/
theorem merge_keeps_torn {s s' : IxState} (h : Inv s) (he : s.mergeStep = some s') {f n : String}
    (ht : (s.files f).temp.get? n = some .torn) : (s'.files f).temp.get? n = some .torn := by
  have hmo := h.merger
  unfold MergerOk at hmo
  match hm : s.merger with
  | .deleting g rest (m :: ms) acc =>
    rw [hm] at hmo
    obtain ⟨b, hb⟩ := hmo.2.1 m (by simp)
    unfold mergeStep at he
    rw [hm] at he
    simp only [hb] at he
    cases he
    have : ({ s.setFiles g { s.files g with temp := (s.files g).temp.del m } with merger := .deleting g rest ms acc } : IxState).files f = _ :=
      files_setFiles _ _ _ _
    rw [this]; split
    · rename_i e; subst e
      simp only [get?_del]; split
      · rename_i e; subst e; rw [hb] at ht; cases ht
      · exact ht
    · exact ht
  | .saving g rest ns td acc b pc =>
    unfold mergeStep at he
    rw [hm] at he
    have key : ∀ ix m, (({ s.setFiles g { s.files g with index := ix } with merger := m } : IxState).files f).temp.get? n = some .torn := by
      intro ix m
      have : ({ s.setFiles g { s.files g with index := ix } with merger := m } : IxState).files f = _ := files_setFiles _ _ _ _
      rw [this]; split
      · rename_i e; subst e; exact ht
      · exact ht
    cases pc
    case done => cases he; exact ht
    all_goals (cases he; exact key _ _)
  | .idle | .dead | .atField [] _ | .atField (_ :: _) _ | .reading _ _ _ (_ :: _) _ _ | .reading _ _ _ [] _ _ | .deleting _ _ [] _ =>
    revert he
    unfold mergeStep loadError
    rw [hm]
    (repeat' split) <;> intro he <;> first | contradiction | (cases he; exact ht) | (simp_all; done)

/-- an incomplete fragment in a folder that is not open: the folder is never open again. -/
theorem torn_forever {s : IxState} (hi : s.Inv) (hi2 : Inv2 s) (hd : s.proc ≠ .up) {f n : String} (ht : (s.files f).temp.get? n = some .torn) :
    ∀ bs s', s.run bs = some s' → s'.proc ≠ .up := by
  have step : ∀ (s s' : IxState) a, s.Inv → Inv2 s → s.proc ≠ .up → (s.files f).temp.get? n = some .torn → s.exec a = some s' →
      s'.proc ≠ .up ∧ (s'.files f).temp.get? n = some .torn := by
    intro s s' a hi hi2 hp ht he
    have hw : s.writer = .idle := by
      cases hp' : s.proc with
      | up => exact absurd hp' hp
      | down => exact (hi.down hp').writer
      | opening => exact (hi.opening hp').writer
    cases a with
    | merge =>
      refine ⟨?_, merge_keeps_torn hi he ht⟩
      have he' : s.mergeStep = some s' := he
      match hm : s.merger with
      | .atField [] acc =>
        exfalso
        have ho : s.proc = .opening := by
          cases hp' : s.proc with
          | up => exact absurd hp' hp
          | down => rw [(hi.down hp').merger] at hm; cases hm
          | opening => rfl
        have := hi2.opening ho f (by simp [hm, remaining]) n
        rw [ht] at this; cases this
      | .idle | .dead | .atField (_ :: _) _ | .reading _ _ _ (_ :: _) _ _ | .reading _ _ _ [] _ _ | .deleting _ _ [] _
      | .deleting _ _ (_ :: _) _ | .saving _ _ _ _ _ _ _ =>
        revert he'
        unfold mergeStep loadError
        rw [hm]
        (repeat' split) <;> intro he' <;> first
          | contradiction | (cases he'; exact hp) | (cases he'; intro e; cases e; done) | (simp_all; done)
    | crash =>
      simp only [exec] at he; split at he
      · cases he
      · cases he; exact ⟨by simp [killed], ht⟩
    | open_ =>
      simp only [exec] at he; split at he
      · cases he; exact ⟨by simp, ht⟩
      · cases he
    | create =>
      simp only [exec, hw] at he; cases he
    | write =>
      simp only [exec, hw] at he; cases he
    | flushed =>
      simp only [exec, hw] at he; cases he
    | recv =>
      simp only [exec] at he; split at he
      · rename_i hp' _ _; exact absurd hp' hp
      · cases he
    | _ => simp [exec, hp] at he
  intro bs
  have all : ∀ bs (s s' : IxState), s.Inv → Inv2 s → s.proc ≠ .up → (s.files f).temp.get? n = some .torn → s.run bs = some s' →
      s'.proc ≠ .up := by
    intro bs
    induction bs with
    | nil => intro s s' _ _ hp _ hr; rw [run_nil] at hr; exact hr ▸ hp
    | cons a bs ih =>
      intro s s' hi hi2 hp ht hr
      obtain ⟨s₁, h1, h2⟩ := (run_cons _ _ _ _).1 hr
      obtain ⟨g1, g2⟩ := step s s₁ a hi hi2 hp ht h1
      exact ih s₁ s' (exec_inv hi h1) (exec_inv2 hi hi2 h1) g1 g2 h2
  intro s' hr
  exact all bs s s' hi hi2 hd ht hr

/-- **C71 fails wherever the writer can be killed inside a fragment**: after every history, if the index writer has created a fragment and not yet completed it, and the process ends there, then no later
sequence of openings and merges ever has the folder open again. -/
theorem c71_every_cut_fragment_refuted {as : List Act} {s s' : IxState} {rest : List (String × Postings)} {name : String} (h : run {} as = some s)
    (hw : s.writer = .flushing rest (some name)) (hc : s.exec .crash = some s') : ∀ bs s'', s'.run bs = some s'' → s''.proc ≠ .up := by
  have hi := run_inv init_inv h
  have hi2 := run_inv2 init_inv init_inv2 h
  have hk := hi.writer
  unfold WriterOk at hk
  rw [hw] at hk
  obtain ⟨hp, -, -, f, p, r, -, ht⟩ := hk
  have hc' := hc
  simp only [exec, hp] at hc
  cases hc
  exact torn_forever (exec_inv hi hc') (exec_inv2 hi hi2 hc') (by simp [killed]) (f := f) (n := name) ht

example : ∃ s s', run {} (demoFlush ++ [.flushed, .post "f" "t" "e", .recv, .tick [("f", [("t", [("e", true)])])], .create "u2"]) = some s ∧
    s.writer = .flushing [("f", [("t", [("e", true)])])] (some "u2") ∧ s.exec .crash = some s' := ⟨_, _, rfl, rfl, rfl⟩

/-- **C71 is false**: the process is killed while the index writer is writing a fragment; every later opening of the folder
panics, so nothing in it can be read any more. -/
theorem c71_reopen_after_crash_refuted :
    ∃ as s, run {} as = some s ∧ s.proc = .down ∧ Stored s "f" "t" "d" ∧
      (∃ k s', s.run (.open_ :: List.replicate k .merge) = some s' ∧ s'.panicked = true) ∧
      ∀ bs s', s.run bs = some s' → s'.proc ≠ .up := by
  have w : ∃ s, run {} (demoFlush ++ [.flushed, .post "f" "t" "e", .recv, .tick [("f", [("t", [("e", true)])])], .create "u2", .crash]) =
      some s ∧ s.proc = .down ∧ (s.files "f").temp.get? "u2" = some .torn ∧ Stored s "f" "t" "d" ∧
      (∃ k s', s.run (.open_ :: List.replicate k .merge) = some s' ∧ s'.panicked = true) :=
    ⟨_, rfl, by decide, by decide, .inl (.inr ⟨"u1", _, _, rfl, rfl, rfl⟩), 3, _, rfl, by decide⟩
  obtain ⟨s, h1, h2, h3, h4, h5⟩ := w
  refine ⟨_, s, h1, h2, h4, h5, ?_⟩
  have hi := run_inv init_inv h1
  have hi2 := run_inv2 init_inv init_inv2 h1
  exact torn_forever hi hi2 (by simp [h2]) h3

/-- What holds of C71: killed while the index writer is not inside the write of a fragment, the folder opens again. Missing: the
write itself, which is not atomic. -/
theorem c71_reopen_partial (as : List Act) (s : IxState) (hr : run {} as = some s) (hp : s.proc = .up)
    (hw : ∀ rest n, s.writer ≠ .flushing rest (some n)) :
    ∃ k s', s.run (.crash :: .open_ :: List.replicate k .merge) = some s' ∧ s'.proc = .up := by
  have h := run_inv init_inv hr
  have h2 := run_inv2 init_inv init_inv2 hr
  have hcr : s.exec .crash = some s.killed := by simp [exec, hp]
  have hk := exec_inv h hcr
  have ho : s.killed.exec .open_ = some { s.killed with proc := .opening, panicked := false, merger := .atField (GoMap.keys s.killed.dirs) [] } := by
    simp [exec, killed]
  obtain ⟨k, s', h3, h4⟩ := open_completes (exec_inv hk ho) (by
    intro f n ht
    obtain ⟨p, r, hw'⟩ := h2.up hp f n ht
    exact absurd hw' (hw _ _)) rfl
  exact ⟨k, s', (run_cons _ _ _ _).2 ⟨_, hcr, (run_cons _ _ _ _).2 ⟨_, ho, h3⟩⟩, h4⟩

example : ∃ as s, run {} as = some s ∧ s.proc = .up ∧ s.writer = .flushing [] none ∧ s.buf ≠ [] :=
  ⟨demoFlush, _, rfl, by decide, by decide, by decide⟩

end Goir
