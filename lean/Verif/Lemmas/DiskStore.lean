import Verif.Model.DiskStore
import Verif.Spec.History
import Verif.Lemmas.DiskIndex
import Verif.Lemmas.Counters
import Verif.Lemmas.Docs
/-! # The whole disk store: projections to its parts, and what the counters and postings are between two calls -/
namespace Goir.Disk
open GoMap Spec IxState

/-! ### runs -/

theorem run_nil (s s' : Disk) : run s [] = some s' ↔ s = s' := by simp [run]

theorem run_cons {s s' : Disk} {a : Act} {as : List Act} : s.run (a :: as) = some s' ↔ ∃ t, s.exec a = some t ∧ t.run as = some s' := by
  unfold run
  rw [List.foldlM_cons]
  cases h : s.exec a <;> simp

theorem run_snoc {s s' : Disk} {as : List Act} {a : Act} :
    s.run (as ++ [a]) = some s' ↔ ∃ t, s.run as = some t ∧ t.exec a = some s' := by
  unfold run
  rw [List.foldlM_append]
  cases h : as.foldlM exec s with
  | none => simp
  | some t => cases h2 : t.exec a <;> simp [h2]

theorem run_induction {P : List Act → Disk → Prop} {s₀ : Disk} (h0 : P [] s₀)
    (hs : ∀ as s a s', s₀.run as = some s → P as s → s.exec a = some s' → P (as ++ [a]) s')
    {as : List Act} {s : Disk} (h : s₀.run as = some s) : P as s := by
  induction as using List.reverseRecOn generalizing s with
  | nil => cases h; exact h0
  | append_singleton as a ih =>
    obtain ⟨t, h1, h2⟩ := run_snoc.1 h
    exact hs as t a s h1 (ih h1) h2

/-! ### what an action does, part by part -/

/-- an action of the store, seen by its parts. -/
inductive Eff (s : Disk) : Act → Disk → Prop where
  | save {d f o₁ o₂} (hi : s.idle = true) (h1 : o₁.Perm f.tf.keys) (h2 : o₂.Perm f.tf.keys) :
      Eff s (.save d f o₁ o₂) ⟨s.ix, s.ct, s.dc, saveProg d f o₁ o₂⟩
  | updateIndex {d f o} (hi : s.idle = true) (h1 : o.Perm f.tf.keys) : Eff s (.updateIndex d f o) ⟨s.ix, s.ct, s.dc, updateIndexProg d f o⟩
  | size {f len rest ct} (hp : s.prog = .size f len :: rest) (hb : s.blocked = false) (h : s.ct.exec (.addField f len) = some ct) :
      Eff s .client ⟨s.ix, ct, s.dc, rest⟩
  | touch {f rest ix} (hp : s.prog = .touch f :: rest) (hb : s.blocked = false) (h : s.ix.exec (.touch f) = some ix) :
      Eff s .client ⟨ix, s.ct, s.dc, rest⟩
  | post {f t d rest ix} (hp : s.prog = .post f t d :: rest) (hb : s.blocked = false) (h : s.ix.exec (.post f t d) = some ix) :
      Eff s .client ⟨ix, s.ct, s.dc, rest⟩
  | term {f t rest ct} (hp : s.prog = .term f t :: rest) (hb : s.blocked = false) (h : s.ct.exec (.addTerm f t) = some ct) :
      Eff s .client ⟨s.ix, ct, s.dc, rest⟩
  | doc {d f rest dc} (hp : s.prog = .doc d f :: rest) (hb : s.blocked = false) (h : s.dc.exec (.save d f) = some dc) :
      Eff s .client ⟨s.ix, s.ct, dc, rest⟩
  | read {d dc} (hi : s.idle = true) (h : s.dc.exec (.read d) = some dc) : Eff s (.read d) ⟨s.ix, s.ct, dc, s.prog⟩
  | ix {a ix} (hb : ixBackground a = true) (hu : s.dc.up = true ∨ s.ix.proc = .opening) (h : s.ix.exec a = some ix) (hp : ix.proc ≠ .down) :
      Eff s (.ix a) ⟨ix, s.ct, s.dc, s.prog⟩
  | ixDown {a ix} (hb : ixBackground a = true) (hu : s.dc.up = true ∨ s.ix.proc = .opening) (h : s.ix.exec a = some ix) (hp : ix.proc = .down) :
      Eff s (.ix a) (s.stop ix)
  | ct {a ct} (hb : ctBackground a = true) (hu : s.dc.up = true) (h : s.ct.exec a = some ct) : Eff s (.ct a) ⟨s.ix, ct, s.dc, s.prog⟩
  | dc {a dc} (hb : dcBackground a = true) (hu : s.dc.up = true) (h : s.dc.exec a = some dc) : Eff s (.dc a) ⟨s.ix, s.ct, dc, s.prog⟩
  | crash {ix} (h : s.ix.exec .crash = some ix) : Eff s .crash (s.stop ix)
  | open_ {ix} (h : s.ix.exec .open_ = some ix) : Eff s .open_ ⟨ix, s.ct, s.dc, s.prog⟩
  | openRest {n ct dc} (hp : s.ix.proc = .up) (hu : s.dc.up = false) (h1 : s.ct.exec .open_ = some ct) (h2 : s.dc.exec (.open_ n) = some dc) :
      Eff s (.openRest n) ⟨s.ix, ct, dc, s.prog⟩

theorem exec_eff {s s' : Disk} {a : Act} (h : s.exec a = some s') : Eff s a s' := by
  cases a with
  | save d f o₁ o₂ =>
    simp only [exec] at h; split at h
    · rename_i hc; cases h; exact .save hc.1 hc.2.1 hc.2.2
    · cases h
  | updateIndex d f o =>
    simp only [exec] at h; split at h
    · rename_i hc; cases h; exact .updateIndex hc.1 hc.2
    · cases h
  | client =>
    simp only [exec] at h; split at h
    · cases h
    · rename_i m rest hp
      split at h
      · cases h
      · rename_i hb
        have hb : s.blocked = false := by simpa using hb
        cases m with
        | size f len =>
          obtain ⟨t, h1, rfl⟩ := Option.map_eq_some_iff.1 h
          obtain ⟨ct, h2, rfl⟩ := Option.map_eq_some_iff.1 h1
          exact .size hp hb h2
        | touch f =>
          obtain ⟨t, h1, rfl⟩ := Option.map_eq_some_iff.1 h
          obtain ⟨ix, h2, rfl⟩ := Option.map_eq_some_iff.1 h1
          exact .touch hp hb h2
        | post f t d =>
          obtain ⟨t, h1, rfl⟩ := Option.map_eq_some_iff.1 h
          obtain ⟨ix, h2, rfl⟩ := Option.map_eq_some_iff.1 h1
          exact .post hp hb h2
        | term f t =>
          obtain ⟨t, h1, rfl⟩ := Option.map_eq_some_iff.1 h
          obtain ⟨ct, h2, rfl⟩ := Option.map_eq_some_iff.1 h1
          exact .term hp hb h2
        | doc d f =>
          obtain ⟨t, h1, rfl⟩ := Option.map_eq_some_iff.1 h
          obtain ⟨dc, h2, rfl⟩ := Option.map_eq_some_iff.1 h1
          exact .doc hp hb h2
  | read d =>
    simp only [exec] at h; split at h
    · rename_i hc
      obtain ⟨dc, h1, rfl⟩ := Option.map_eq_some_iff.1 h
      exact .read hc h1
    · cases h
  | ix a =>
    simp only [exec] at h; split at h
    · rename_i hc
      obtain ⟨ix, h1, h2⟩ := Option.map_eq_some_iff.1 h
      split at h2
      · rename_i hp; subst h2; exact .ixDown hc.1 hc.2 h1 hp
      · rename_i hp; subst h2; exact .ix hc.1 hc.2 h1 hp
    · cases h
  | ct a =>
    simp only [exec] at h; split at h
    · rename_i hc
      obtain ⟨ct, h1, rfl⟩ := Option.map_eq_some_iff.1 h
      exact .ct hc.1 hc.2 h1
    · cases h
  | dc a =>
    simp only [exec] at h; split at h
    · rename_i hc
      obtain ⟨dc, h1, rfl⟩ := Option.map_eq_some_iff.1 h
      exact .dc hc.1 hc.2 h1
    · cases h
  | crash =>
    obtain ⟨ix, h1, rfl⟩ := Option.map_eq_some_iff.1 h
    exact .crash h1
  | open_ =>
    obtain ⟨ix, h1, rfl⟩ := Option.map_eq_some_iff.1 h
    exact .open_ h1
  | openRest n =>
    simp only [exec] at h; split at h
    · rename_i hc
      split at h
      · rename_i ct dc h1 h2
        cases h; exact .openRest hc.1 hc.2 h1 h2
      · cases h
    · cases h

/-! ### projections: the history of each part -/

/-- stopping the process, seen by the counters. -/
def ctStop (s : Disk) : List CtState.Act := if s.ct.up then [.crash] else []
/-- stopping the process, seen by the documents. -/
def dcStop (s : Disk) : List DcState.Act := if s.dc.up then [.crash] else []

/-- the actions of the index part in an action of the store. -/
def ixActs (s : Disk) : Act → List IxState.Act
  | .client =>
    match s.prog with
    | .touch f :: _ => [.touch f]
    | .post f t d :: _ => [.post f t d]
    | _ => []
  | .ix a => [a]
  | .crash => [.crash]
  | .open_ => [.open_]
  | _ => []

/-- the actions of the counters in an action of the store. -/
def ctActs (s : Disk) : Act → List CtState.Act
  | .client =>
    match s.prog with
    | .size f len :: _ => [.addField f len]
    | .term f t :: _ => [.addTerm f t]
    | _ => []
  | .ct a => [a]
  | .ix a => match s.ix.exec a with | some ix => if ix.proc = .down then s.ctStop else [] | none => []
  | .crash => s.ctStop
  | .openRest _ => [.open_]
  | _ => []

/-- the actions of the documents in an action of the store. -/
def dcActs (s : Disk) : Act → List DcState.Act
  | .client =>
    match s.prog with
    | .doc d f :: _ => [.save d f]
    | _ => []
  | .read d => [.read d]
  | .dc a => [a]
  | .ix a => match s.ix.exec a with | some ix => if ix.proc = .down then s.dcStop else [] | none => []
  | .crash => s.dcStop
  | .openRest n => [.open_ n]
  | _ => []

theorem ct_stop (s : Disk) (ix : IxState) : s.ct.run s.ctStop = some (s.stop ix).ct := by
  unfold ctStop stop
  by_cases h : s.ct.up = true
  · simp [h, CtState.run, CtState.exec]
  · simp [h, CtState.run, CtState.exec]

theorem dc_stop (s : Disk) (ix : IxState) : s.dc.run s.dcStop = some (s.stop ix).dc := by
  unfold dcStop stop
  by_cases h : s.dc.up = true
  · simp [h, DcState.run, DcState.exec]
  · simp [h, DcState.run, DcState.exec]

theorem exec_parts {s s' : Disk} {a : Act} (h0 : s.exec a = some s') :
    s.ix.run (ixActs s a) = some s'.ix ∧ s.ct.run (ctActs s a) = some s'.ct ∧ s.dc.run (dcActs s a) = some s'.dc := by
  cases exec_eff h0 with
  | save hi h1 h2 => exact ⟨rfl, rfl, rfl⟩
  | updateIndex hi h1 => exact ⟨rfl, rfl, rfl⟩
  | size hp hb h => simp [ixActs, ctActs, dcActs, hp, IxState.run, CtState.run, DcState.run, h]
  | touch hp hb h => simp [ixActs, ctActs, dcActs, hp, IxState.run, CtState.run, DcState.run, h]
  | post hp hb h => simp [ixActs, ctActs, dcActs, hp, IxState.run, CtState.run, DcState.run, h]
  | term hp hb h => simp [ixActs, ctActs, dcActs, hp, IxState.run, CtState.run, DcState.run, h]
  | doc hp hb h => simp [ixActs, ctActs, dcActs, hp, IxState.run, CtState.run, DcState.run, h]
  | read hi h => simp [ixActs, ctActs, dcActs, IxState.run, CtState.run, DcState.run, h]
  | ix hb hu h hp => simp [ixActs, ctActs, dcActs, IxState.run, CtState.run, DcState.run, h, hp]
  | ixDown hb hu h hp =>
    refine ⟨by simp [ixActs, IxState.run, h, stop], ?_, ?_⟩
    · simp only [ctActs, h, hp, if_true]; exact ct_stop s _
    · simp only [dcActs, h, hp, if_true]; exact dc_stop s _
  | ct hb hu h => simp [ixActs, ctActs, dcActs, IxState.run, CtState.run, DcState.run, h]
  | dc hb hu h => simp [ixActs, ctActs, dcActs, IxState.run, CtState.run, DcState.run, h]
  | crash h => exact ⟨by simp [ixActs, IxState.run, h, stop], ct_stop s _, dc_stop s _⟩
  | open_ h => simp [ixActs, ctActs, dcActs, IxState.run, CtState.run, DcState.run, h]
  | openRest hp hu h1 h2 => simp [ixActs, ctActs, dcActs, IxState.run, CtState.run, DcState.run, h1, h2]

/-- the trace of a part, given what each action means to it. -/
def trace {α : Type} (p : Disk → Act → List α) (s : Disk) : List Act → List α
  | [] => []
  | a :: as => p s a ++ match s.exec a with | some t => trace p t as | none => []

theorem trace_snoc {α : Type} (p : Disk → Act → List α) {s t : Disk} {as : List Act} (a : Act) (h : s.run as = some t) :
    trace p s (as ++ [a]) = trace p s as ++ p t a := by
  induction as generalizing s with
  | nil =>
    cases h
    simp only [List.nil_append, trace]
    split <;> simp
  | cons b as ih =>
    obtain ⟨u, h1, h2⟩ := run_cons.1 h
    simp only [List.cons_append, trace, h1, ih h2, List.append_assoc]

/-- the parts of a reachable store are reachable. -/
theorem run_parts {as : List Act} {s : Disk} (h : run {} as = some s) :
    IxState.run {} (trace ixActs {} as) = some s.ix ∧ CtState.run {} (trace ctActs {} as) = some s.ct ∧
      DcState.run {} (trace dcActs {} as) = some s.dc := by
  refine run_induction (P := fun as s => IxState.run {} (trace ixActs {} as) = some s.ix ∧ CtState.run {} (trace ctActs {} as) = some s.ct ∧
      DcState.run {} (trace dcActs {} as) = some s.dc) ⟨rfl, rfl, rfl⟩ ?_ h
  intro as s a s' hr ih he
  obtain ⟨h1, h2, h3⟩ := exec_parts he
  rw [trace_snoc _ a hr, trace_snoc _ a hr, trace_snoc _ a hr]
  refine ⟨(IxState.run_append _ _ _ _).2 ⟨_, ih.1, h1⟩, (CtState.run_append _ _ _ _).2 ⟨_, ih.2.1, h2⟩, ?_⟩
  rw [DcState.run_append, ih.2.2]; exact h3

/-! ### background steps do not touch what clients see -/

theorem ct_background {s s' : CtState} {a : CtState.Act} (hb : ctBackground a = true) (h : s.exec a = some s') :
    s'.up = s.up ∧ s'.size = s.size ∧ s'.length = s.length ∧ s'.nft = s.nft := by
  cases a with
  | recvM =>
    simp only [CtState.exec] at h; split at h
    · cases h
    · obtain ⟨_, _, rfl⟩ := Option.map_eq_some_iff.1 h; exact ⟨rfl, rfl, rfl, rfl⟩
  | recvN =>
    simp only [CtState.exec] at h; split at h
    · cases h
    · obtain ⟨_, _, rfl⟩ := Option.map_eq_some_iff.1 h; exact ⟨rfl, rfl, rfl, rfl⟩
  | tickM o =>
    simp only [CtState.exec] at h; split at h
    · obtain ⟨_, _, rfl⟩ := Option.map_eq_some_iff.1 h; exact ⟨rfl, rfl, rfl, rfl⟩
    · cases h
  | tickN o =>
    simp only [CtState.exec] at h; split at h
    · obtain ⟨_, _, rfl⟩ := Option.map_eq_some_iff.1 h; exact ⟨rfl, rfl, rfl, rfl⟩
    · cases h
  | stepM => simp only [CtState.exec] at h; obtain ⟨_, _, rfl⟩ := Option.map_eq_some_iff.1 h; exact ⟨rfl, rfl, rfl, rfl⟩
  | stepN => simp only [CtState.exec] at h; obtain ⟨_, _, rfl⟩ := Option.map_eq_some_iff.1 h; exact ⟨rfl, rfl, rfl, rfl⟩
  | _ => cases hb

theorem dc_background {s s' : DcState} {a : DcState.Act} (hb : dcBackground a = true) (h : s.exec a = some s') : s'.up = s.up := by
  cases a with
  | recv =>
    simp only [DcState.exec] at h; split at h
    · cases h
    · obtain ⟨_, _, rfl⟩ := Option.map_eq_some_iff.1 h; rfl
  | tick o =>
    simp only [DcState.exec] at h; split at h
    · obtain ⟨_, _, rfl⟩ := Option.map_eq_some_iff.1 h; rfl
    · cases h
  | step => simp only [DcState.exec] at h; obtain ⟨_, _, rfl⟩ := Option.map_eq_some_iff.1 h; rfl
  | _ => cases hb

theorem dc_read_up {s s' : DcState} {d : String} (h : s.exec (.read d) = some s') : s'.up = s.up ∧ s'.send = s.send := by
  simp only [DcState.exec] at h; split at h
  · obtain ⟨⟨t, x⟩, h1, rfl⟩ := Option.map_eq_some_iff.1 h
    unfold DcState.getField at h1
    split at h1
    · cases h1; exact ⟨rfl, rfl⟩
    · split at h1
      · cases h1
      · cases h1; exact ⟨rfl, rfl⟩
      · obtain ⟨_, _, h2⟩ := Option.map_eq_some_iff.1 h1; cases h2; exact ⟨rfl, rfl⟩
  · cases h

theorem dc_save_up {s s' : DcState} {d : String} {f : Field} (h : s.exec (.save d f) = some s') : s'.up = true := by
  simp only [DcState.exec] at h; split at h
  · rename_i hc
    have hu : s.up = true := by simp at hc; exact hc.1
    unfold DcState.save at h
    split at h <;> (obtain ⟨_, _, rfl⟩ := Option.map_eq_some_iff.1 h; exact hu)
  · cases h

/-- a background step of a running index leaves the index in memory alone, unless the process dies. -/
theorem ix_background {s s' : IxState} {a : IxState.Act} (hu : s.proc = .up) (hb : ixBackground a = true) (h : s.exec a = some s') :
    s'.proc = .down ∨ (s'.proc = .up ∧ s'.mem = s.mem) := by
  cases a with
  | merge =>
    have he' : s.mergeStep = some s' := h
    revert he'
    unfold mergeStep loadError
    simp only [hu, reduceCtorEq, if_false]
    (repeat' split) <;> intro he' <;> (first | (cases he'; first | exact .inl rfl | exact .inr ⟨hu, rfl⟩ | exact .inr ⟨rfl, rfl⟩) | (cases he') | (rename_i h1; cases h1))
  | touch f => cases hb
  | post f t d => cases hb
  | crash => cases hb
  | open_ => cases hb
  | _ =>
    revert h
    simp only [IxState.exec]
    (repeat' split) <;> intro he <;> first | (cases he; first | exact .inl rfl | exact .inr ⟨hu, rfl⟩) | (cases he)

/-- nothing that happens while a store is being opened adds a posting. -/
theorem ix_hist {s s' : IxState} {a : IxState.Act} (hb : ixBackground a = true) (h : s.exec a = some s') (hh : s.hist = []) : s'.hist = [] := by
  cases hx : s'.hist with
  | nil => rfl
  | cons x xs =>
    rcases hist_exec h x (by rw [hx]; simp) with h1 | rfl
    · rw [hh] at h1; cases h1
    · cases hb

/-! ### what the update in progress still has to do -/

/-- what a statement adds to the size of field `name`. -/
def dSize (name : String) : Micro → Int | .size f _ => if f = name then 1 else 0 | _ => 0
/-- what a statement adds to the length of field `name`. -/
def dLen (name : String) : Micro → Int | .size f len => if f = name then len else 0 | _ => 0
/-- what a statement adds to the document frequency of `t` in field `name`. -/
def dTerm (name t : String) : Micro → Int | .term f u => if f = name ∧ u = t then 1 else 0 | _ => 0
/-- the document a statement saves. -/
def dDoc : Micro → Option (String × Field) | .doc d f => some (d, f) | _ => none

theorem sum_zero {l : List Micro} {w : Micro → Int} (h : ∀ m ∈ l, w m = 0) : (l.map w).sum = 0 := by
  induction l with
  | nil => rfl
  | cons m l ih =>
    rw [List.map_cons, List.sum_cons, h m (by simp), ih fun m hm => h m (by simp [hm])]; rfl

theorem sum_terms {o : List String} (nd : o.Nodup) (f name t : String) :
    ((o.map fun u => Micro.term f u).map (dTerm name t)).sum = if f = name ∧ t ∈ o then 1 else 0 := by
  induction o with
  | nil => simp
  | cons u o ih =>
    obtain ⟨h1, h2⟩ := List.nodup_cons.1 nd
    rw [List.map_cons, List.map_cons, List.sum_cons, ih h2]
    simp only [dTerm]
    by_cases hf : f = name
    · by_cases hu : u = t
      · subst hu; simp [hf, h1]
      · have hu' : ¬ t = u := fun e => hu e.symm
        simp [hf, hu, hu']
    · simp [hf]

theorem saveProg_sums (d : String) (f : Field) (o₁ o₂ : List String) (h₂ : o₂.Perm f.tf.keys) (wf : f.tf.WF) (name t : String) :
    ((saveProg d f o₁ o₂).map (dSize name)).sum = (if f.name = name then 1 else 0) ∧
    ((saveProg d f o₁ o₂).map (dLen name)).sum = (if f.name = name then f.length else 0) ∧
    ((saveProg d f o₁ o₂).map (dTerm name t)).sum = (if f.name = name ∧ t ∈ f.tf.keys then 1 else 0) := by
  have nd : o₂.Nodup := h₂.nodup_iff.2 wf
  simp only [saveProg, updateIndexProg, List.cons_append, List.map_cons, List.map_append, List.sum_cons, List.sum_append, List.map_nil,
    List.sum_nil]
  refine ⟨?_, ?_, ?_⟩
  · rw [sum_zero, sum_zero]
    · simp [dSize]
    · simp [dSize]
    · simp [dSize]
  · rw [sum_zero, sum_zero]
    · simp [dLen]
    · simp [dLen]
    · simp [dLen]
  · rw [sum_zero, sum_terms nd]
    · simp [dTerm, h₂.mem_iff]
    · simp [dTerm]

theorem updateIndexProg_sums (d : String) (f : Field) (o : List String) (name t : String) :
    ((updateIndexProg d f o).map (dSize name)).sum = 0 ∧ ((updateIndexProg d f o).map (dLen name)).sum = 0 ∧
    ((updateIndexProg d f o).map (dTerm name t)).sum = 0 := by
  simp only [updateIndexProg, List.map_cons, List.sum_cons]
  refine ⟨?_, ?_, ?_⟩ <;> (rw [sum_zero] <;> simp [dSize, dLen, dTerm])

theorem post_mem_updateIndexProg (d : String) (f : Field) (o : List String) (h : o.Perm f.tf.keys) (name t e : String) :
    Micro.post name t e ∈ updateIndexProg d f o ↔ d = e ∧ f.name = name ∧ t ∈ f.tf.keys := by
  simp only [updateIndexProg, List.mem_cons, List.mem_map, reduceCtorEq, false_or, Micro.post.injEq, ← h.mem_iff]
  constructor
  · rintro ⟨u, hu, rfl, rfl, rfl⟩; exact ⟨rfl, rfl, hu⟩
  · rintro ⟨rfl, rfl, hu⟩; exact ⟨t, hu, rfl, rfl, rfl⟩

theorem post_mem_saveProg (d : String) (f : Field) (o₁ o₂ : List String) (h : o₁.Perm f.tf.keys) (name t e : String) :
    Micro.post name t e ∈ saveProg d f o₁ o₂ ↔ d = e ∧ f.name = name ∧ t ∈ f.tf.keys := by
  rw [← post_mem_updateIndexProg d f o₁ h]
  simp [saveProg]

theorem docs_updateIndexProg (d : String) (f : Field) (o : List String) : (updateIndexProg d f o).filterMap dDoc = [] := by
  simp [updateIndexProg, List.filterMap_eq_nil_iff, dDoc]

theorem docs_saveProg (d : String) (f : Field) (o₁ o₂ : List String) : (saveProg d f o₁ o₂).filterMap dDoc = [(d, f)] := by
  have : (o₂.map fun t => Micro.term f.name t).filterMap dDoc = [] := by simp [List.filterMap_eq_nil_iff, dDoc]
  have h2 := docs_updateIndexProg d f o₁
  simp only [saveProg, List.cons_append, List.filterMap_cons, List.filterMap_append, dDoc, this, h2]
  rfl

/-! ### histories -/

/-- the saves in a history of calls. -/
def savesOf (h : List StoreOp) : List (String × Field) :=
  h.filterMap fun op => match op with | .save d f => some (d, f) | .updateIndex _ _ => none

/-- the saves in a history of the documents part. -/
def docSaves (as : List DcState.Act) : List (String × Field) :=
  as.filterMap fun a => match a with | .save d f => some (d, f) | _ => none

theorem calls_snoc (as : List Act) (a : Act) : calls (as ++ [a]) = calls as ++ calls [a] := by simp [calls, List.filterMap_append]

theorem docSaves_append (as bs : List DcState.Act) : docSaves (as ++ bs) = docSaves as ++ docSaves bs := by simp [docSaves, List.filterMap_append]

theorem saveCount_snoc (h : List StoreOp) (op : StoreOp) (name : String) :
    saveCount (h ++ [op]) name = saveCount h name + if op.isSave = true ∧ op.field.name = name then 1 else 0 := by
  unfold saveCount
  rw [List.filter_append, List.length_append]
  by_cases hc : op.isSave = true ∧ op.field.name = name <;> simp [hc]

theorem saveLengthSum_snoc (h : List StoreOp) (op : StoreOp) (name : String) :
    saveLengthSum (h ++ [op]) name = saveLengthSum h name + if op.isSave = true ∧ op.field.name = name then op.field.length else 0 := by
  unfold saveLengthSum
  rw [List.filter_append, List.map_append, List.sum_append]
  by_cases hc : op.isSave = true ∧ op.field.name = name <;> simp [hc]

theorem termCount_snoc (h : List StoreOp) (op : StoreOp) (name t : String) :
    termCount (h ++ [op]) name t = termCount h name t + if op.isSave = true ∧ op.field.name = name ∧ t ∈ op.field.tf.keys then 1 else 0 := by
  unfold termCount
  rw [List.filter_append, List.length_append]
  by_cases hc : op.isSave = true ∧ op.field.name = name ∧ t ∈ op.field.tf.keys <;> simp [hc]

theorem posted_snoc (h : List StoreOp) (op : StoreOp) (name t d : String) :
    Posted (h ++ [op]) name t d ↔ Posted h name t d ∨ (op.doc = d ∧ op.field.name = name ∧ t ∈ op.field.tf.keys) := by
  unfold Posted
  simp [or_and_right, exists_or]

/-! ### the invariant of a store that was opened on an empty folder -/

/-- a store that is up: each quantity, together with what the update in progress still adds, is what the history says. -/
structure Live (h : List StoreOp) (n : Int) (tr : List DcState.Act) (s : Disk) : Prop where
  up   : s.dc.up = true ∧ s.ct.up = true ∧ s.ix.proc = .up
  size : ∀ name, s.ct.getFieldSize name + (s.prog.map (dSize name)).sum = saveCount h name
  len  : ∀ name, s.ct.getFieldLength name + (s.prog.map (dLen name)).sum = saveLengthSum h name
  nft  : ∀ name t, s.ct.getNumberFieldTerm name t + (s.prog.map (dTerm name t)).sum = termCount h name t
  post : ∀ name t d, has2 s.ix.mem name t d ∨ Micro.post name t d ∈ s.prog ↔ Posted h name t d
  docs : docSaves tr ++ s.prog.filterMap dDoc = savesOf h
  tr   : ∃ tr', tr = .open_ n :: tr' ∧ DcState.Act.crash ∉ tr'

/-- still being opened: nothing has been called yet. -/
structure Opening (h : List StoreOp) (tr : List DcState.Act) (s : Disk) : Prop where
  h    : h = []
  tr   : tr = []
  ct   : s.ct = {}
  dc   : s.dc = {}
  prog : s.prog = []
  hist : s.ix.hist = []

/-- every state of a first process: being opened, up, or gone. -/
inductive First (as : List Act) (tr : List DcState.Act) (s : Disk) : Prop where
  | opening (h : Opening (calls as) tr s) (hn : ∀ n, Act.openRest n ∉ as)
  | live (n : Int) (hn : Act.openRest n ∈ as) (h : Live (calls as) n tr s)
  | gone (h1 : s.dc.up = false) (h2 : s.ix.proc = .down) (h3 : s.prog = [])

theorem stop_gone (s : Disk) {ix : IxState} (h : ix.proc = .down) :
    (s.stop ix).dc.up = false ∧ (s.stop ix).ix.proc = .down ∧ (s.stop ix).prog = [] := by
  refine ⟨?_, h, rfl⟩
  unfold stop
  simp only [DcState.exec]
  cases hu : s.dc.up <;> simp [hu]

theorem live_client {as : List Act} {n : Int} {tr : List DcState.Act} {s s' : Disk} (h : Live (calls as) n tr s) (he : s.exec .client = some s') :
    Live (calls (as ++ [.client])) n (tr ++ dcActs s .client) s' := by
  have hc : calls (as ++ [.client]) = calls as := by rw [calls_snoc]; simp [calls]
  rw [hc]
  obtain ⟨tr', e1, e2⟩ := h.tr
  have nocrash : DcState.Act.crash ∉ dcActs s .client := by
    simp only [dcActs]; split <;> simp
  have htr : ∃ tr'', tr ++ dcActs s .client = .open_ n :: tr'' ∧ DcState.Act.crash ∉ tr'' :=
    ⟨tr' ++ dcActs s .client, by rw [e1]; rfl, by simp [e2, nocrash]⟩
  have key := h.size
  have keyl := h.len
  have keyn := h.nft
  have keyp := h.post
  have keyd := h.docs
  cases exec_eff he with
  | @size f len rest ct hp hb hx =>
    have hd : dcActs s .client = [] := by simp [dcActs, hp]
    rw [hp] at key keyl keyn keyp keyd
    simp only [CtState.exec] at hx
    split at hx
    · cases hx
      refine ⟨h.up, fun name => ?_, fun name => ?_, fun name t => ?_, fun name t d => ?_, ?_, htr⟩
      · have := key name
        simp only [CtState.getFieldSize, List.map_cons, List.sum_cons, dSize] at this ⊢
        simp only [getD_set]
        split at this <;> rename_i e <;> simp_all <;> omega
      · have := keyl name
        simp only [CtState.getFieldLength, List.map_cons, List.sum_cons, dLen] at this ⊢
        simp only [getD_set]
        split at this <;> rename_i e <;> simp_all <;> omega
      · have := keyn name t
        simpa [dTerm, CtState.getNumberFieldTerm] using this
      · have := keyp name t d
        simpa using this
      · rw [hd, List.append_nil, ← keyd, List.filterMap_cons_none (by rfl)]
    · cases hx
  | @touch f rest ix hp hb hx =>
    have hd : dcActs s .client = [] := by simp [dcActs, hp]
    rw [hp] at key keyl keyn keyp keyd
    simp only [IxState.exec] at hx
    split at hx
    · cases hx
      refine ⟨h.up, fun name => ?_, fun name => ?_, fun name t => ?_, fun name t d => ?_, ?_, htr⟩
      · simpa [dSize] using key name
      · simpa [dLen] using keyl name
      · simpa [dTerm] using keyn name t
      · have := keyp name t d
        rw [← this]
        simp only [List.mem_cons, reduceCtorEq, false_or]
        cases hg : s.ix.mem.get? f with
        | some p => rfl
        | none =>
          simp only [has2_set]
          unfold has2
          by_cases e : f = name
          · subst e; simp [hg, hasPosting]
          · simp [e]
      · rw [hd, List.append_nil, ← keyd, List.filterMap_cons_none (by rfl)]
    · cases hx
  | @post f t d rest ix hp hb hx =>
    have hd : dcActs s .client = [] := by simp [dcActs, hp]
    rw [hp] at key keyl keyn keyp keyd
    simp only [IxState.exec] at hx
    split at hx
    · cases hx
      refine ⟨h.up, fun name => ?_, fun name => ?_, fun name t => ?_, fun name t d => ?_, ?_, htr⟩
      · simpa [dSize] using key name
      · simpa [dLen] using keyl name
      · simpa [dTerm] using keyn name t
      · rw [← keyp name t d]
        simp only [has2_post, List.mem_cons, Micro.post.injEq]
        constructor
        · rintro ((⟨rfl, rfl, rfl⟩ | h) | h)
          · exact .inr (.inl ⟨rfl, rfl, rfl⟩)
          · exact .inl h
          · exact .inr (.inr h)
        · rintro (h | ⟨rfl, rfl, rfl⟩ | h)
          · exact .inl (.inr h)
          · exact .inl (.inl ⟨rfl, rfl, rfl⟩)
          · exact .inr h
      · rw [hd, List.append_nil, ← keyd, List.filterMap_cons_none (by rfl)]
    · cases hx
  | @term f t rest ct hp hb hx =>
    have hd : dcActs s .client = [] := by simp [dcActs, hp]
    rw [hp] at key keyl keyn keyp keyd
    simp only [CtState.exec] at hx
    split at hx
    · cases hx
      refine ⟨h.up, fun name => ?_, fun name => ?_, fun name u => ?_, fun name t d => ?_, ?_, htr⟩
      · simpa [dSize, CtState.getFieldSize] using key name
      · simpa [dLen, CtState.getFieldLength] using keyl name
      · have := keyn name u
        simp only [CtState.getNumberFieldTerm, List.map_cons, List.sum_cons, dTerm] at this ⊢
        simp only [get?_set]
        by_cases e : f = name
        · subst e
          simp only [if_true, Option.getD_some, getD_set]
          by_cases e2 : t = u
          · subst e2; simp at this ⊢; omega
          · simp [e2] at this ⊢; omega
        · simp [e] at this ⊢; omega
      · simpa using keyp name t d
      · rw [hd, List.append_nil, ← keyd, List.filterMap_cons_none (by rfl)]
    · cases hx
  | @doc d f rest dc hp hb hx =>
    have hd : dcActs s .client = [.save d f] := by simp [dcActs, hp]
    rw [hp] at key keyl keyn keyp keyd
    refine ⟨⟨dc_save_up hx, h.up.2⟩, fun name => ?_, fun name => ?_, fun name t => ?_, fun name t d => ?_, ?_, htr⟩
    · simpa [dSize] using key name
    · simpa [dLen] using keyl name
    · simpa [dTerm] using keyn name t
    · simpa using keyp name t d
    · rw [hd, docSaves_append]; simpa [dDoc, docSaves] using keyd

theorem live_same {as : List Act} {n : Int} {tr : List DcState.Act} {s s' : Disk} {a : Act} (h : Live (calls as) n tr s)
    (hc : calls [a] = []) (hu : s'.dc.up = true ∧ s'.ct.up = true ∧ s'.ix.proc = .up)
    (h1 : s'.ct.size = s.ct.size ∧ s'.ct.length = s.ct.length ∧ s'.ct.nft = s.ct.nft) (h2 : s'.ix.mem = s.ix.mem) (h3 : s'.prog = s.prog)
    (h4 : docSaves (dcActs s a) = []) (h5 : DcState.Act.crash ∉ dcActs s a) : Live (calls (as ++ [a])) n (tr ++ dcActs s a) s' := by
  obtain ⟨tr', e1, e2⟩ := h.tr
  rw [calls_snoc, hc, List.append_nil]
  refine ⟨hu, fun name => ?_, fun name => ?_, fun name t => ?_, fun name t d => ?_, ?_, tr' ++ dcActs s a, by rw [e1]; rfl, by simp [e2, h5]⟩
  · rw [← h.size name, h3]; simp only [CtState.getFieldSize, h1.1]
  · rw [← h.len name, h3]; simp only [CtState.getFieldLength, h1.2.1]
  · rw [← h.nft name t, h3]; simp only [CtState.getNumberFieldTerm, h1.2.2]
  · rw [← h.post name t d, h2, h3]
  · rw [docSaves_append, h4, List.append_nil, h3]; exact h.docs

theorem idle_spec {s : Disk} (h : s.idle = true) : s.dc.up = true ∧ s.ct.sendM = none ∧ s.ct.sendN = none ∧ s.dc.send = none ∧ s.prog = [] := by
  unfold idle blocked at h
  simp only [Bool.and_eq_true, Bool.not_eq_true', Bool.or_eq_false_iff, Option.isSome_eq_false_iff, Option.isNone_iff_eq_none,
    List.isEmpty_iff] at h
  exact ⟨h.1.1, h.1.2.1.1, h.1.2.1.2, h.1.2.2, h.2⟩

theorem first_exec {as : List Act} {tr : List DcState.Act} {s s' : Disk} {a : Act} (hi : IxState.Inv s.ix) (h : First as tr s)
    (ha : a ≠ .open_) (gv : GoValues (calls (as ++ [a]))) (he : s.exec a = some s') : First (as ++ [a]) (tr ++ dcActs s a) s' := by
  cases h with
  | gone h1 h2 h3 =>
    exfalso
    cases exec_eff he with
    | save hi => rw [(idle_spec hi).1] at h1; cases h1
    | updateIndex hi => rw [(idle_spec hi).1] at h1; cases h1
    | size hp => rw [h3] at hp; cases hp
    | touch hp => rw [h3] at hp; cases hp
    | post hp => rw [h3] at hp; cases hp
    | term hp => rw [h3] at hp; cases hp
    | doc hp => rw [h3] at hp; cases hp
    | read hi => rw [(idle_spec hi).1] at h1; cases h1
    | ix hb hu => rw [h1, h2] at hu; rcases hu with hu | hu <;> cases hu
    | ixDown hb hu => rw [h1, h2] at hu; rcases hu with hu | hu <;> cases hu
    | ct hb hu => rw [h1] at hu; cases hu
    | dc hb hu => rw [h1] at hu; cases hu
    | crash hx => simp [IxState.exec, h2] at hx
    | open_ => exact ha rfl
    | openRest hp => rw [h2] at hp; cases hp
  | opening h hn =>
    have hdc : s.dc.up = false := by rw [h.dc]
    have keep : ∀ {b : Act}, (∀ n, b ≠ .openRest n) → ∀ n, Act.openRest n ∉ as ++ [b] := by
      intro b hb n hm
      rcases List.mem_append.1 hm with hm | hm
      · exact hn n hm
      · exact hb n (List.mem_singleton.1 hm).symm
    cases exec_eff he with
    | save hi => rw [(idle_spec hi).1] at hdc; cases hdc
    | updateIndex hi => rw [(idle_spec hi).1] at hdc; cases hdc
    | size hp => rw [h.prog] at hp; cases hp
    | touch hp => rw [h.prog] at hp; cases hp
    | post hp => rw [h.prog] at hp; cases hp
    | term hp => rw [h.prog] at hp; cases hp
    | doc hp => rw [h.prog] at hp; cases hp
    | read hi => rw [(idle_spec hi).1] at hdc; cases hdc
    | @ix b ix hb hu hx hp =>
      refine .opening ⟨by rw [calls_snoc, h.h]; rfl, ?_, h.ct, h.dc, h.prog, ix_hist hb hx h.hist⟩ (keep fun n e => by cases e)
      simp [dcActs, hx, hp, h.tr]
    | ixDown hb hu hx hp => obtain ⟨g1, g2, g3⟩ := stop_gone s hp; exact .gone g1 g2 g3
    | ct hb hu => rw [hdc] at hu; cases hu
    | dc hb hu => rw [hdc] at hu; cases hu
    | @crash ix hx =>
      have : ix.proc = .down := by
        simp only [IxState.exec] at hx; split at hx <;> cases hx; rfl
      obtain ⟨g1, g2, g3⟩ := stop_gone s this; exact .gone g1 g2 g3
    | open_ => exact absurd rfl ha
    | @openRest n ct dc hp hu h1 h2 =>
      rw [h.ct] at h1; rw [h.dc] at h2
      have h1 : ({ up := true } : CtState) = ct := by cases h1; rfl
      have h2 : ({ up := true, cache := LRU.new n } : DcState) = dc := by cases h2; rfl
      subst h1; subst h2
      have hc : calls (as ++ [.openRest n]) = [] := by rw [calls_snoc, h.h]; rfl
      refine .live n (by simp) ?_
      rw [hc, h.tr]
      have hmem : ∀ f t d, ¬ has2 s.ix.mem f t d := by
        intro f t d hm
        have : (f, t, d) ∈ s.ix.hist := by
          rcases (hi.up hp f t d).1 hm with h | h | h
          · exact hi.histS f t d h
          · exact hi.histB f t d h
          · exact hi.histC _ h
        rw [h.hist] at this; cases this
      refine ⟨⟨rfl, rfl, hp⟩, fun name => ?_, fun name => ?_, fun name t => ?_, fun name t d => ?_, ?_, [], ?_, by simp⟩
      · simp [h.prog, CtState.getFieldSize, saveCount, GoMap.getD]
      · simp [h.prog, CtState.getFieldLength, saveLengthSum, GoMap.getD]
      · simp [h.prog, CtState.getNumberFieldTerm, termCount, GoMap.getD]
      · simp only [h.prog, Posted]
        simp [hmem]
      · simp [h.prog, dcActs, docSaves, savesOf]
      · simp [dcActs]
  | live n hn h =>
    have hn' : ∀ b : Act, Act.openRest n ∈ as ++ [b] := fun b => List.mem_append_left _ hn
    obtain ⟨u1, u2, u3⟩ := h.up
    obtain ⟨tr', e1, e2⟩ := h.tr
    cases exec_eff he with
    | @save d f o₁ o₂ hi h1 h2 =>
      refine .live n (hn' _) ?_
      have hp := (idle_spec hi).2.2.2.2
      have hc : calls (as ++ [.save d f o₁ o₂]) = calls as ++ [.save d f] := by rw [calls_snoc]; rfl
      have wf : f.tf.WF := gv (.save d f) (by rw [hc]; simp)
      rw [hc]
      have hd : dcActs s (.save d f o₁ o₂) = [] := rfl
      rw [hd, List.append_nil]
      refine ⟨h.up, fun name => ?_, fun name => ?_, fun name t => ?_, fun name t e => ?_, ?_, tr', e1, e2⟩
      · have := h.size name
        rw [hp] at this
        rw [(saveProg_sums d f o₁ o₂ h2 wf name "").1, saveCount_snoc]
        simp only [List.map_nil, List.sum_nil, Int.add_zero] at this
        simp only [this, StoreOp.isSave, StoreOp.field, true_and]
        push_cast; split <;> rfl
      · have := h.len name
        rw [hp] at this
        rw [(saveProg_sums d f o₁ o₂ h2 wf name "").2.1, saveLengthSum_snoc]
        simp only [List.map_nil, List.sum_nil, Int.add_zero] at this
        simp only [this, StoreOp.isSave, StoreOp.field, true_and]
      · have := h.nft name t
        rw [hp] at this
        rw [(saveProg_sums d f o₁ o₂ h2 wf name t).2.2, termCount_snoc]
        simp only [List.map_nil, List.sum_nil, Int.add_zero] at this
        simp only [this, StoreOp.isSave, StoreOp.field, true_and]
        push_cast; split <;> rfl
      · have := h.post name t e
        rw [hp] at this
        simp only [List.not_mem_nil, or_false] at this
        rw [post_mem_saveProg d f o₁ o₂ h1, posted_snoc, this]; rfl
      · have := h.docs
        rw [hp] at this
        simp only [List.filterMap_nil, List.append_nil] at this
        rw [docs_saveProg, this]; simp [savesOf]
    | @updateIndex d f o hi h1 =>
      refine .live n (hn' _) ?_
      have hp := (idle_spec hi).2.2.2.2
      have hc : calls (as ++ [.updateIndex d f o]) = calls as ++ [.updateIndex d f] := by rw [calls_snoc]; rfl
      rw [hc]
      have hd : dcActs s (.updateIndex d f o) = [] := rfl
      rw [hd, List.append_nil]
      refine ⟨h.up, fun name => ?_, fun name => ?_, fun name t => ?_, fun name t e => ?_, ?_, tr', e1, e2⟩
      · have := h.size name
        rw [hp] at this
        rw [(updateIndexProg_sums d f o name "").1, saveCount_snoc]
        simpa [StoreOp.isSave] using this
      · have := h.len name
        rw [hp] at this
        rw [(updateIndexProg_sums d f o name "").2.1, saveLengthSum_snoc]
        simpa [StoreOp.isSave] using this
      · have := h.nft name t
        rw [hp] at this
        rw [(updateIndexProg_sums d f o name t).2.2, termCount_snoc]
        simpa [StoreOp.isSave] using this
      · have := h.post name t e
        rw [hp] at this
        simp only [List.not_mem_nil, or_false] at this
        rw [post_mem_updateIndexProg d f o h1, posted_snoc, this]; rfl
      · have := h.docs
        rw [hp] at this
        simp only [List.filterMap_nil, List.append_nil] at this
        rw [docs_updateIndexProg, List.append_nil, this]; simp [savesOf]
    | size => exact .live n (hn' _) (live_client h he)
    | touch => exact .live n (hn' _) (live_client h he)
    | post => exact .live n (hn' _) (live_client h he)
    | term => exact .live n (hn' _) (live_client h he)
    | doc => exact .live n (hn' _) (live_client h he)
    | read hi hx =>
      exact .live n (hn' _) (live_same h rfl ⟨(dc_read_up hx).1.trans u1, u2, u3⟩ ⟨rfl, rfl, rfl⟩ rfl rfl rfl (by simp [dcActs]))
    | @ix b ix hb hu hx hp =>
      obtain ⟨g1, g2⟩ := (ix_background u3 hb hx).resolve_left hp
      refine .live n (hn' _) (live_same h rfl ⟨u1, u2, g1⟩ ⟨rfl, rfl, rfl⟩ g2 rfl ?_ ?_) <;> simp [dcActs, hx, hp, docSaves]
    | ixDown hb hu hx hp => obtain ⟨g1, g2, g3⟩ := stop_gone s hp; exact .gone g1 g2 g3
    | ct hb hu hx =>
      obtain ⟨g1, g2, g3, g4⟩ := ct_background hb hx
      exact .live n (hn' _) (live_same h rfl ⟨u1, g1.trans u2, u3⟩ ⟨g2, g3, g4⟩ rfl rfl rfl (by simp [dcActs]))
    | @dc b dc hb hu hx =>
      have hbs : docSaves (dcActs s (.dc b)) = [] ∧ DcState.Act.crash ∉ dcActs s (.dc b) := by
        cases b <;> first | (simp [dcActs, docSaves]; done) | (cases hb)
      exact .live n (hn' _) (live_same h rfl ⟨(dc_background hb hx).trans u1, u2, u3⟩ ⟨rfl, rfl, rfl⟩ rfl rfl hbs.1 hbs.2)
    | @crash ix hx =>
      have : ix.proc = .down := by
        simp only [IxState.exec] at hx; split at hx <;> cases hx; rfl
      obtain ⟨g1, g2, g3⟩ := stop_gone s this; exact .gone g1 g2 g3
    | open_ => exact absurd rfl ha
    | openRest hp hu => rw [u1] at hu; cases hu

/-- every state of a first process. -/
theorem first_run {as : List Act} {s : Disk} (h : run {} (.open_ :: as) = some s) (ho : Act.open_ ∉ as) (gv : GoValues (calls as)) :
    First as (trace dcActs {} (.open_ :: as)) s := by
  obtain ⟨t, h1, h2⟩ := run_cons.1 h
  have ht : t = ⟨{ proc := .opening, merger := .atField [] [] }, {}, {}, []⟩ := by cases h1; rfl
  have h0 : First [] (trace dcActs {} [.open_]) t := by
    refine .opening ⟨rfl, rfl, ?_, ?_, ?_, ?_⟩ (by simp) <;> (rw [ht])
  have main : ∀ (as : List Act) (s : Disk), t.run as = some s → Act.open_ ∉ as → GoValues (calls as) →
      First as (trace dcActs {} (.open_ :: as)) s := by
    intro as s hr
    refine run_induction (P := fun as s => Act.open_ ∉ as → GoValues (calls as) → First as (trace dcActs {} (.open_ :: as)) s)
      (fun _ _ => h0) ?_ hr
    intro as s a s' hr ih he ho gv
    have hr0 : run {} (.open_ :: as) = some s := run_cons.2 ⟨t, h1, hr⟩
    have i := ih (fun hm => ho (List.mem_append_left _ hm)) (fun op hop => gv op (by rw [calls_snoc]; exact List.mem_append_left _ hop))
    have := first_exec (IxState.run_inv IxState.init_inv (run_parts hr0).1) i (fun e => ho (by simp [e])) gv he
    rw [← List.cons_append, trace_snoc dcActs a hr0]
    exact this
  exact main as s h2 ho gv

end Goir.Disk
