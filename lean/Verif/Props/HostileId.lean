import Verif.Props.DiskBytesCases
/-!
# C42, C43 on the running store: document ids that are no plain file names

The whole Disk store with its bytes (Verif.Model.DiskBytes). The id of a document is what the body of POST /nir says (C110); nothing checks it.
-/
namespace Goir
open GoMap Spec Spec.Gz Gzip

namespace BDisk
open CDisk

/-- no process, or one that is about to load the index of its first field. -/
structure Stuck (f : String) (rest : List String) (fs : FS) (s : BDisk) : Prop where
  files : s.fs = fs
  up : s.d.up = false
  clients : s.d.clients = []
  save : s.saveM = none ∧ s.saveN = none ∧ s.saveD = none
  pcs : s.d.mx.pc = .idle ∧ s.d.nf.pc = .idle ∧ s.d.fl.pc = .idle
  writer : s.d.ix.writer = .idle
  proc : s.d.ix.proc = .down ∧ s.d.ix.merger = .idle ∨ s.d.ix.proc = .opening ∧ s.d.ix.merger = .atField (f :: rest) []

theorem kill_stuck {f : String} {rest : List String} (s : BDisk) : Stuck f rest s.fs s.kill :=
  ⟨rfl, rfl, rfl, ⟨rfl, rfl, rfl⟩, ⟨rfl, rfl, rfl⟩, rfl, .inl ⟨rfl, rfl⟩⟩

/-- a folder whose first field has an index file that cannot be decoded: nothing ever opens it. -/
theorem stuck_step {z : Bytes → Bytes} {root : Path} {f : String} {rest : List String} {fs : FS} (hl : fs.listDirectories root = f :: rest) (hm : fs.mkdirAll (tempDir root f) = some fs)
    (ht : loadTerms fs root f = none) {s s' : BDisk} (h : Stuck f rest fs s) {a : Act} (he : s.exec z root a = some s') : Stuck f rest fs s' := by
  obtain ⟨h1, h2, h3, ⟨v1, v2, v3⟩, ⟨p1, p2, p3⟩, h6, h7⟩ := h
  have hcur : ∀ i, s.d.curOf i = none := fun i => by simp [CDisk.curOf, h3]
  have hnu : s.d.ix.proc ≠ .up := by rcases h7 with ⟨e, -⟩ | ⟨e, -⟩ <;> rw [e] <;> intro e <;> cases e
  cases a with
  | client i k => simp [exec, hcur, CDisk.exec, h2] at he
  | recvM i => simp [exec, hcur, CDisk.exec] at he
  | recvN i => simp [exec, hcur, CDisk.exec] at he
  | recvD i => simp [exec, hcur, CDisk.exec] at he
  | tickM o => simp [exec, CDisk.exec, h2] at he
  | tickN o => simp [exec, CDisk.exec, h2] at he
  | tickD o => simp [exec, CDisk.exec, h2] at he
  | stepM => simp [exec, flush, v1, p1] at he
  | stepN => simp [exec, flush, v2, p2] at he
  | stepD => simp [exec, flush, v3, p3] at he
  | openRest n progs => simp [exec, hnu] at he
  | crash =>
    simp only [exec] at he
    split at he
    · cases he
    · cases he; exact h1 ▸ kill_stuck s
  | open_ =>
    simp only [exec] at he
    split at he
    · cases he
      exact ⟨h1, h2, h3, ⟨v1, v2, v3⟩, ⟨p1, p2, p3⟩, h6, .inr ⟨rfl, by simp only [h1, hl]⟩⟩
    · cases he
  | ix b =>
    simp only [exec] at he
    split at he
    · rename_i ho
      have ho : s.d.ix.proc = .opening := by simpa [h2] using ho
      have hmg : s.d.ix.merger = .atField (f :: rest) [] := by
        rcases h7 with ⟨e, -⟩ | ⟨-, e⟩
        · rw [ho] at e; cases e
        · exact e
      cases b with
      | create n => simp [ixExec, create, h6] at he
      | write => simp [ixExec, write, h6] at he
      | startMerge => simp [ixExec, hnu] at he
      | merge =>
        simp only [ixExec, mergeStep, hmg, h1, hm, ht] at he
        cases he
        exact kill_stuck { s with fs := fs }
      | recv => simp [ixExec, CDisk.exec, IxState.exec, ho] at he
      | tick o => simp [ixExec, CDisk.exec, IxState.exec, ho] at he
      | flushed => simp [ixExec, CDisk.exec, IxState.exec, h6] at he
      | touch _ => cases he
      | post _ _ _ => cases he
      | mkdir _ => cases he
      | crash => cases he
      | open_ => cases he
    · cases he

theorem stuck_run {z : Bytes → Bytes} {root : Path} {f : String} {rest : List String} {fs : FS} (hl : fs.listDirectories root = f :: rest) (hm : fs.mkdirAll (tempDir root f) = some fs)
    (ht : loadTerms fs root f = none) {as : List Act} : ∀ {s s' : BDisk}, Stuck f rest fs s → s.run z root as = some s' → Stuck f rest fs s' := by
  induction as with
  | nil => intro s s' h hr; cases hr; exact h
  | cons a as ih =>
    intro s s' h hr
    obtain ⟨t, h1, h2⟩ := brun_cons.1 hr
    exact ih (stuck_step hl hm ht h h1) h2

/-- a client saves one document whose id leads to the index file of field title; everything is written to disk. -/
def evilId : String := "../../title/index"

def evilSave : List Act :=
  openEmpty 5 [[.write (.save evilId ⟨"title", 1, [("x", 1)]⟩)]] ++
  (List.replicate 7 (.client 0 0) ++ [.recvM 0] ++ List.replicate 10 (.client 0 0) ++ [.recvN 0] ++ List.replicate 5 (.client 0 0) ++ [.recvD 0]) ++
  [.ix .recv, .ix (.tick [("title", [("x", [(evilId, true)])])]), .ix (.create "0b5bd0a9-8a8c-4f3e-9d0c-0123456789ab")] ++
  List.replicate 120 (.ix .write) ++ [.ix .flushed, .tickD [evilId]] ++ List.replicate 159 .stepD

set_option maxRecDepth 100000 in
/-- **C43 fails on the running server**: one document with the id `../../title/index` is saved, the call returns, the index and the documents are written. The store answers as it should. After the process has ended,
however it ends, no process ever opens the folder again, and nothing that they do changes it. -/
theorem c43_one_document_ruins_the_folder_refuted : ∃ s, run packer ["data"] { fs := folder } evilSave = some s ∧ s.d.up = true ∧ s.d.returned = [.save evilId ⟨"title", 1, [("x", 1)]⟩] ∧
    (s.d.getDocuments "title" "x").1 = [(evilId, true)] ∧ IxSettled s ∧ s.d.fl.buf = [] ∧ s.d.fl.pc = .idle ∧
    ∀ s₁ bs s', s.exec packer ["data"] .crash = some s₁ → s₁.run packer ["data"] bs = some s' → s'.d.up = false ∧ s'.fs = s.fs := by
  obtain ⟨s, h1, h2⟩ : ∃ s, run packer ["data"] { fs := folder } evilSave = some s ∧ decide (s.d.up = true ∧ s.d.ix.chan = [] ∧ s.d.ix.buf = [] ∧ s.d.ix.writer = .idle ∧
      s.saveI = none ∧ s.d.returned = [.save evilId ⟨"title", 1, [("x", 1)]⟩] ∧ (s.d.getDocuments "title" "x").1 = [(evilId, true)] ∧ s.d.fl.buf.length = 0 ∧ s.d.fl.pc = .idle ∧
      s.fs.listDirectories ["data"] = ["title"] ∧ s.fs.mkdirAll (tempDir ["data"] "title") = some s.fs ∧ (loadTerms s.fs ["data"] "title").isNone = true) = true := exists_of (by decide +kernel)
  obtain ⟨k1, k2, k3, k4, k5, k6, k7, k8, k9, k10, k11, k12⟩ := of_decide_eq_true h2
  refine ⟨s, h1, k1, k6, k7, ⟨k2, k3, k4, fun c e => by rw [k5] at e; cases e⟩, List.length_eq_zero_iff.1 k8, k9, fun s₁ bs s' hc hr => ?_⟩
  have e : s₁ = s.kill := by
    simp only [exec] at hc
    split at hc
    · cases hc
    · exact (Option.some.inj hc).symm
  subst e
  have := stuck_run k10 k11 (Option.isNone_iff_eq_none.1 k12) (kill_stuck s) hr
  exact ⟨this.up, this.files⟩

/-! ### a document that is deleted by saving another one -/

def oldSaves : List Act :=
  openEmpty 5 [[.write (.save "a_old" ⟨"title", 1, [("x", 1)]⟩), .write (.save "a" ⟨"title", 1, [("x", 1)]⟩)]] ++
  (List.replicate 7 (.client 0 0) ++ [.recvM 0] ++ List.replicate 10 (.client 0 0) ++ [.recvN 0] ++ List.replicate 5 (.client 0 0) ++ [.recvD 0]) ++
  [.tickD ["a_old"]] ++ List.replicate 159 .stepD

def oldAgain : List Act :=
  (List.replicate 7 (.client 0 0) ++ [.recvM 0] ++ List.replicate 9 (.client 0 0) ++ [.recvN 0] ++ List.replicate 5 (.client 0 0) ++ [.recvD 0]) ++ [.tickD ["a"]] ++ List.replicate 159 .stepD

/-- the process ends, the next one asks for `a_old`. -/
def askOld (k : Nat) : List Act := [.crash, .open_, .ix .merge, .openRest 5 [[.getFields ["a_old"] "title"]]] ++ List.replicate k (.client 0 0)

set_option maxRecDepth 100000 in
/-- **C42 fails on the running store**: document `a_old` is saved and written to disk (`s`): a restart finds it. Then document `a` is saved for the first time and written to disk (`t`): after a restart, GetFields
does not find `a_old` any more. -/
theorem c42_lost_document_refuted : ∃ s t, run packer ["data"] { fs := folder } oldSaves = some s ∧ s.d.fl.buf = [] ∧ s.d.fl.pc = .idle ∧
    (∃ s', s.run packer ["data"] (askOld 5) = some s' ∧ s'.d.answers = [(["a_old"], "title", [("a_old", ⟨"title", 1, [("x", 1)]⟩)])]) ∧
    s.run packer ["data"] oldAgain = some t ∧ t.d.fl.buf = [] ∧ t.d.fl.pc = .idle ∧ t.d.returned = s.d.returned ++ [StoreOp.save "a" ⟨"title", 1, [("x", 1)]⟩] ∧
    (∃ t', t.run packer ["data"] (askOld 4) = some t' ∧ t'.d.answers = [(["a_old"], "title", [])]) := by
  obtain ⟨s, h1, h2⟩ : ∃ s, run packer ["data"] { fs := folder } oldSaves = some s ∧ (decide (s.d.fl.buf.length = 0 ∧ s.d.fl.pc = .idle) &&
      (s.run packer ["data"] (askOld 5)).any (fun s' => decide (s'.d.answers = [(["a_old"], "title", [("a_old", ⟨"title", 1, [("x", 1)]⟩)])])) &&
      (s.run packer ["data"] oldAgain).any fun t => decide (t.d.fl.buf.length = 0 ∧ t.d.fl.pc = .idle ∧ t.d.returned = s.d.returned ++ [StoreOp.save "a" ⟨"title", 1, [("x", 1)]⟩]) &&
        (t.run packer ["data"] (askOld 4)).any fun t' => decide (t'.d.answers = [(["a_old"], "title", [])])) = true := exists_of (by decide +kernel)
  rw [Bool.and_eq_true, Bool.and_eq_true] at h2
  obtain ⟨⟨k1, k2⟩, k3⟩ := h2
  obtain ⟨s', h3, h4⟩ := exists_of k2
  obtain ⟨t, h5, h6⟩ := exists_of k3
  rw [Bool.and_eq_true] at h6
  obtain ⟨t', h7, h8⟩ := exists_of h6.2
  obtain ⟨j1, j2⟩ := of_decide_eq_true k1
  obtain ⟨j3, j4, j5⟩ := of_decide_eq_true h6.1
  exact ⟨s, t, h1, List.length_eq_zero_iff.1 j1, j2, ⟨s', h3, of_decide_eq_true h4⟩, h5, List.length_eq_zero_iff.1 j3, j4, j5, t', h7, of_decide_eq_true h8⟩

end BDisk
end Goir
