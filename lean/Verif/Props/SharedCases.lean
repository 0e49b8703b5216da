import Verif.Props.SharedAnswers
import Verif.Props.OpeningKillCases
/-!
# C131: cases

Two processes have the folder of C129 open. Neither writes anything, and neither is killed.
-/
namespace Goir
open GoMap Spec Spec.Opening Opening

namespace Shared
open BDisk

/-- `k` steps of the merge of process `i`. -/
def merges (i k : Nat) : List (Nat × CDisk.Act) := List.replicate k (i, .ix .merge)

theorem merges_read (i k : Nat) : ∀ x ∈ merges i k, OnlyReads x.2 := by
  intro x hx
  obtain rfl := List.eq_of_mem_replicate hx
  exact trivial

/-- the second process reads the index while the first one stands between its two renames. -/
def overlapping : List (Nat × CDisk.Act) := (0, .open_) :: merges 0 108 ++ (1, .open_) :: merges 1 1 ++ merges 0 5 ++ [(0, .openRest 5 [])] ++ merges 1 56 ++ [(1, .openRest 5 [])]

set_option maxRecDepth 100000 in
/-- REFUTATION: two processes open one folder at the same time. Both come up without an error, nothing is written and nothing is killed; but the second finds no document of the field, although the folder named one, and then no file that reads
as an index names the document any more. -/
theorem c131_two_readers_lose_field_refuted : ∃ (s : Shared) (p q : BDisk), (start (shelf aFile) 2).run packer ["data"] overlapping = some s ∧ s.procs = [p, q] ∧ p.d.up = true ∧ q.d.up = true ∧
    Says (shelf aFile) ["data"] "title" "x" "a" ∧ GoSet.contains (p.d.getDocuments "title" "x").1 "a" = true ∧ GoSet.contains (q.d.getDocuments "title" "x").1 "a" = false ∧
    ∀ r c m, s.fs.get? r = some (.file c) → HoldsIndex c m → hasPosting m "x" "a" = false := by
  obtain ⟨s, h1, h2⟩ : ∃ s, (start (shelf aFile) 2).run packer ["data"] overlapping = some s ∧
      (match s.procs with
        | [p, q] => p.d.up && q.d.up && GoSet.contains (p.d.getDocuments "title" "x").1 "a" && !GoSet.contains (q.d.getDocuments "title" "x").1 "a" &&
          s.fs.all fun e => match e.2 with | .file c => (match decodeIndex c with | some m => !hasPosting m "x" "a" | none => true) | .dir => true
        | _ => false) = true := exists_of (by decide +kernel)
  split at h2
  · rename_i p q h3
    simp only [Bool.and_eq_true, Bool.not_eq_true'] at h2
    obtain ⟨⟨⟨⟨h4, h5⟩, h6⟩, h7⟩, h8⟩ := h2
    refine ⟨s, p, q, h1, h3, h4, h5, shelf_listed _, h6, h7, fun r c m hp hh => ?_⟩
    have := List.all_eq_true.1 h8 _ (GoMap.mem_of_get? hp)
    simp only [decodeIndex_iff.2 hh, Bool.not_eq_true'] at this
    exact this
  · cases h2

/-- the second process has listed the fragments when the first one merges and removes them. -/
def raced : List (Nat × CDisk.Act) := (0, .open_) :: merges 0 1 ++ (1, .open_) :: merges 1 1 ++ merges 0 162 ++ [(0, .openRest 5 [])]

set_option maxRecDepth 100000 in
/-- REFUTATION: a process that would open a folder alone does not open it while another one opens it: the fragment that it has listed is gone when it comes to read it, LoadIndexOnHD returns the error, and NewDiskStore fails. The other one has come up. -/
theorem c131_opening_fails_refuted : (∃ s : BDisk, (Opening.start (metricsBytes "title" 7 9)).kill.run packer ["data"] (opening 163 5 []) = some s ∧ s.d.up = true) ∧
    ∃ (s s' : Shared) (p q q' : BDisk), (start (copied (metricsBytes "title" 7 9)) 2).run packer ["data"] raced = some s ∧ s.procs = [p, q] ∧ p.d.up = true ∧ q.d.ix.proc = .opening ∧
      s.exec packer ["data"] (1, .ix .merge) = some s' ∧ s'.procs = [p, q'] ∧ q'.d.ix.proc = .down := by
  constructor
  · obtain ⟨s, h1, h2⟩ : ∃ s, (Opening.start (metricsBytes "title" 7 9)).kill.run packer ["data"] (opening 163 5 []) = some s ∧ s.d.up = true := exists_of (by decide +kernel)
    exact ⟨s, h1, h2⟩
  · obtain ⟨s, h1, h2⟩ : ∃ s, (start (copied (metricsBytes "title" 7 9)) 2).run packer ["data"] raced = some s ∧
        (match s.procs with
          | [p, q] => p.d.up && decide (q.d.ix.proc = .opening) && (match (s.sees q).exec packer ["data"] (.ix .merge) with | some q' => decide (q'.d.ix.proc = .down) | none => false)
          | _ => false) = true := exists_of (by decide +kernel)
    split at h2
    · rename_i p q h3
      simp only [Bool.and_eq_true, decide_eq_true_eq] at h2
      obtain ⟨⟨h4, h5⟩, h6⟩ := h2
      split at h6
      · rename_i q' h7
        refine ⟨s, ⟨q'.fs, [p, q']⟩, p, q, q', h1, h3, h4, h5, ?_, rfl, of_decide_eq_true h6⟩
        unfold Shared.exec
        simp only [h3, List.getElem?_cons_succ, List.getElem?_cons_zero, h7, Option.map_some]
        rfl
      · cases h6
    · cases h2

/-- the process is merging. -/
def isMerging (p : BDisk) : Bool := !(decide (p.d.ix.merger = .idle) || decide (p.d.ix.merger = .dead))

/-- one process, at most, is merging; the only index is that of the title, and it is there if no process is merging. -/
def okNow (s : Shared) : Bool := onlyTitle s.fs && match s.procs.filter isMerging with
  | [] => (match s.fs.get? ["data", "title", "index"] with | some (.file _) => true | _ => false)
  | [_] => true
  | _ => false

/-- … in every state of the run. -/
noncomputable def okFrom : Shared → List (Nat × CDisk.Act) → Bool
  | s, [] => okNow s
  | s, x :: xs => okNow s && match s.exec packer ["data"] x with
    | some s' => okFrom s' xs
    | none => true

theorem okFrom_prefix {xs0 xs1 : List (Nat × CDisk.Act)} : ∀ {s s0 : Shared}, okFrom s (xs0 ++ xs1) = true → s.run packer ["data"] xs0 = some s0 → okNow s0 = true := by
  induction xs0 with
  | nil =>
    intro s s0 h hr
    cases hr
    cases xs1 with
    | nil => exact h
    | cons x xs => exact (Bool.and_eq_true_iff.1 h).1
  | cons x xs0 ih =>
    intro s s0 h hr
    unfold Shared.run at hr
    rw [List.foldlM_cons] at hr
    obtain ⟨s1, h1, h2⟩ := Option.bind_eq_some_iff.1 hr
    have h := (Bool.and_eq_true_iff.1 h).2
    rw [h1] at h
    exact ih h h2

theorem merging_iff (p : BDisk) : isMerging p = true ↔ Merging p := by
  unfold Merging isMerging
  simp

theorem okNow_one {s : Shared} (h : okNow s = true) : OneMerges s := by
  intro i j p q hne hp hq hmp hmq
  unfold okNow at h
  have hl : 2 ≤ (s.procs.filter isMerging).length := by
    have key : ∀ (l : List BDisk) (i j : Nat) (p q : BDisk), i < j → l[i]? = some p → l[j]? = some q → Merging p → Merging q → 2 ≤ (l.filter isMerging).length := by
      intro l
      induction l with
      | nil => intro i j p q _ h; cases h
      | cons a l ih =>
        intro i j p q hij hp hq hmp hmq
        cases j with
        | zero => omega
        | succ j =>
          cases i with
          | zero =>
            obtain rfl : a = p := by simpa using hp
            rw [List.filter_cons_of_pos ((merging_iff a).2 hmp), List.length_cons]
            have : 0 < (l.filter isMerging).length := List.length_pos_of_mem (List.mem_filter.2 ⟨List.mem_of_getElem? (by simpa using hq), (merging_iff q).2 hmq⟩)
            omega
          | succ i =>
            have := ih i j p q (by omega) (by simpa using hp) (by simpa using hq) hmp hmq
            rw [List.filter_cons]
            split
            · rw [List.length_cons]; omega
            · exact this
    rcases Nat.lt_or_gt_of_ne hne with e | e
    · exact key _ i j p q e hp hq hmp hmq
    · exact key _ j i q p e hq hp hmq hmp
  have h := (Bool.and_eq_true_iff.1 h).2
  split at h
  · rename_i e; rw [e] at hl; simp at hl
  · rename_i e; rw [e] at hl; simp at hl
  · cases h

theorem okFrom_inTurn {t : Shared} {xs : List (Nat × CDisk.Act)} (h : okFrom t xs = true) : InTurn packer ["data"] t xs := fun xs0 xs1 s0 e hr => okNow_one (okFrom_prefix (xs0 := xs0) (xs1 := xs1) (e ▸ h) hr)

theorem okFrom_none_missing {t : Shared} {xs : List (Nat × CDisk.Act)} (h : okFrom t xs = true) : NoneMissing packer ["data"] t xs := by
  intro xs0 xs1 s0 e hr hq f hf
  have h0 := okFrom_prefix (xs0 := xs0) (xs1 := xs1) (e ▸ h) hr
  obtain ⟨ys0, ys1, s1, b, e1, hr1, hb⟩ := hf
  have h1 := okFrom_prefix (xs0 := ys0) (xs1 := ys1 ++ xs1) (by rw [← List.append_assoc, ← e1, ← e]; exact h) hr1
  obtain rfl := onlyTitle_eq (Bool.and_eq_true_iff.1 h1).1 hb
  have h0 := (Bool.and_eq_true_iff.1 h0).2
  have e0 : (s0.procs.filter isMerging) = [] := List.filter_eq_nil_iff.2 fun p hp hm => hq p hp ((merging_iff p).1 hm)
  rw [e0] at h0
  simp only at h0
  split at h0
  · rename_i b hb; exact ⟨b, hb⟩
  · cases h0

/-- the first process is killed in the middle of its new index file (at the 50th step), the second opens the folder; then the first is started again, and the second merges in the background when it has come up. -/
def inTurn : List (Nat × CDisk.Act) :=
  (0, .open_) :: merges 0 50 ++ [(0, .crash), (1, .open_)] ++ merges 1 113 ++ [(1, .openRest 5 []), (0, .open_)] ++ merges 0 113 ++ [(1, .ix .startMerge)] ++ merges 1 108 ++ [(0, .openRest 5 [])]

theorem inTurn_reads : ∀ x ∈ inTurn, OnlyReads x.2 := by
  intro x hx
  simp only [inTurn, List.mem_append, List.mem_cons, List.not_mem_nil, or_false] at hx
  rcases hx with (((((((rfl | hx) | rfl | rfl) | hx) | rfl | rfl) | hx) | rfl) | hx) | rfl <;> first | exact merges_read _ _ x hx | exact trivial | (intro p hp; cases hp)

set_option maxRecDepth 100000 in
theorem inTurn_ok : okFrom (start (shelf aFile) 2) inTurn = true := by decide +kernel

set_option maxRecDepth 100000 in
/-- the hypotheses of `c131_answers_partial` are met: both processes come up, and both find the document, although the index file is just not there. -/
theorem inTurn_answers : ∃ (s : Shared) (p q : BDisk), (start (shelf aFile) 2).run packer ["data"] inTurn = some s ∧ s.procs = [p, q] ∧ p.d.up = true ∧ q.d.up = true ∧ s.fs.get? ["data", "title", "index"] = none ∧
    GoSet.contains (p.d.getDocuments "title" "x").1 "a" = true ∧ GoSet.contains (q.d.getDocuments "title" "x").1 "a" = true := by
  obtain ⟨s, h1, h2⟩ : ∃ s, (start (shelf aFile) 2).run packer ["data"] inTurn = some s ∧
      (match s.procs with
        | [p, q] => p.d.up && q.d.up && (match s.fs.get? ["data", "title", "index"] with | none => true | some _ => false)
        | _ => false) = true := exists_of (by decide +kernel)
  split at h2
  · rename_i p q h3
    simp only [Bool.and_eq_true] at h2
    obtain ⟨⟨h4, h5⟩, h6⟩ := h2
    have hp : s.procs[0]? = some p := by rw [h3]; rfl
    have hq : s.procs[1]? = some q := by rw [h3]; rfl
    have key := fun {i : Nat} {r : BDisk} (hr : s.procs[i]? = some r) (hu : r.d.up = true) =>
      (c131_answers_partial (n := 1) (shelf_tree aFile) packer_written h1 inTurn_reads (okFrom_inTurn inTurn_ok) (okFrom_none_missing inTurn_ok) hr hu).1 "title" "x" "a"
    refine ⟨s, p, q, h1, h3, h4, h5, ?_, (key hp h4).2 (shelf_listed _), (key hq h5).2 (shelf_listed _)⟩
    split at h6
    · assumption
    · cases h6
  · cases h2

end Shared
end Goir
