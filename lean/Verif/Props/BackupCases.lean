import Verif.Props.Backup
import Verif.Props.SharedCases
/-!
# C132: cases
-/
namespace Goir
open GoMap Spec Spec.Opening Spec.Backup Opening

namespace Shared
open BDisk

/-- one process opens the folder. -/
def opensIt (k : Nat) : List (Nat × CDisk.Act) := (0, .open_) :: merges 0 k

theorem opensIt_reads (k : Nat) : ∀ x ∈ opensIt k, OnlyReads x.2 := by
  intro x hx
  rcases List.mem_cons.1 hx with rfl | hx
  · exact trivial
  · exact merges_read _ _ x hx

/-- the folder of C128, with a fragment. -/
abbrev before : FS := copied (metricsBytes "title" 7 9)

/-- the fragment. -/
abbrev fragment : Path := ["data", "title", "temp", "mine"]

/-- the copy has everything but the fragment. -/
noncomputable def indexFirst : FS := GoMap.del before fragment

theorem before_says : Says before ["data"] "title" "y" "b" := by
  obtain ⟨k, s, h1, h2, -, h4, -⟩ := copied_opens
  exact (c128_documents (copied_tree _) packer_written h1 h2 "title" "y" "b").1 (by rw [h4]; rfl)

set_option maxRecDepth 100000 in
/-- REFUTATION: a backup that copies `index` before `temp` - as a copy in the order of the names does - loses a posting, although no process is killed, nothing is written to the store, and the process that uses the folder comes up and finds the
posting. A process that opens the backup comes up without an error, and does not find it. -/
theorem c132_index_first_refuted : ∃ (time : Path → Nat) (s : Shared) (p q : BDisk), (start before 1).run packer ["data"] (opensIt 163 ++ [(0, CDisk.Act.openRest 5 [])]) = some s ∧ s.procs = [p] ∧ p.d.up = true ∧
    GoSet.contains (p.d.getDocuments "title" "y").1 "b" = true ∧ (∀ r : Path, time r = if r = fragment then 163 else 0) ∧ Copied (Folder packer ["data"] (start before 1) (opensIt 163 ++ [(0, CDisk.Act.openRest 5 [])])) time indexFirst ∧
    ({ fs := indexFirst } : BDisk).kill.run packer ["data"] (opening 113 5 []) = some q ∧ q.d.up = true ∧ GoSet.contains (q.d.getDocuments "title" "y").1 "b" = false := by
  obtain ⟨s, h1, h2⟩ : ∃ s, (start before 1).run packer ["data"] (opensIt 163 ++ [(0, CDisk.Act.openRest 5 [])]) = some s ∧
      (match s.procs with
        | [p] => p.d.up && GoSet.contains (p.d.getDocuments "title" "y").1 "b"
        | _ => false) = true := exists_of (by decide +kernel)
  obtain ⟨s1, h3, h4⟩ : ∃ s, (start before 1).run packer ["data"] ((opensIt 163 ++ [(0, CDisk.Act.openRest 5 [])]).take 163) = some s ∧ (match s.fs.get? fragment with | none => true | some _ => false) = true := exists_of (by decide +kernel)
  obtain ⟨q, h5, h6⟩ : ∃ q, ({ fs := indexFirst } : BDisk).kill.run packer ["data"] (opening 113 5 []) = some q ∧ (q.d.up && !GoSet.contains (q.d.getDocuments "title" "y").1 "b") = true := exists_of (by decide +kernel)
  split at h2
  · rename_i p hp
    simp only [Bool.and_eq_true, Bool.not_eq_true'] at h2 h6
    refine ⟨fun r => if r = fragment then 163 else 0, s, p, q, h1, hp, h2.1, h2.2, fun _ => rfl, ⟨(copied_tree _).wf.del _, fun r => ?_⟩, h5, h6.1, h6.2⟩
    show ∃ fs, Folder packer ["data"] (start before 1) (opensIt 163 ++ [(0, CDisk.Act.openRest 5 [])]) (if r = fragment then 163 else 0) fs ∧ get? indexFirst r = get? fs r
    by_cases e : r = fragment
    · rw [e, if_pos rfl]
      refine ⟨s1.fs, ⟨s1, h3, rfl⟩, ?_⟩
      unfold indexFirst
      rw [get?_del, if_pos rfl]
      split at h4
      · rename_i hn; exact hn.symm
      · cases h4
    · rw [if_neg e]
      refine ⟨before, ⟨start before 1, rfl, rfl⟩, ?_⟩
      unfold indexFirst
      rw [get?_del, if_neg (Ne.symm e)]
  · cases h2

set_option maxRecDepth 100000 in
theorem snapshot_ok : okFrom (start (shelf aFile) 1) (opensIt 108) = true := by decide +kernel

set_option maxRecDepth 100000 in
/-- REFUTATION: even a backup that is taken in one moment (a snapshot of the disk) can lack a whole field: if that moment is between the two renames. No process is killed. -/
theorem c132_snapshot_refuted : ∃ (s : Shared) (q : BDisk), Copied (Folder packer ["data"] (start (shelf aFile) 1) (opensIt 108)) (fun _ => 109) s.fs ∧ Says (shelf aFile) ["data"] "title" "x" "a" ∧
    ({ fs := s.fs } : BDisk).kill.run packer ["data"] (opening 57 5 []) = some q ∧ q.d.up = true ∧ GoSet.contains (q.d.getDocuments "title" "x").1 "a" = false := by
  obtain ⟨s, h1, h2⟩ : ∃ s, (start (shelf aFile) 1).run packer ["data"] (opensIt 108) = some s ∧
      (match ({ fs := s.fs } : BDisk).kill.run packer ["data"] (opening 57 5 []) with
        | some q => q.d.up && !GoSet.contains (q.d.getDocuments "title" "x").1 "a"
        | none => false) = true := exists_of (by decide +kernel)
  split at h2
  · rename_i q h3
    simp only [Bool.and_eq_true, Bool.not_eq_true'] at h2
    obtain ⟨i, p, hp, -⟩ := (run_inv (n := 0) (shelf_tree aFile) packer_written _ h1 (opensIt_reads _) (okFrom_inTurn snapshot_ok) (okFrom_none_missing snapshot_ok)).kept
    have hw : s.fs.WF := ((run_inv (n := 0) (shelf_tree aFile) packer_written _ h1 (opensIt_reads _) (okFrom_inTurn snapshot_ok) (okFrom_none_missing snapshot_ok)).calm i p hp).folder.tree.wf
    exact ⟨s, q, ⟨hw, fun p => ⟨s.fs, ⟨s, h1, rfl⟩, rfl⟩⟩, shelf_listed _, h3, h2.1, h2.2⟩
  · cases h2

set_option maxRecDepth 100000 in
theorem backup_ok : okFrom (start before 1) (opensIt 163) = true := by decide +kernel

/-- the fragment is copied before the process is started, everything else when it has merged and removed it. -/
def fragmentFirst (p : Path) : Nat := if p = fragment then 0 else 164

set_option maxRecDepth 100000 in
/-- the hypotheses of `c132_copy_partial` and `c132_opened_partial` are met: the copy has the old fragment and the new index, and a process opens it … -/
theorem backup_hyps : ∃ (c : FS) (s : BDisk), Copied (Folder packer ["data"] (start before 1) (opensIt 163)) fragmentFirst c ∧ FragmentsFirst ["data"] fragmentFirst ∧
    (∀ f, HadIndex packer ["data"] (start before 1) ((opensIt 163).take (fragmentFirst (["data"] ++ [f, "index"]))) f → ∃ b, c.get? (["data"] ++ [f, "index"]) = some (.file b)) ∧
    ({ fs := c } : BDisk).kill.run packer ["data"] (opening 163 5 []) = some s ∧ s.d.up = true ∧ c.get? ["data", "title", "index"] ≠ before.get? ["data", "title", "index"] ∧ ∃ b, c.get? fragment = some (.file b) := by
  obtain ⟨t, h1, h2⟩ : ∃ t, (start before 1).run packer ["data"] (opensIt 163) = some t ∧
      (match t.fs.get? ["data", "title", "index"], ({ fs := GoMap.set t.fs fragment (.file (indexBytes [("y", [("b", true)])])) } : BDisk).kill.run packer ["data"] (opening 163 5 []) with
        | some (.file b), some s => s.d.up && !decide (b = indexBytes [("x", [("a", true)])])
        | _, _ => false) = true := exists_of (by decide +kernel)
  split at h2
  · rename_i b s hb hs
    simp only [Bool.and_eq_true, Bool.not_eq_true', decide_eq_false_iff_not] at h2
    have hrun := run_inv (n := 0) (copied_tree _) packer_written _ h1 (opensIt_reads _) (okFrom_inTurn backup_ok) (okFrom_none_missing backup_ok)
    obtain ⟨i, p, hp, -⟩ := hrun.kept
    have hw : t.fs.WF := (hrun.calm i p hp).folder.tree.wf
    have hne : (["data", "title", "index"] : Path) ≠ fragment := by decide
    have hci : GoMap.get? (GoMap.set t.fs fragment (.file (indexBytes [("y", [("b", true)])]))) ["data", "title", "index"] = some (.file b) := by rw [get?_set, if_neg (Ne.symm hne)]; exact hb
    have hc : Copied (Folder packer ["data"] (start before 1) (opensIt 163)) fragmentFirst (GoMap.set t.fs fragment (.file (indexBytes [("y", [("b", true)])]))) := by
      refine ⟨hw.set _ _, fun r => ?_⟩
      unfold fragmentFirst
      by_cases e : r = fragment
      · rw [e, if_pos rfl]
        exact ⟨before, ⟨start before 1, rfl, rfl⟩, by rw [get?_set, if_pos rfl]; rfl⟩
      · rw [if_neg e]
        exact ⟨t.fs, ⟨t, h1, rfl⟩, by rw [get?_set, if_neg (Ne.symm e)]⟩
    have hff : FragmentsFirst ["data"] fragmentFirst := fun f n => by
      unfold fragmentFirst
      rw [if_neg (show ["data"] ++ [f, "index"] ≠ fragment by simp)]
      split <;> omega
    have hix : ∀ f, HadIndex packer ["data"] (start before 1) ((opensIt 163).take (fragmentFirst (["data"] ++ [f, "index"]))) f → ∃ b, GoMap.get? (GoMap.set t.fs fragment (.file (indexBytes [("y", [("b", true)])]))) (["data"] ++ [f, "index"]) = some (.file b) := by
      rintro f ⟨xs0, xs1, s0, b', e, h3, h4⟩
      have h5 : okNow s0 = true := okFrom_prefix (xs0 := xs0) (xs1 := xs1 ++ (opensIt 163).drop (fragmentFirst (["data"] ++ [f, "index"]))) (by rw [← List.append_assoc, ← e, List.take_append_drop]; exact backup_ok) h3
      obtain rfl := onlyTitle_eq (Bool.and_eq_true_iff.1 h5).1 h4
      exact ⟨b, hci⟩
    refine ⟨_, s, hc, hff, hix, hs, h2.1, ?_, _, by rw [get?_set, if_pos rfl]⟩
    rw [hci]
    intro h
    exact h2.2 (Node.file.inj (Option.some.inj h))
  · cases h2

/-- … so the copy says what the folder said, and the process finds the document of the fragment. -/
theorem backup_fine : ∃ (c : FS) (s : BDisk), Copied (Folder packer ["data"] (start before 1) (opensIt 163)) fragmentFirst c ∧ ({ fs := c } : BDisk).kill.run packer ["data"] (opening 163 5 []) = some s ∧ s.d.up = true ∧
    (∀ f t d, Says c ["data"] f t d ↔ Says before ["data"] f t d) ∧ GoSet.contains (s.d.getDocuments "title" "y").1 "b" = true := by
  obtain ⟨c, s, hc, hff, hix, h, hu, -⟩ := backup_hyps
  exact ⟨c, s, hc, h, hu, c132_copy_partial (n := 0) (copied_tree _) packer_written (opensIt_reads _) (okFrom_inTurn backup_ok) (okFrom_none_missing backup_ok) hc hff hix,
    (c132_opened_partial (n := 0) (copied_tree _) packer_written (opensIt_reads _) (okFrom_inTurn backup_ok) (okFrom_none_missing backup_ok) hc hff hix h hu "title" "y" "b").2 before_says⟩

end Shared
end Goir
