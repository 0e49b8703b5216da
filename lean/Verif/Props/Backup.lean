import Verif.Props.SharedAnswers
import Verif.Spec.Backup
/-!
# C132: a copy of the folder that is taken while stores use it
-/
namespace Goir
open GoMap Spec Spec.Opening Spec.Backup Opening

namespace Shared
open BDisk

variable {root : Path} {z : Bytes → Bytes} {fs0 : FS}

/-- the folder after the first `k` steps of a run of several processes on one folder. -/
def Folder (z : Bytes → Bytes) (root : Path) (t : Shared) (xs : List (Nat × CDisk.Act)) (k : Nat) (fs : FS) : Prop := ∃ s, t.run z root (xs.take k) = some s ∧ s.fs = fs

/-- a step of the merge makes no fragment, and changes none. -/
theorem merge_frag {s s' : BDisk} (hc : Calm fs0 root s) (he : s.mergeStep z root = some s') {g n : String} {b : Bytes} (h : s'.fs.get? (root ++ [g, "temp", n]) = some (.file b)) :
    s.fs.get? (root ++ [g, "temp", n]) = some (.file b) := by
  obtain ⟨ht, -, ha⟩ := hc.folder
  have pi : PlainName "index" := by decide
  have pt : PlainName "temp" := by decide
  have hle : ∀ s1 : BDisk, s1.loadError.fs = s1.fs := fun s1 => by unfold BDisk.loadError; split <;> rfl
  unfold BDisk.mergeStep at he
  split at he
  · split at he <;> (cases he; exact h)
  · rename_i f rest acc hm
    rw [hm] at ha
    cases hsv : s.saveI with
    | some x => rw [hsv] at ha; exact ha.elim
    | none =>
    rw [hsv] at ha
    have hall : ∀ g ∈ f :: rest, Fld root s.fs g := ha
    obtain ⟨pf, fnd, hfd⟩ := hall f (by simp)
    have etemp : BDisk.tempDir root f = root ++ [f, "temp"] := by unfold BDisk.tempDir; rw [join_plain pf, join_plain pt]; simp
    split at he
    · cases he; exact h
    · rename_i fs' hmk
      rw [etemp] at hmk
      have w3 : fs'.get? (root ++ [g, "temp", n]) = s.fs.get? (root ++ [g, "temp", n]) := by
        rcases mkdir_temp ht.root hfd hmk with ⟨rfl, -⟩ | ⟨rfl, -⟩
        · rfl
        · rw [get?_set, if_neg (by simp)]
      rw [← w3]
      split at he
      · cases he; exact h
      · cases he; rw [hle] at h; exact h
      · cases he; exact h
  · split at he
    · cases he; rw [hle] at h; exact h
    · split at he <;> (cases he; exact h)
  · rename_i f rest seen td acc hm hsn
    rw [hm] at ha
    obtain ⟨hfld, -, hpn, -⟩ := ha
    split at he
    · cases he; exact h
    · rw [join_plain hfld.1, mkdir_field ht.root hfld.2.2] at he
      cases he; exact h
  · cases he; exact h
  · rename_i f rest seen td acc c pc hpc hm hsn
    rw [hm] at ha
    rw [hsn] at ha
    obtain ⟨hfld, hrst, hpn, hfl, ⟨bs, rfl⟩, hnow⟩ := ha
    split at he
    · cases he
    · rename_i fs' hst
      cases he
      obtain ⟨fr, -⟩ := Saving.self pi hnow hst
      rw [hle] at h
      rw [← Frame.frag fr]; exact h
    · rename_i fs' pc' hnf hst
      cases he
      obtain ⟨fr, -⟩ := Saving.self pi hnow hst
      rw [← Frame.frag fr]; exact h
  · cases he; exact h
  · split at he
    · cases he; rw [hle] at h; exact h
    · rename_i fs' hrm
      cases he
      unfold FS.remove at hrm
      split at hrm
      · cases hrm
        have h : GoMap.get? (GoMap.del s.fs _) _ = some (Node.file b) := h
        rw [get?_del] at h
        split at h
        · cases h
        · exact h
      · cases hrm
  · cases he

theorem inTurn_prefix {t : Shared} {xs ys : List (Nat × CDisk.Act)} (h : InTurn z root t (xs ++ ys)) : InTurn z root t xs := fun xs0 xs1 s0 e => h xs0 (xs1 ++ ys) s0 (by rw [e, List.append_assoc])

theorem noneMissing_prefix {t : Shared} {xs ys : List (Nat × CDisk.Act)} (h : NoneMissing z root t (xs ++ ys)) : NoneMissing z root t xs := fun xs0 xs1 s0 e => h xs0 (xs1 ++ ys) s0 (by rw [e, List.append_assoc])

/-- a fragment that is there has been there from the beginning, as it is. -/
theorem run_frag {fs : FS} {n : Nat} (h0 : Tree root fs) (hz : ∀ d, Gz.Written d (z d)) {xs : List (Nat × CDisk.Act)} {s0 : Shared} (hr0 : (start fs (n + 1)).run z root xs = some s0) (ys : List (Nat × CDisk.Act)) :
    ∀ {s : Shared}, (start fs (n + 1)).run z root (xs ++ ys) = some s → (∀ x ∈ xs ++ ys, OnlyReads x.2) → InTurn z root (start fs (n + 1)) (xs ++ ys) → NoneMissing z root (start fs (n + 1)) (xs ++ ys) →
      ∀ {g k : String} {b : Bytes}, s.fs.get? (root ++ [g, "temp", k]) = some (.file b) → s0.fs.get? (root ++ [g, "temp", k]) = some (.file b) := by
  induction ys using List.reverseRecOn with
  | nil =>
    intro s h _ _ _ g k b hb
    rw [List.append_nil, hr0] at h
    cases h; exact hb
  | append_singleton ys x ih =>
    intro s h ho ht hw g k b hb
    rw [← List.append_assoc] at h ho ht hw
    obtain ⟨s1, h1, h2⟩ := run_snoc h
    have ho1 := fun y hy => ho y (List.mem_append_left _ hy)
    refine ih h1 ho1 (inTurn_prefix ht) (noneMissing_prefix hw) ?_
    have hi := run_inv h0 hz _ h1 ho1 (inTurn_prefix ht) (noneMissing_prefix hw)
    unfold Shared.exec at h2
    split at h2
    · cases h2
    rename_i p hp
    obtain ⟨p', hx, rfl⟩ := Option.map_eq_some_iff.1 h2
    rcases exec_still (hi.calm x.1 p hp) (ho x (by simp)) hx with e | e
    · have hb : p'.fs.get? (root ++ [g, "temp", k]) = some (.file b) := hb
      rw [e] at hb; exact hb
    · exact merge_frag (hi.calm x.1 p hp) e hb

section copies
variable {fs c : FS} {n : Nat} {xs : List (Nat × CDisk.Act)} {time : Path → Nat}

theorem take_reads (ho : ∀ x ∈ xs, OnlyReads x.2) (k : Nat) : ∀ x ∈ xs.take k, OnlyReads x.2 := fun x hx => ho x (List.mem_of_mem_take hx)

theorem take_inTurn {t : Shared} (h : InTurn z root t xs) (k : Nat) : InTurn z root t (xs.take k) := inTurn_prefix (ys := xs.drop k) (by rw [List.take_append_drop]; exact h)

theorem take_noneMissing {t : Shared} (h : NoneMissing z root t xs) (k : Nat) : NoneMissing z root t (xs.take k) := noneMissing_prefix (ys := xs.drop k) (by rw [List.take_append_drop]; exact h)

/-- **C132.** What is neither an index file nor a fragment is in the copy as it was before the first process was started. -/
theorem c132_untouched_partial (h0 : Tree root fs) (hz : ∀ d, Gz.Written d (z d)) (ho : ∀ x ∈ xs, OnlyReads x.2) (ht : InTurn z root (start fs (n + 1)) xs) (hw : NoneMissing z root (start fs (n + 1)) xs)
    (hc : Copied (Folder z root (start fs (n + 1)) xs) time c) (p : Path) (hp : ∀ f x rest, p = root ++ f :: x :: rest → x ∉ ["temp", "index", "index_temp", "index_old"]) : c.get? p = fs.get? p := by
  obtain ⟨-, ⟨s, hs, rfl⟩, e⟩ := hc.2 p
  rw [e]
  refine c131_untouched_partial h0 hz hs (take_reads ho _) (take_inTurn ht _) (take_noneMissing hw _) p ?_
  rintro f (rfl | ⟨x, hx, rfl⟩ | ⟨k, rfl⟩)
  · exact hp f "temp" [] (by simp) (by simp)
  · refine hp f x [] (by simp) ?_
    simp at hx; rcases hx with rfl | rfl | rfl <;> simp
  · exact hp f "temp" [k] (by simp) (by simp)

/-- … the copy is an ordinary file tree. -/
theorem c132_tree (h0 : Tree root fs) (hz : ∀ d, Gz.Written d (z d)) (ho : ∀ x ∈ xs, OnlyReads x.2) (ht : InTurn z root (start fs (n + 1)) xs) (hw : NoneMissing z root (start fs (n + 1)) xs)
    (hc : Copied (Folder z root (start fs (n + 1)) xs) time c) : Tree root c := by
  have key : ∀ p, ∃ f, Tree root f ∧ c.get? p = f.get? p := fun p => by
    obtain ⟨-, ⟨s, hs, rfl⟩, e⟩ := hc.2 p
    obtain ⟨i, q, hq, -⟩ := (run_inv h0 hz _ hs (take_reads ho _) (take_inTurn ht _) (take_noneMissing hw _)).kept
    exact ⟨s.fs, ((run_inv h0 hz _ hs (take_reads ho _) (take_inTurn ht _) (take_noneMissing hw _)).calm i q hq).folder.tree, e⟩
  refine ⟨hc.1, fun p m hp => ?_, fun i hi => ?_⟩
  · obtain ⟨f, hf, e⟩ := key p
    exact hf.names p m (e ▸ hp)
  · obtain ⟨f, hf, e⟩ := key (root.take (i + 1))
    rw [e]; exact hf.root i hi

/-- nothing is in a copy that the folder did not say at first. -/
theorem c132_nothing_new_partial (h0 : Tree root fs) (hz : ∀ d, Gz.Written d (z d)) (ho : ∀ x ∈ xs, OnlyReads x.2) (ht : InTurn z root (start fs (n + 1)) xs) (hw : NoneMissing z root (start fs (n + 1)) xs)
    (hc : Copied (Folder z root (start fs (n + 1)) xs) time c) {f t d : String} (h : Says c root f t d) : Says fs root f t d := by
  obtain ⟨hf, p, buf, m, ds, hp, hh, hg, hd⟩ := h
  obtain ⟨-, ⟨s, hs, rfl⟩, e⟩ := hc.2 p
  have hi := run_inv h0 hz _ hs (take_reads ho _) (take_inTurn ht _) (take_noneMissing hw _)
  obtain ⟨i, q, hq, hk, -⟩ := hi.kept
  refine KeptFolder.sub hz hk (hi.calm i q hq).folder.aside ⟨?_, p, buf, m, ds, part_congr e.symm hp, hh, hg, hd⟩
  refine (KeptFolder.field hk f).2 ⟨?_, hf.2⟩
  rw [← hf.1]
  exact (c132_untouched_partial h0 hz ho ht hw hc _ (fun g x rest e => by simp at e)).symm

/-- **C132.** Any number of processes that only read use a folder, and are opened and killed at any byte; no two of them merge at the same time, and none ends while an index file is missing. A copy is taken file by file while they run, and the
processes go on in between as they like. If the fragments of each field are copied before its index file, and every index file that has been there is in the copy, then the copy says of every field what the folder said at first. -/
theorem c132_copy_partial (h0 : Tree root fs) (hz : ∀ d, Gz.Written d (z d)) (ho : ∀ x ∈ xs, OnlyReads x.2) (ht : InTurn z root (start fs (n + 1)) xs) (hw : NoneMissing z root (start fs (n + 1)) xs)
    (hc : Copied (Folder z root (start fs (n + 1)) xs) time c) (hff : FragmentsFirst root time)
    (hix : ∀ f, HadIndex z root (start fs (n + 1)) (xs.take (time (root ++ [f, "index"]))) f → ∃ b, c.get? (root ++ [f, "index"]) = some (.file b)) (f t d : String) : Says c root f t d ↔ Says fs root f t d := by
  refine ⟨c132_nothing_new_partial h0 hz ho ht hw hc, fun h => ?_⟩
  obtain ⟨-, ⟨s, hs, rfl⟩, e⟩ := hc.2 (root ++ [f, "index"])
  rcases c131_shared_partial h0 hz hs (take_reads ho _) (take_inTurn ht _) (take_noneMissing hw _) f with hk | ⟨hn, hh, -⟩
  · have hfld : IsField c root f := ⟨(c132_untouched_partial h0 hz ho ht hw hc _ (fun g x rest e => by simp at e)).trans h.1.1, h.1.2⟩
    obtain ⟨-, p, buf, m, ds, hp, hh, hg, hd⟩ := (hk t d).2 h
    cases hp with
    | index hb => exact ⟨hfld, _, buf, m, ds, .index (e.trans hb), hh, hg, hd⟩
    | fragment hb =>
      rename_i k
      obtain ⟨-, ⟨s1, hs1, rfl⟩, e1⟩ := hc.2 (root ++ [f, "temp", k])
      have hle := hff f k
      have hsplit : xs.take (time (root ++ [f, "index"])) = xs.take (time (root ++ [f, "temp", k])) ++ (xs.take (time (root ++ [f, "index"]))).drop (time (root ++ [f, "temp", k])) := by
        conv_lhs => rw [← List.take_append_drop (time (root ++ [f, "temp", k])) (xs.take (time (root ++ [f, "index"])))]
        rw [List.take_take, Nat.min_eq_left hle]
      have hb1 := run_frag h0 hz hs1 _ (hsplit ▸ hs) (by rw [← hsplit]; exact take_reads ho _) (by rw [← hsplit]; exact take_inTurn ht _) (by rw [← hsplit]; exact take_noneMissing hw _) hb
      exact ⟨hfld, _, buf, m, ds, .fragment (e1.trans hb1), hh, hg, hd⟩
  · obtain ⟨b, hb⟩ := hix f hh
    rw [e, hn] at hb; cases hb

/-- … and the sizes and lengths, the term counts and the stored documents are the same. -/
theorem c132_numbers_partial (h0 : Tree root fs) (hz : ∀ d, Gz.Written d (z d)) (ho : ∀ x ∈ xs, OnlyReads x.2) (ht : InTurn z root (start fs (n + 1)) xs) (hw : NoneMissing z root (start fs (n + 1)) xs)
    (hc : Copied (Folder z root (start fs (n + 1)) xs) time c) :
    (∀ f x y, Metrics c root f x y ↔ Metrics fs root f x y) ∧ (∀ f m, Counts c root f m ↔ Counts fs root f m) ∧
    (∀ id name fd, Stored c root id name fd ↔ Stored fs root id name fd) ∧ ∀ id, DamagedDocument c root id ↔ DamagedDocument fs root id := by
  obtain ⟨e1, e2, e3⟩ := holds_congr (root := root) fun p hp => c132_untouched_partial h0 hz ho ht hw hc p hp
  refine ⟨fun f x y => ?_, fun f m => ?_, fun id name fd => ?_, fun id => ?_⟩
  · unfold Metrics
    simp only [e1, e2 _ "metrics" (by simp)]
  · unfold Counts
    simp only [e1, e2 _ "nfterm" (by simp)]
  · unfold Stored
    rw [e3]
  · unfold DamagedDocument
    rw [e3]

/-- … so a process that opens the copy finds for every term the documents that the folder named. -/
theorem c132_opened_partial {s : BDisk} {k : Nat} {m : Int} {progs : List (List DOp)} (h0 : Tree root fs) (hz : ∀ d, Gz.Written d (z d)) (ho : ∀ x ∈ xs, OnlyReads x.2) (ht : InTurn z root (start fs (n + 1)) xs)
    (hw : NoneMissing z root (start fs (n + 1)) xs) (hc : Copied (Folder z root (start fs (n + 1)) xs) time c) (hff : FragmentsFirst root time)
    (hix : ∀ f, HadIndex z root (start fs (n + 1)) (xs.take (time (root ++ [f, "index"]))) f → ∃ b, c.get? (root ++ [f, "index"]) = some (.file b))
    (h : ({ fs := c } : BDisk).kill.run z root (opening k m progs) = some s) (hu : s.d.up = true) (f t d : String) : GoSet.contains (s.d.getDocuments f t).1 d = true ↔ Says fs root f t d :=
  (c128_documents (t := { fs := c }) (c132_tree h0 hz ho ht hw hc) hz h hu f t d).trans (c132_copy_partial h0 hz ho ht hw hc hff hix f t d)

end copies

end Shared
end Goir
