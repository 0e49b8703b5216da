import Verif.Lemmas.DiskBytesSim
import Verif.Spec.Opening
import Verif.Props.FlatBytes
/-!
# Opening any folder: the steps
-/
namespace Goir
open GoMap Spec Spec.Opening

namespace Opening

/-! ### the file system -/

theorem field_plain {root : Path} {fs : FS} (h : Tree root fs) {f : String} (hf : IsField fs root f) : PlainName f := h.names _ _ hf.1 f (by simp)

/-- `MkdirAll(root/f/temp)`: the directory is there, or is made, or a file stands in its place. -/
theorem mkdir_temp {root : Path} {fs fs' : FS} {f : String} (hr : ∀ i < root.length, fs.get? (root.take (i + 1)) = some .dir) (hf : fs.get? (root ++ [f]) = some .dir)
    (h : fs.mkdirAll (root ++ [f, "temp"]) = some fs') :
    (fs' = fs ∧ fs.get? (root ++ [f, "temp"]) = some .dir) ∨ (fs' = GoMap.set fs (root ++ [f, "temp"]) .dir ∧ fs.get? (root ++ [f, "temp"]) = none) := by
  have e : root ++ [f, "temp"] = (root ++ [f]) ++ ["temp"] := by simp
  have h1 : fs.mkdirAll (root ++ [f]) = some fs := FS.mkdirAll_existing fs _ fun i hi => by
    simp only [List.length_append, List.length_singleton] at hi
    by_cases hl : i < root.length
    · rw [List.take_append_of_le_length (by omega)]; exact hr i hl
    · rw [List.take_of_length_le (by simp; omega)]; exact hf
  rw [e, FS.mkdirAll_snoc, h1, Option.bind_some, FS.mkdir1] at h
  rw [e]
  split at h
  · rename_i hd; cases h; exact .inl ⟨rfl, hd⟩
  · cases h
  · rename_i hd; cases h; exact .inr ⟨rfl, hd⟩

theorem mkdir_field {root : Path} {fs : FS} {f : String} (hr : ∀ i < root.length, fs.get? (root.take (i + 1)) = some .dir) (hf : fs.get? (root ++ [f]) = some .dir) :
    fs.mkdirAll (root ++ [f]) = some fs := FS.mkdirAll_existing fs _ fun i hi => by
  simp only [List.length_append, List.length_singleton] at hi
  by_cases hl : i < root.length
  · rw [List.take_append_of_le_length (by omega)]; exact hr i hl
  · rw [List.take_of_length_le (by simp; omega)]; exact hf

/-- what is known of a SecureSaveFile in progress that began with the files `fs0`. -/
def Saving (c : SaveCall) (fs0 fs : FS) (pc : SavePc) : Prop :=
  Frame c fs0 fs ∧
  match pc with
  | .start => fs = fs0
  | .writing n => n ≤ c.buf.length ∧ fs.get? (c.path ++ [c.name ++ "_temp"]) = some (.file (c.buf.take n))
  | .written => fs.get? (c.path ++ [c.name ++ "_temp"]) = some (.file c.buf)
  | .moved => fs.get? (c.path ++ [c.name ++ "_temp"]) = some (.file c.buf)
  | .installed => fs.get? (c.path ++ [c.name]) = some (.file c.buf)
  | .done => fs.get? (c.path ++ [c.name]) = some (.file c.buf)
  | .failed => True

theorem Saving.step {c : SaveCall} {fs0 fs fs' : FS} {pc pc' : SavePc} (hn : PlainName c.name) (h : Saving c fs0 fs pc) (hs : c.step (fs, pc) = some (fs', pc')) : Saving c fs0 fs' pc' := by
  have e1 := SaveCall.cur_ne_tmp hn
  have e2 := SaveCall.cur_ne_old hn
  have e3 := SaveCall.tmp_ne_old hn
  have c1 := SaveCall.cur_eq hn
  have c2 := SaveCall.tmp_eq hn
  have c3 := SaveCall.old_eq hn
  rw [c1, c2] at e1
  rw [c1, c3] at e2
  rw [c2, c3] at e3
  obtain ⟨fr, h⟩ := h
  unfold SaveCall.step at hs
  rw [c1, c2, c3] at hs
  cases pc with
  | start =>
    simp only [FS.create] at h hs
    split at hs
    · rename_i fs1 hc
      split at hc
      · rename_i hcond
        cases hc; cases hs
        refine ⟨fr.trans (Frame.set (.inr (.inl rfl)) hcond.2.1 []), Nat.zero_le _, ?_⟩
        rw [get?_set, if_pos rfl]; simp
      · cases hc
    · cases hs; exact ⟨fr, trivial⟩
  | writing n =>
    simp only at h hs
    obtain ⟨hle, ht⟩ := h
    split at hs
    · rename_i hlt
      cases hs
      refine ⟨fr.trans (Frame.set (.inr (.inl rfl)) (by rw [ht]; simp) _), hlt, ?_⟩
      rw [FS.writeTo, get?_set, if_pos rfl]
    · cases hs
      refine ⟨fr, ?_⟩
      rw [List.take_of_length_le (by omega)] at ht
      exact ht
  | written =>
    simp only at h hs
    split at hs
    · split at hs
      · rename_i fs1 hc
        unfold FS.rename at hc
        split at hc
        · rename_i old ho
          split at hc
          · rename_i hcond
            cases hc; cases hs
            have r3' : GoMap.get? (GoMap.del fs (c.path ++ [c.name])) (c.path ++ [c.name ++ "_old"]) ≠ some .dir := by rw [get?_del, if_neg e2]; exact hcond.2.1
            refine ⟨fr.trans ((Frame.del (.inl rfl) (by rw [ho]; simp)).trans (Frame.set (.inr (.inr rfl)) r3' old)), ?_⟩
            show GoMap.get? _ _ = _
            rw [get?_set, if_neg e3.symm, get?_del, if_neg e1]; exact h
          · cases hc
        · cases hc
      · cases hs; exact ⟨fr, trivial⟩
    · cases hs; exact ⟨fr, h⟩
  | moved =>
    simp only at h hs
    split at hs
    · rename_i fs1 hc
      unfold FS.rename at hc
      rw [h] at hc
      simp only at hc
      split at hc
      · rename_i hcond
        cases hc; cases hs
        have r1' : GoMap.get? (GoMap.del fs (c.path ++ [c.name ++ "_temp"])) (c.path ++ [c.name]) ≠ some .dir := by rw [get?_del, if_neg e1.symm]; exact hcond.2.1
        refine ⟨fr.trans ((Frame.del (.inr (.inl rfl)) (by rw [h]; simp)).trans (Frame.set (.inl rfl) r1' c.buf)), ?_⟩
        show GoMap.get? _ _ = _
        rw [get?_set, if_pos rfl]
      · cases hc
    · cases hs; exact ⟨fr, trivial⟩
  | installed =>
    simp only at h hs
    split at hs
    · split at hs
      · rename_i fs1 hc
        unfold FS.remove at hc
        split at hc
        · rename_i old ho
          cases hc; cases hs
          refine ⟨fr.trans (Frame.del (.inr (.inr rfl)) (by rw [ho]; simp)), ?_⟩
          show GoMap.get? _ _ = _
          rw [get?_del, if_neg e2.symm]; exact h
        · cases hc
      · cases hs; exact ⟨fr, trivial⟩
    · cases hs; exact ⟨fr, h⟩
  | done => cases hs
  | failed => cases hs

/-! ### decoding -/

theorem decodeIndex_iff {buf : Bytes} {m : GoMap String (GoMap String Bool)} : BDisk.decodeIndex buf = some m ↔ HoldsIndex buf m := by
  unfold BDisk.decodeIndex HoldsIndex
  simp only [Option.bind_eq_some_iff, Gzip.c117_reads]

theorem decodeMetrics_iff {buf : Bytes} {e : String × Int × Int} : BDisk.decodeMetrics buf = some e ↔ HoldsMetrics buf e := by
  unfold BDisk.decodeMetrics HoldsMetrics
  simp only [Option.bind_eq_some_iff, Gzip.c117_reads]

theorem decodeCounts_iff {buf : Bytes} {m : GoMap String Int} : BDisk.decodeCounts buf = some m ↔ HoldsCounts buf m := by
  unfold BDisk.decodeCounts HoldsCounts
  simp only [Option.bind_eq_some_iff, Gzip.c117_reads]

theorem none_of_iff {α : Type} {o : Option α} {P : α → Prop} (h : ∀ a, o = some a ↔ P a) (hn : ∀ a, ¬ P a) : o = none := by
  cases o with
  | none => rfl
  | some a => exact absurd ((h a).1 rfl) (hn a)

/-- a map of postings in which no term and no document occurs twice. -/
def Neat (m : GoMap String (GoMap String Bool)) : Prop := m.WF ∧ ∀ e ∈ m, GoMap.WF e.2

theorem readValues_neat (buf : Bytes) (pos : Nat) : ∀ (n j : Nat) (v r : GoMap String Bool), v.WF → FBB.readValues buf pos j n v = some r → r.WF
  | 0, j, v, r, h, e => by simp only [FBB.readValues] at e; cases e; exact h
  | n + 1, j, v, r, h, e => by
    simp only [FBB.readValues] at e
    obtain ⟨x, -, e⟩ := Option.bind_eq_some_iff.1 e
    exact readValues_neat buf pos n _ _ _ (h.set _ _) e

theorem Neat.set {m : GoMap String (GoMap String Bool)} (h : Neat m) (k : String) {v : GoMap String Bool} (hv : v.WF) : Neat (m.set k v) := by
  refine ⟨h.1.set _ _, fun e he => ?_⟩
  rcases mem_set m k v e he with rfl | he
  · exact hv
  · exact h.2 e he

theorem readTerms_neat (buf : Bytes) (pos : Nat) : ∀ (n i : Nat) (v r : GoMap String (GoMap String Bool)), Neat v → FBB.readTerms buf pos i n v = some r → Neat r
  | 0, i, v, r, h, e => by simp only [FBB.readTerms] at e; cases e; exact h
  | n + 1, i, v, r, h, e => by
    simp only [FBB.readTerms] at e
    obtain ⟨x, -, e⟩ := Option.bind_eq_some_iff.1 e
    cases x with
    | none => cases e
    | some term =>
      obtain ⟨key, -, e⟩ := Option.bind_eq_some_iff.1 e
      obtain ⟨y, -, e⟩ := Option.bind_eq_some_iff.1 e
      cases y with
      | none => cases e
      | some doc =>
        obtain ⟨l, -, e⟩ := Option.bind_eq_some_iff.1 e
        obtain ⟨vs, hv, e⟩ := Option.bind_eq_some_iff.1 e
        exact readTerms_neat buf pos n _ _ _ (h.set key (readValues_neat _ _ _ _ _ _ (by simp [GoMap.WF, GoMap.keys]) hv)) e

theorem holdsIndex_neat {buf : Bytes} {m : GoMap String (GoMap String Bool)} (h : HoldsIndex buf m) : Neat m := by
  obtain ⟨raw, -, h⟩ := h
  simp only [FBB.deserializeIndex] at h
  obtain ⟨x, -, h⟩ := Option.bind_eq_some_iff.1 h
  obtain ⟨n, -, h⟩ := Option.bind_eq_some_iff.1 h
  exact readTerms_neat _ _ _ _ _ _ ⟨by simp [GoMap.WF, GoMap.keys], by simp⟩ h

theorem adds_wf (ds : List String) (s : GoSet) (h : GoMap.WF s) : GoMap.WF (ds.foldl GoSet.add s) := by
  induction ds generalizing s with
  | nil => exact h
  | cons d ds ih => exact ih _ (h.set _ _)

theorem Neat.getD {m : GoMap String (GoMap String Bool)} (h : Neat m) (t : String) : GoMap.WF ((m.get? t).getD []) := by
  cases e : m.get? t with
  | none => simp [GoMap.WF, GoMap.keys]
  | some s => exact h.2 (t, s) (GoMap.mem_of_get? e)

theorem Neat.mergeInto {td p : Postings} (h : Neat td) : Neat (IxState.mergeInto td p) := by
  unfold IxState.mergeInto
  induction p generalizing td with
  | nil => exact h
  | cons e p ih => exact ih (h.set _ (adds_wf _ _ (h.getD e.1)))

theorem neat_nil : Neat [] := ⟨by simp [GoMap.WF, GoMap.keys], by simp⟩

theorem Neat.loadPostings {p : Postings} : Neat (IxState.loadPostings p) := by
  unfold IxState.loadPostings
  have : ∀ td : Postings, Neat td → Neat (p.foldl (fun td e => td.set e.1 (e.2.keys.foldl GoSet.add GoSet.new)) td) := by
    induction p with
    | nil => exact fun td h => h
    | cons e p ih => exact fun td h => ih _ (h.set _ (adds_wf _ _ (by simp [GoMap.WF, GoMap.keys, GoSet.new])))
  exact this [] neat_nil

theorem mem_keys_mergeInto {td p : Postings} {t : String} (h : t ∈ GoMap.keys (IxState.mergeInto td p)) : t ∈ GoMap.keys td ∨ t ∈ GoMap.keys p := by
  unfold IxState.mergeInto at h
  induction p generalizing td with
  | nil => exact .inl h
  | cons e p ih =>
    rcases ih h with h | h
    · rcases (GoMap.mem_keys_set _ _ _ _).1 h with h | h
      · exact .inr (by simp [h])
      · exact .inl h
    · exact .inr (by simp [h])

theorem mem_keys_loadPostings {p : Postings} {t : String} (h : t ∈ GoMap.keys (IxState.loadPostings p)) : t ∈ GoMap.keys p := by
  unfold IxState.loadPostings at h
  have : ∀ td : Postings, t ∈ GoMap.keys (p.foldl (fun td e => td.set e.1 (e.2.keys.foldl GoSet.add GoSet.new)) td) → t ∈ GoMap.keys td ∨ t ∈ GoMap.keys p := by
    clear h
    induction p with
    | nil => exact fun td h => .inl h
    | cons e p ih =>
      intro td h
      rcases ih _ h with h | h
      · rcases (GoMap.mem_keys_set _ _ _ _).1 h with h | h
        · exact .inr (by simp [h])
        · exact .inl h
      · exact .inr (by simp [h])
  rcases this _ h with h | h
  · cases h
  · exact h

theorem hasPosting_iff (m : GoMap String (GoMap String Bool)) (t d : String) : hasPosting m t d = true ↔ ∃ ds, m.get? t = some ds ∧ d ∈ ds.keys := by
  unfold hasPosting
  cases m.get? t with
  | none => simp
  | some s => simp [GoSet.contains, GoMap.get?_isSome_iff]

end Opening
end Goir
