import Verif.Lemmas.OpeningDamage
import Verif.Props.DiskBytes
/-!
# C128: a store that opens any folder

The folder is any folder: nothing is assumed about how its files came to be.  What the files say is in `Spec/Opening.lean`.
-/
namespace Goir
open GoMap Spec Spec.Opening

namespace Opening
open BDisk

variable {root : Path} {z : Bytes → Bytes}

/-- the actions of a process that opens the folder: `k` steps of LoadIndexOnHD, then the counters. -/
def opening (k : Nat) (n : Int) (progs : List (List DOp)) : List CDisk.Act := .open_ :: (List.replicate k (.ix .merge) ++ [.openRest n progs])

theorem merges_inv {fs0 : FS} (h0 : Tree root fs0) (hz : ∀ d, Gz.Written d (z d)) {k : Nat} : ∀ {s s' : BDisk}, s.d.up = false → (s.d.ix.proc = .opening ∧ At fs0 root z s.fs s.d.ix.merger s.saveI) ∨ (s.d.ix.proc = .up ∧ Loaded fs0 root s.fs s.d.ix.mem) →
    s.run z root (List.replicate k (.ix .merge)) = some s' → s'.d.ix.proc = .up → s'.d.up = false ∧ Loaded fs0 root s'.fs s'.d.ix.mem := by
  induction k with
  | zero =>
    intro s s' hup hi hr hp
    cases hr
    rcases hi with ⟨h1, -⟩ | ⟨-, h2⟩
    · rw [h1] at hp; cases hp
    · exact ⟨hup, h2⟩
  | succ k ih =>
    intro s s' hup hi hr hp
    obtain ⟨t, h1, h2⟩ := brun_cons.1 hr
    simp only [BDisk.exec] at h1
    split at h1
    · rename_i hg
      rcases hi with ⟨hop, hat⟩ | ⟨hp', -⟩
      · obtain ⟨q1, q2⟩ := merge_inv h0 hz hop hup hat h1
        rcases q2 with q2 | q2
        · exfalso
          cases k with
          | zero => cases h2; rw [q2] at hp; cases hp
          | succ k =>
            obtain ⟨t2, h3, -⟩ := brun_cons.1 h2
            simp only [BDisk.exec] at h3
            split at h3
            · rename_i hg2; rw [q1, q2] at hg2; rcases hg2 with h | h <;> cases h
            · cases h3
        · exact ih q1 q2 h2 hp
      · rw [hup, hp'] at hg
        rcases hg with h | h <;> cases h
    · cases h1

/-- a process that opens the folder and comes to its end has loaded what the files say. -/
theorem opened {t s : BDisk} {k : Nat} {n : Int} {progs : List (List DOp)} (h0 : Tree root t.fs) (hz : ∀ d, Gz.Written d (z d)) (h : t.kill.run z root (opening k n progs) = some s) (hu : s.d.up = true) :
    ∃ (ix : GoMap String Postings) (size length : GoMap String Int) (nft : GoMap String (GoMap String Int)), Loaded t.fs root s.fs ix ∧ loadM s.fs root = some (size, length) ∧ loadN s.fs root = some nft ∧ s.d.mem = CMem.loaded ix size length nft := by
  obtain ⟨s1, h1, h2⟩ := brun_cons.1 h
  obtain ⟨s2, h3, h4⟩ := brun_append.1 h2
  have h4 := brun_one.1 h4
  have hdown : t.kill.d.ix.proc = .down := rfl
  simp only [BDisk.exec] at h1
  rw [if_pos hdown] at h1
  cases h1
  simp only [BDisk.exec] at h4
  split at h4
  · rename_i hc
    have key := merges_inv (fs0 := t.fs) h0 hz (by rfl) (.inl ⟨rfl, ?_⟩) h3 hc.1
    · split at h4
      · rename_i size length nft hm hn
        cases h4
        exact ⟨s2.d.ix.mem, size, length, nft, key.2, hm, hn, rfl⟩
      · cases h4; cases hu
    · exact ⟨[], rfl, ⟨h0.wf, fun _ h => h, fun _ _ => rfl⟩, (fun g hg => by cases hg), fun _ _ => rfl⟩
  · cases h4

theorem get?_idx {ix : GoMap String Postings} {size length : GoMap String Int} {nft : GoMap String (GoMap String Int)} (s : CDisk) (h : s.mem = CMem.loaded ix size length nft) (f t d : String) :
    GoSet.contains (s.getDocuments f t).1 d = true ↔ ∃ td, ix.get? f = some td ∧ hasPosting td t d = true := by
  have e1 : (s.mem.view).index.get? f = (ix.get? f).map fun td => Ref.follow (td.map fun e => (e.1, (⟨(f, e.1), 0⟩ : Ref (String × String)))) s.mem.setCells := by
    rw [h]
    simp only [CMem.view, CMem.loaded]
    rw [Ref.get?_follow, get?_mapKeys ix (fun k => (⟨k, 0⟩ : Ref String))]
    cases hq : ix.get? f <;> simp [hq]
  unfold CDisk.getDocuments Memory.getDocuments
  rw [e1]
  cases hf : ix.get? f with
  | none => simp [GoSet.contains, GoMap.get?]
  | some td =>
    simp only [Option.map_some, Option.some.injEq]
    rw [Ref.get?_follow, get?_mapKeys td (fun k => (⟨(f, k), 0⟩ : Ref (String × String)))]
    unfold hasPosting
    cases ht : td.get? t with
    | none => simp [GoSet.contains, GoMap.get?, ht]
    | some ds => simp [h, CMem.loaded, hf, ht]

theorem loadM_fold {fs : FS} (h0 : ∀ g, IsField fs root g → PlainName g) : ∀ (l : List String) (acc r : GoMap String Int × GoMap String Int), (∀ g ∈ l, IsField fs root g) → l.foldlM (loadM1 fs root) acc = some r →
    (∀ g ∈ l, ∀ buf, fs.get? (root ++ [g, "metrics"]) = some (.file buf) → ∃ e, HoldsMetrics buf e) ∧
    ∀ f, (∃ g ∈ l, ∃ buf x y, fs.get? (root ++ [g, "metrics"]) = some (.file buf) ∧ HoldsMetrics buf (f, x, y) ∧ r.1.get? f = some x ∧ r.2.get? f = some y) ∨
      ((∀ g ∈ l, ∀ buf x y, fs.get? (root ++ [g, "metrics"]) = some (.file buf) → ¬ HoldsMetrics buf (f, x, y)) ∧ r.1.get? f = acc.1.get? f ∧ r.2.get? f = acc.2.get? f) := by
  intro l
  induction l with
  | nil =>
    intro acc r _ h
    cases h
    exact ⟨(fun g hg => by cases hg), fun f => .inr ⟨(fun g hg => by cases hg), rfl, rfl⟩⟩
  | cons g l ih =>
    intro acc r hl h
    rw [List.foldlM_cons] at h
    obtain ⟨acc1, h1, h2⟩ := Option.bind_eq_some_iff.1 h
    obtain ⟨k1, k2⟩ := ih acc1 r (fun x hx => hl x (List.mem_cons_of_mem _ hx)) h2
    have pg := h0 g (hl g (by simp))
    have ep : join (join root g) "metrics" = root ++ [g, "metrics"] := by rw [join_plain pg, join_plain (by decide)]; simp
    unfold loadM1 at h1
    rw [ep] at h1
    split at h1
    · obtain ⟨⟨nm, x, y⟩, h3, h4⟩ := Option.map_eq_some_iff.1 h1
      obtain ⟨buf, h5, h6⟩ := Option.bind_eq_some_iff.1 h3
      have hget : fs.get? (root ++ [g, "metrics"]) = some (.file buf) := by
        unfold FS.readFile at h5
        split at h5
        · rename_i c hc; cases h5; exact hc
        · cases h5
      have hh := decodeMetrics_iff.1 h6
      refine ⟨fun g' hg' b hb => ?_, fun f => ?_⟩
      · rcases List.mem_cons.1 hg' with rfl | hg'
        · rw [hget] at hb; cases hb; exact ⟨_, hh⟩
        · exact k1 g' hg' b hb
      · rcases k2 f with ⟨g', hg', rest⟩ | ⟨n1, n2, n3⟩
        · exact .inl ⟨g', List.mem_cons_of_mem _ hg', rest⟩
        · subst h4
          by_cases hf : nm = f
          · subst hf
            refine .inl ⟨g, by simp, buf, x, y, hget, hh, ?_, ?_⟩
            · rw [n2]; simp only [get?_set, if_true]
            · rw [n3]; simp only [get?_set, if_true]
          · refine .inr ⟨fun g' hg' b x' y' hb hc => ?_, ?_, ?_⟩
            · rcases List.mem_cons.1 hg' with rfl | hg'
              · rw [hget] at hb; cases hb
                have := decodeMetrics_iff.2 hc
                rw [h6] at this; cases this; exact hf rfl
              · exact n1 g' hg' b x' y' hb hc
            · rw [n2]; simp only [get?_set, if_neg hf]
            · rw [n3]; simp only [get?_set, if_neg hf]
    · rename_i hex
      cases h1
      have hnone : fs.get? (root ++ [g, "metrics"]) = none := by simpa [FS.exists_] using hex
      refine ⟨fun g' hg' b hb => ?_, fun f => ?_⟩
      · rcases List.mem_cons.1 hg' with rfl | hg'
        · rw [hnone] at hb; cases hb
        · exact k1 g' hg' b hb
      · rcases k2 f with ⟨g', hg', rest⟩ | ⟨n1, n2, n3⟩
        · exact .inl ⟨g', List.mem_cons_of_mem _ hg', rest⟩
        · refine .inr ⟨fun g' hg' b x' y' hb hc => ?_, n2, n3⟩
          rcases List.mem_cons.1 hg' with rfl | hg'
          · rw [hnone] at hb; cases hb
          · exact n1 g' hg' b x' y' hb hc

theorem loadN_fold {fs : FS} (h0 : ∀ g, IsField fs root g → PlainName g) : ∀ (l : List String) (acc r : GoMap String (GoMap String Int)), (∀ g ∈ l, IsField fs root g) → l.foldlM (loadN1 fs root) acc = some r →
    (∀ g ∈ l, ∀ buf, fs.get? (root ++ [g, "nfterm"]) = some (.file buf) → ∃ e, HoldsCounts buf e) ∧
    ∀ f, (f ∈ l → ∀ buf m, fs.get? (root ++ [f, "nfterm"]) = some (.file buf) → HoldsCounts buf m → r.get? f = some m) ∧
      ((f ∈ l → ∀ buf, fs.get? (root ++ [f, "nfterm"]) ≠ some (.file buf)) → r.get? f = acc.get? f) := by
  intro l
  induction l with
  | nil =>
    intro acc r _ h
    cases h
    exact ⟨(fun g hg => by cases hg), fun f => ⟨(fun hf => by cases hf), fun _ => rfl⟩⟩
  | cons g l ih =>
    intro acc r hl h
    rw [List.foldlM_cons] at h
    obtain ⟨acc1, h1, h2⟩ := Option.bind_eq_some_iff.1 h
    obtain ⟨k1, k2⟩ := ih acc1 r (fun x hx => hl x (List.mem_cons_of_mem _ hx)) h2
    have pg := h0 g (hl g (by simp))
    have ep : join (join root g) "nfterm" = root ++ [g, "nfterm"] := by rw [join_plain pg, join_plain (by decide)]; simp
    unfold loadN1 at h1
    rw [ep] at h1
    split at h1
    · obtain ⟨m, h3, h4⟩ := Option.map_eq_some_iff.1 h1
      obtain ⟨buf, h5, h6⟩ := Option.bind_eq_some_iff.1 h3
      have hget : fs.get? (root ++ [g, "nfterm"]) = some (.file buf) := by
        unfold FS.readFile at h5
        split at h5
        · rename_i c hc; cases h5; exact hc
        · cases h5
      have hh := decodeCounts_iff.1 h6
      subst h4
      refine ⟨fun g' hg' b hb => ?_, fun f => ⟨fun hf b m' hb hc => ?_, fun hf => ?_⟩⟩
      · rcases List.mem_cons.1 hg' with rfl | hg'
        · rw [hget] at hb; cases hb; exact ⟨_, hh⟩
        · exact k1 g' hg' b hb
      · by_cases hfl : f ∈ l
        · exact (k2 f).1 hfl b m' hb hc
        · rcases List.mem_cons.1 hf with rfl | hf
          · rw [(k2 f).2 fun h => absurd h hfl]
            rw [hget] at hb; cases hb
            have := decodeCounts_iff.2 hc
            rw [h6] at this; cases this
            rw [get?_set, if_pos rfl]
          · exact absurd hf hfl
      · by_cases hfg : g = f
        · subst hfg; exact absurd hget (hf (by simp) buf)
        · rw [(k2 f).2 fun h => hf (List.mem_cons_of_mem _ h), get?_set, if_neg hfg]
    · rename_i hex
      cases h1
      have hnone : fs.get? (root ++ [g, "nfterm"]) = none := by simpa [FS.exists_] using hex
      refine ⟨fun g' hg' b hb => ?_, fun f => ⟨fun hf b m' hb hc => ?_, fun hf => ?_⟩⟩
      · rcases List.mem_cons.1 hg' with rfl | hg'
        · rw [hnone] at hb; cases hb
        · exact k1 g' hg' b hb
      · rcases List.mem_cons.1 hf with rfl | hf
        · rw [hnone] at hb; cases hb
        · exact (k2 f).1 hf b m' hb hc
      · exact (k2 f).2 fun h => hf (List.mem_cons_of_mem _ h)

theorem base_field {fs0 fs : FS} {l : List String} (hb : Base fs0 root l fs) (f : String) : IsField fs root f ↔ IsField fs0 root f := by
  unfold IsField
  rw [hb.same _ fun _ _ => Mine.not_field]

theorem base_other {fs0 fs : FS} {l : List String} (hb : Base fs0 root l fs) (g x : String) (hx : x ∉ ["temp", "index", "index_temp", "index_old"]) : fs.get? (root ++ [g, x]) = fs0.get? (root ++ [g, x]) := by
  refine hb.same _ fun f _ hm => ?_
  rcases hm with e | ⟨y, hy, e⟩ | ⟨n, e⟩ <;> simp at e
  · exact hx (by simp [e.2])
  · obtain ⟨-, rfl⟩ := e
    exact hx (by simp at hy ⊢; tauto)

/-- the numbers that are loaded are those of the folder as it was found. -/
theorem loaded_numbers {fs0 fs : FS} {l : List String} {size length : GoMap String Int} {nft : GoMap String (GoMap String Int)} (h0 : Tree root fs0) (hb : Base fs0 root l fs) (hm : loadM fs root = some (size, length)) (hn : loadN fs root = some nft) :
    (∀ g, IsField fs0 root g → ∀ buf, fs0.get? (root ++ [g, "metrics"]) = some (.file buf) → ∃ e, HoldsMetrics buf e) ∧
    (∀ g, IsField fs0 root g → ∀ buf, fs0.get? (root ++ [g, "nfterm"]) = some (.file buf) → ∃ e, HoldsCounts buf e) ∧
    (∀ f, (∃ x y, Metrics fs0 root f x y ∧ size.get? f = some x ∧ length.get? f = some y) ∨ ((∀ x y, ¬ Metrics fs0 root f x y) ∧ size.get? f = none ∧ length.get? f = none)) ∧
    (∀ f, (∀ m, Counts fs0 root f m → nft.get? f = some m) ∧ ((∀ m, ¬ Counts fs0 root f m) → nft.get? f = none)) := by
  have pl : ∀ g, IsField fs root g → PlainName g := fun g hg => field_plain h0 ((base_field hb g).1 hg)
  have hmem : ∀ g, g ∈ fs.listDirectories root ↔ IsField fs0 root g := fun g => (FS.mem_listDirectories fs hb.wf root g).trans (base_field hb g)
  have hl : ∀ g ∈ fs.listDirectories root, IsField fs root g := fun g hg => (base_field hb g).2 ((hmem g).1 hg)
  have em : ∀ g, fs.get? (root ++ [g, "metrics"]) = fs0.get? (root ++ [g, "metrics"]) := fun g => base_other hb g "metrics" (by decide)
  have en : ∀ g, fs.get? (root ++ [g, "nfterm"]) = fs0.get? (root ++ [g, "nfterm"]) := fun g => base_other hb g "nfterm" (by decide)
  obtain ⟨m1, m2⟩ := loadM_fold pl _ _ _ hl hm
  obtain ⟨n1, n2⟩ := loadN_fold pl _ _ _ hl hn
  refine ⟨fun g hg buf hbuf => m1 g ((hmem g).2 hg) buf ((em g).trans hbuf), fun g hg buf hbuf => n1 g ((hmem g).2 hg) buf ((en g).trans hbuf), fun f => ?_, fun f => ⟨?_, ?_⟩⟩
  · rcases m2 f with ⟨g, hg, buf, x, y, k1, k2, k3, k4⟩ | ⟨k1, k2, k3⟩
    · exact .inl ⟨x, y, ⟨g, buf, (hmem g).1 hg, (em g).symm.trans k1, k2⟩, k3, k4⟩
    · exact .inr ⟨fun x y ⟨g, buf, h1, h2, h3⟩ => k1 g ((hmem g).2 h1) buf x y ((em g).trans h2) h3, k2, k3⟩
  · rintro m ⟨hf, buf, h1, h2⟩
    exact (n2 f).1 ((hmem f).2 hf) buf m ((en f).trans h1) h2
  · intro hno
    refine (n2 f).2 fun hf buf hbuf => ?_
    obtain ⟨m, hm⟩ := n1 f hf buf hbuf
    exact hno m ⟨(hmem f).1 hf, buf, (en f).symm.trans hbuf, hm⟩

/-- **C128, the index.** Whatever files are in the folder: when a process has opened it, GetDocuments lists a document for a field and a term exactly if the folder says so — the index file of the field or one of the
fragments that were not merged yet. -/
theorem c128_documents {t s : BDisk} {k : Nat} {n : Int} {progs : List (List DOp)} (h0 : Tree root t.fs) (hz : ∀ d, Gz.Written d (z d)) (h : t.kill.run z root (opening k n progs) = some s) (hu : s.d.up = true) (f term d : String) :
    GoSet.contains (s.d.getDocuments f term).1 d = true ↔ Says t.fs root f term d := by
  obtain ⟨ix, size, length, nft, hl, -, -, hm⟩ := opened h0 hz h hu
  rw [get?_idx s.d hm]
  have hmem := FS.mem_listDirectories t.fs h0.wf root f
  constructor
  · rintro ⟨td, h1, h2⟩
    by_cases hf : f ∈ t.fs.listDirectories root
    · obtain ⟨td', h3, h4⟩ := (hl.done f hf).loaded
      rw [h1] at h3; cases h3
      exact (h4 term d).1 h2
    · rw [hl.none_ f hf] at h1; cases h1
  · intro hs
    obtain ⟨td, h3, h4⟩ := (hl.done f (hmem.2 hs.1)).loaded
    exact ⟨td, h3, (h4 term d).2 hs⟩

/-- **C128, the numbers.** The size and the length of a field come from one metrics file of the folder that speaks of the field, and both are 0 if there is none; the term counts are those of the field's own file, 0 if there is none. -/
theorem c128_numbers {t s : BDisk} {k : Nat} {n : Int} {progs : List (List DOp)} (h0 : Tree root t.fs) (hz : ∀ d, Gz.Written d (z d)) (h : t.kill.run z root (opening k n progs) = some s) (hu : s.d.up = true) (f : String) :
    (Metrics t.fs root f (s.d.getFieldSize f) (s.d.getFieldLength f) ∨ ((∀ x y, ¬ Metrics t.fs root f x y) ∧ s.d.getFieldSize f = 0 ∧ s.d.getFieldLength f = 0)) ∧
    (∀ m, Counts t.fs root f m → ∀ term, (s.d.getNumberFieldTerm f [term]).getD term 0 = m.getD term 0) ∧
    ((∀ m, ¬ Counts t.fs root f m) → ∀ term, (s.d.getNumberFieldTerm f [term]).getD term 0 = 0) := by
  obtain ⟨ix, size, length, nft, hl, hm, hn, hmem⟩ := opened h0 hz h hu
  obtain ⟨-, -, k3, k4⟩ := loaded_numbers h0 hl.base hm hn
  have es : s.d.getFieldSize f = (size.get? f).getD 0 := by simp only [CDisk.getFieldSize, Memory.getFieldSize, CMem.view, hmem, CMem.loaded, GoMap.getD]
  have el : s.d.getFieldLength f = (length.get? f).getD 0 := by simp only [CDisk.getFieldLength, Memory.getFieldLength, CMem.view, hmem, CMem.loaded, GoMap.getD]
  have ec : ∀ term, (s.d.getNumberFieldTerm f [term]).getD term 0 = ((nft.get? f).getD []).getD term 0 := by
    intro term
    have e1 : (s.d.mem.view).numberFieldTerm.get? f = nft.get? f := by
      rw [hmem]
      simp only [CMem.view, CMem.loaded]
      rw [Ref.get?_follow, get?_mapKeys nft (fun k => (⟨k, 0⟩ : Ref String))]
      cases hq : nft.get? f <;> simp [hq]
    simp only [CDisk.getNumberFieldTerm, Memory.getNumberFieldTerm, List.foldl_cons, List.foldl_nil, e1]
    simp [GoMap.getD, get?_set]
  refine ⟨?_, fun m hc term => ?_, fun hno term => ?_⟩
  · rcases k3 f with ⟨x, y, h1, h2, h3⟩ | ⟨h1, h2, h3⟩
    · left; rw [es, el, h2, h3]; exact h1
    · right; rw [es, el, h2, h3]; exact ⟨h1, rfl, rfl⟩
  · rw [ec, (k4 f).1 m hc]; rfl
  · rw [ec, (k4 f).2 hno]; rfl

/-- **C128, the folder afterwards.** Opening a folder loses nothing of it: it says of every field what it said before, no fragment is left, and every file that is not an index, a fragment or one of the two
names beside the index is as it was. -/
theorem c128_folder_after {t s : BDisk} {k : Nat} {n : Int} {progs : List (List DOp)} (h0 : Tree root t.fs) (hz : ∀ d, Gz.Written d (z d)) (h : t.kill.run z root (opening k n progs) = some s) (hu : s.d.up = true) :
    (∀ f term d, Says s.fs root f term d ↔ Says t.fs root f term d) ∧
    (∀ f, IsField t.fs root f → ∀ x c, s.fs.get? (root ++ [f, "temp", x]) ≠ some (.file c)) ∧
    (∀ p, (∀ f x rest, p = root ++ f :: x :: rest → x ∉ ["temp", "index", "index_temp", "index_old"]) → s.fs.get? p = t.fs.get? p) := by
  obtain ⟨ix, size, length, nft, hl, -, -, -⟩ := opened h0 hz h hu
  have hmem := fun f => FS.mem_listDirectories t.fs h0.wf root f
  refine ⟨fun f term d => ?_, fun f hf x c => (hl.done f ((hmem f).2 hf)).frags x c, fun p hp => hl.base.same p fun f _ hm => ?_⟩
  · by_cases hf : IsField t.fs root f
    · exact (hl.done f ((hmem f).2 hf)).kept term d
    · exact ⟨fun hs => absurd ((base_field hl.base f).1 hs.1) hf, fun hs => absurd hs.1 hf⟩
  · rcases hm with rfl | ⟨x, hx, rfl⟩ | ⟨n, rfl⟩
    · exact hp f "temp" [] rfl (by simp)
    · exact hp f x [] rfl (by simp at hx ⊢; tauto)
    · exact hp f "temp" [n] rfl (by simp)

/-- every action on a folder with a damaged file. -/
theorem exec_shut {fs0 : FS} {p : Path} (hd : Damaged fs0 root p) {s s' : BDisk} {act : CDisk.Act} (h : Shut fs0 root p s) (he : s.exec z root act = some s') : Shut fs0 root p s' := by
  have hkill := Shut.kill h.tree h.kept h.fields
  have hcur : ∀ i, s.d.curOf i = none := fun i => by simp [CDisk.curOf, h.clients]
  cases act with
  | client i k =>
    simp only [BDisk.exec] at he
    split at he
    · rw [h.up] at he; cases he
    · simp [CDisk.exec, h.up] at he
  | recvM i => simp [BDisk.exec, CDisk.exec, hcur] at he
  | recvN i => simp [BDisk.exec, CDisk.exec, hcur] at he
  | recvD i => simp [BDisk.exec, CDisk.exec, hcur] at he
  | tickM o => simp [BDisk.exec, CDisk.exec, h.up] at he
  | tickN o => simp [BDisk.exec, CDisk.exec, h.up] at he
  | tickD o => simp [BDisk.exec, CDisk.exec, h.up] at he
  | stepM => simp [BDisk.exec, BDisk.flush, h.saveM, h.mx] at he
  | stepN => simp [BDisk.exec, BDisk.flush, h.saveN, h.nf] at he
  | stepD => simp [BDisk.exec, BDisk.flush, h.saveD, h.fl] at he
  | ix a =>
    simp only [BDisk.exec] at he
    split at he
    · rename_i hg
      have hop : s.d.ix.proc = .opening := by
        rw [h.up] at hg
        rcases hg with hg | hg
        · cases hg
        · exact hg
      cases a with
      | merge => exact merge_shut hd h hop he
      | create name => simp [BDisk.ixExec, BDisk.create, h.writer] at he
      | write => simp [BDisk.ixExec, BDisk.write, h.writer] at he
      | startMerge => simp [BDisk.ixExec, hop] at he
      | recv => simp [BDisk.ixExec, CDisk.exec, IxState.exec, hop] at he
      | tick o => simp [BDisk.ixExec, CDisk.exec, IxState.exec, hop] at he
      | flushed => simp [BDisk.ixExec, CDisk.exec, IxState.exec, h.writer] at he
      | _ => cases he
    · cases he
  | crash =>
    simp only [BDisk.exec] at he
    split at he
    · cases he
    · cases he; exact hkill
  | open_ =>
    simp only [BDisk.exec] at he
    split at he
    · rename_i hdn
      cases he
      have hsv : s.saveI = none := by
        rcases h.at_ with ⟨-, h1⟩ | ⟨h1, -⟩ | ⟨h1, -⟩
        · exact h1
        · rw [hdn] at h1; cases h1
        · rw [hdn] at h1; cases h1
      refine ⟨h.up, h.clients, h.writer, h.mx, h.nf, h.fl, h.saveM, h.saveN, h.saveD, h.tree, h.kept, h.fields, .inr (.inl ⟨rfl, ?_⟩)⟩
      show Before root p s.fs (.atField (s.fs.listDirectories root) []) s.saveI
      rw [hsv]
      have hmem := fun f => FS.mem_listDirectories s.fs h.tree.wf root f
      refine ⟨fun g hg => ⟨field_plain h.tree ((hmem g).1 hg), ((hmem g).1 hg).1⟩, fun f hp => (hmem f).2 ?_⟩
      have key : ∀ g, IsField fs0 root g → Due root g p → IsField s.fs root f := fun g hf hp' => by
        have : f = g := hp.eq hp'
        subst this
        exact ⟨h.fields _ hf.1, hf.2⟩
      cases hd with
      | part hf hp' hn => exact key _ hf (by rcases part_path hp' with e | ⟨n, e⟩; exacts [.inl e, .inr (.inr ⟨n, e⟩)])
      | metrics hf hg' hn => rcases hp with e | e | ⟨n, e⟩ <;> simp at e
      | counts hf hg' hn => rcases hp with e | e | ⟨n, e⟩ <;> simp at e
      | directory hf hx hg' =>
        simp only [List.mem_cons, List.not_mem_nil, or_false] at hx
        rcases hx with rfl | rfl | rfl
        · exact key _ hf (.inl rfl)
        · rcases hp with e | e | ⟨n, e⟩ <;> simp at e
        · rcases hp with e | e | ⟨n, e⟩ <;> simp at e
      | temp hf hg' => exact key _ hf (.inr (.inl rfl))
    · cases he
  | openRest n progs =>
    simp only [BDisk.exec] at he
    split at he
    · rename_i hc
      have hno : ∀ f, ¬ Due root f p := by
        rcases h.at_ with ⟨h1, -⟩ | ⟨h1, -⟩ | ⟨-, -, h1⟩
        · rw [hc.1] at h1; cases h1
        · rw [hc.1] at h1; cases h1
        · exact h1
      have hfail : loadM s.fs root = none ∨ loadN s.fs root = none := by
        have hmem := fun f => FS.mem_listDirectories s.fs h.tree.wf root f
        cases hd with
        | part hf hp' hn => rcases part_path hp' with e | ⟨n, e⟩; exacts [absurd (.inl e) (hno _), absurd (.inr (.inr ⟨n, e⟩)) (hno _)]
        | temp hf hg' => exact absurd (.inr (.inl rfl)) (hno _)
        | directory hf hx hg' =>
          rename_i f x
          simp only [List.mem_cons, List.not_mem_nil, or_false] at hx
          have pf := field_plain h.tree ⟨h.fields _ hf.1, hf.2⟩
          have hg := h.kept.trans hg'
          rcases hx with rfl | rfl | rfl
          · exact absurd (.inl rfl) (hno f)
          · refine .inl (foldlM_none _ f (fun b => ?_) _ _ ((hmem f).2 ⟨h.fields _ hf.1, hf.2⟩))
            have ep : join (join root f) "metrics" = root ++ [f, "metrics"] := by rw [join_plain pf, join_plain (by decide)]; simp
            unfold loadM1
            rw [ep, if_pos (by simp [FS.exists_, hg])]
            have : s.fs.readFile (root ++ [f, "metrics"]) = none := by simp [FS.readFile, hg]
            rw [this]; rfl
          · refine .inr (foldlM_none _ f (fun b => ?_) _ _ ((hmem f).2 ⟨h.fields _ hf.1, hf.2⟩))
            have ep : join (join root f) "nfterm" = root ++ [f, "nfterm"] := by rw [join_plain pf, join_plain (by decide)]; simp
            unfold loadN1
            rw [ep, if_pos (by simp [FS.exists_, hg])]
            have : s.fs.readFile (root ++ [f, "nfterm"]) = none := by simp [FS.readFile, hg]
            rw [this]; rfl
        | metrics hf hg' hn =>
          rename_i f buf
          refine .inl (foldlM_none _ f (fun b => ?_) _ _ ((hmem f).2 ⟨h.fields _ hf.1, hf.2⟩))
          have pf := field_plain h.tree ⟨h.fields _ hf.1, hf.2⟩
          have ep : join (join root f) "metrics" = root ++ [f, "metrics"] := by rw [join_plain pf, join_plain (by decide)]; simp
          have hg := h.kept.trans hg'
          unfold loadM1
          rw [ep, if_pos (by simp [FS.exists_, hg])]
          have : s.fs.readFile (root ++ [f, "metrics"]) = some buf := by simp [FS.readFile, hg]
          rw [this, Option.bind_some, none_of_iff (fun e => decodeMetrics_iff) hn]
          rfl
        | counts hf hg' hn =>
          rename_i f buf
          refine .inr (foldlM_none _ f (fun b => ?_) _ _ ((hmem f).2 ⟨h.fields _ hf.1, hf.2⟩))
          have pf := field_plain h.tree ⟨h.fields _ hf.1, hf.2⟩
          have ep : join (join root f) "nfterm" = root ++ [f, "nfterm"] := by rw [join_plain pf, join_plain (by decide)]; simp
          have hg := h.kept.trans hg'
          unfold loadN1
          rw [ep, if_pos (by simp [FS.exists_, hg])]
          have : s.fs.readFile (root ++ [f, "nfterm"]) = some buf := by simp [FS.readFile, hg]
          rw [this, Option.bind_some, none_of_iff (fun e => decodeCounts_iff) hn]
          rfl
      split at he
      · rename_i h1 h2
        rcases hfail with hf | hf
        · rw [h1] at hf; cases hf
        · rw [h2] at hf; cases hf
      · cases he; exact hkill
    · cases he

/-- **C128, damage is noticed.** If a file that counts cannot be read — the index of a field, one of its fragments, its metrics or its term counts; cut short, changed, foreign, or a directory — or a file stands in the place of the directory of the fragments, then no process ever opens the store,
however many try and wherever they are killed, and the file stays as it is. -/
theorem c128_damage_is_noticed {t s : BDisk} {p : Path} {as : List CDisk.Act} (h0 : Tree root t.fs) (hd : Damaged t.fs root p) (h : t.kill.run z root as = some s) : s.d.up = false ∧ s.fs.get? p = t.fs.get? p := by
  have : ∀ (as : List CDisk.Act) (u : BDisk), Shut t.fs root p u → u.run z root as = some s → Shut t.fs root p s := by
    intro as
    induction as with
    | nil => intro u hu hr; cases hr; exact hu
    | cons a as ih =>
      intro u hu hr
      obtain ⟨v, h1, h2⟩ := brun_cons.1 hr
      exact ih v (exec_shut hd hu h1) h2
  have hs := this as t.kill (Shut.kill h0 rfl fun f hf => hf) h
  exact ⟨hs.up, hs.kept⟩

/-- … so a store that is open was opened from files that could all be read. -/
theorem c128_all_read {t s : BDisk} {p : Path} {as : List CDisk.Act} (h0 : Tree root t.fs) (h : t.kill.run z root as = some s) (hu : s.d.up = true) : ¬ Damaged t.fs root p := fun hd => by
  rw [(c128_damage_is_noticed h0 hd h).1] at hu; cases hu

/-! ### a folder without damage opens -/

/-- some steps of the merge lead from `s` to `s'`. -/
def Leads (root : Path) (z : Bytes → Bytes) (s s' : BDisk) : Prop := ∃ k, s.run z root (List.replicate k (.ix .merge)) = some s'

theorem Leads.refl (s : BDisk) : Leads root z s s := ⟨0, rfl⟩

theorem Leads.trans {s s' s'' : BDisk} (h : Leads root z s s') (h' : Leads root z s' s'') : Leads root z s s'' := by
  obtain ⟨k, h⟩ := h
  obtain ⟨k', h'⟩ := h'
  exact ⟨k + k', by rw [← List.replicate_append_replicate]; exact brun_append.2 ⟨s', h, h'⟩⟩

theorem Leads.step {s s' : BDisk} (hop : s.d.ix.proc = .opening) (h : s.mergeStep z root = some s') : Leads root z s s' := by
  refine ⟨1, brun_one.2 ?_⟩
  simp only [BDisk.exec]
  rw [if_pos (.inr hop)]
  exact h

/-- the store is being opened, and this is how far it is. -/
structure Going (fs0 : FS) (root : Path) (z : Bytes → Bytes) (s : BDisk) (m : MergePc) (sv : Option (SaveCall × SavePc)) : Prop where
  proc : s.d.ix.proc = .opening
  up : s.d.up = false
  merger : s.d.ix.merger = m
  save : s.saveI = sv
  at_ : At fs0 root z s.fs m sv

section live
variable {fs0 : FS}

theorem Going.next (h0 : Tree root fs0) (hz : ∀ d, Gz.Written d (z d)) {s s' : BDisk} {m m' : MergePc} {sv sv' : Option (SaveCall × SavePc)} (h : Going fs0 root z s m sv) (he : s.mergeStep z root = some s')
    (hp : s'.d.ix.proc = .opening) (hm : s'.d.ix.merger = m') (hv : s'.saveI = sv') : Going fs0 root z s' m' sv' ∧ Leads root z s s' := by
  have hat : At fs0 root z s.fs s.d.ix.merger s.saveI := by rw [h.merger, h.save]; exact h.at_
  obtain ⟨q1, q2⟩ := merge_inv h0 hz h.proc h.up hat he
  refine ⟨⟨hp, q1, hm, hv, ?_⟩, Leads.step h.proc he⟩
  rcases q2 with q | ⟨-, q⟩ | ⟨q, -⟩
  · rw [hp] at q; cases q
  · rw [hm, hv] at q; exact q
  · rw [hp] at q; cases q

theorem mem_field (h0 : Tree root fs0) {done rest : List String} {f : String} (e : fs0.listDirectories root = done ++ f :: rest) : IsField fs0 root f :=
  (FS.mem_listDirectories fs0 h0.wf root f).1 (by rw [e]; simp)

theorem begin_field (h0 : Tree root fs0) (hz : ∀ d, Gz.Written d (z d)) (ht : Tidy fs0 root) (hnd : ∀ p, ¬ Damaged fs0 root p) {s : BDisk} {f : String} {rest : List String} {acc : GoMap String Postings}
    (h : Going fs0 root z s (.atField (f :: rest) acc) none) : ∃ s' files td, Going fs0 root z s' (.reading f rest [] files td acc) none ∧ Leads root z s s' := by
  obtain ⟨done, e, hb, hd, hn⟩ := h.at_
  have hf := mem_field h0 e
  have pf := field_plain h0 hf
  have hnodup := listDirectories_nodup h0.wf root
  have hfd : f ∉ done := by
    rw [e] at hnodup
    intro hc
    exact (List.nodup_append.1 hnodup).2.2 f hc f (by simp) rfl
  have etemp : BDisk.tempDir root f = root ++ [f, "temp"] := by unfold BDisk.tempDir; rw [join_plain pf, join_plain (by decide)]; simp
  have eidx : join (join root f) "index" = root ++ [f, "index"] := by rw [join_plain pf, join_plain (by decide)]; simp
  have hsame : ∀ p, Mine root f p → s.fs.get? p = fs0.get? p := fun p hp => hb.same p fun g hg hp' => hfd (Mine.eq hp hp' ▸ hg)
  have hmk : ∃ fs', s.fs.mkdirAll (root ++ [f, "temp"]) = some fs' := by
    have e1 : root ++ [f, "temp"] = (root ++ [f]) ++ ["temp"] := by simp
    rw [e1, FS.mkdirAll_snoc, mkdir_field (hb.above h0) (hb.dirs _ hf.1), Option.bind_some, FS.mkdir1]
    have hg : s.fs.get? (root ++ [f] ++ ["temp"]) = fs0.get? (root ++ [f, "temp"]) := by rw [← e1]; exact hsame _ (.inl rfl)
    rw [hg]
    split
    · exact ⟨_, rfl⟩
    · rename_i c hc; exact absurd (.temp hf hc) (hnd _)
    · exact ⟨_, rfl⟩
  obtain ⟨fs', hmk⟩ := hmk
  have hidx : fs'.get? (root ++ [f, "index"]) = fs0.get? (root ++ [f, "index"]) := by
    rw [← hsame _ (.inr (.inl ⟨"index", by simp, rfl⟩))]
    rcases mkdir_temp (hb.above h0) (hb.dirs _ hf.1) hmk with ⟨rfl, -⟩ | ⟨rfl, -⟩
    · rfl
    · rw [get?_set, if_neg (by simp)]
  have hload : ∃ td, loadTerms fs' root f = some (some td) := by
    unfold loadTerms
    rw [eidx]
    cases hg : fs0.get? (root ++ [f, "index"]) with
    | none => rw [if_neg (by simp [FS.exists_, hidx, hg])]; exact ⟨_, rfl⟩
    | some x =>
      cases x with
      | dir => exact absurd (.directory hf (by simp) hg) (hnd _)
      | file buf =>
        have hrd : fs'.readFile (root ++ [f, "index"]) = some buf := by simp [FS.readFile, hidx, hg]
        rw [if_pos (by simp [FS.exists_, hidx, hg]), hrd]
        simp only
        cases hdec : decodeIndex buf with
        | some m => exact ⟨_, rfl⟩
        | none => exact absurd (Damaged.part hf (.index hg) fun m hm => by rw [decodeIndex_iff.2 hm] at hdec; cases hdec) (hnd _)
  obtain ⟨td, hload⟩ := hload
  have hstep : s.mergeStep z root = some ({ s with fs := fs' }.setMerger (.reading f rest [] (fs'.listFiles (tempDir root f)) td acc)) := by
    unfold BDisk.mergeStep
    rw [h.merger]
    simp only [etemp, hmk, hload]
  obtain ⟨g1, g2⟩ := h.next h0 hz hstep h.proc rfl h.save
  exact ⟨_, _, td, g1, g2⟩

theorem read_fragments (h0 : Tree root fs0) (hz : ∀ d, Gz.Written d (z d)) (hnd : ∀ p, ¬ Damaged fs0 root p) {f : String} {rest : List String} {acc : GoMap String Postings} : ∀ (files seen : List String) (td : Postings) (s : BDisk),
    Going fs0 root z s (.reading f rest seen files td acc) none → ∃ s' seen' td', Going fs0 root z s' (.reading f rest seen' [] td' acc) none ∧ Leads root z s s'
  | [], seen, td, s, h => ⟨s, seen, td, h, Leads.refl s⟩
  | n :: files, seen, td, s, h => by
    obtain ⟨done, e, hb, hd, hn, hfr, hnn, hall, hg, -⟩ := h.at_
    have hf := mem_field h0 e
    have pf := field_plain h0 hf
    obtain ⟨c, hc⟩ := (hall n).1 (by simp)
    have pn : PlainName n := h0.names _ _ hc n (by simp)
    have epath : join (BDisk.tempDir root f) n = root ++ [f, "temp", n] := by unfold BDisk.tempDir; rw [join_plain pf, join_plain (s := "temp") (by decide), join_plain pn]; simp
    have hrd : s.fs.readFile (root ++ [f, "temp", n]) = some c := by unfold FS.readFile; rw [hfr, hc]
    cases hdec : decodeIndex c with
    | none => exact absurd (Damaged.part hf (.fragment hc) fun m hm => by rw [decodeIndex_iff.2 hm] at hdec; cases hdec) (hnd _)
    | some m =>
      have hstep : s.mergeStep z root = some (s.setMerger (.reading f rest (seen ++ [n]) files (IxState.mergeInto td m) acc)) := by
        unfold BDisk.mergeStep
        rw [h.merger]
        simp only [epath, hrd, hdec]
      obtain ⟨g1, g2⟩ := h.next h0 hz hstep h.proc rfl h.save
      obtain ⟨s', seen', td', g3, g4⟩ := read_fragments h0 hz hnd files _ _ _ g1
      exact ⟨s', seen', td', g3, g2.trans g4⟩

theorem save_index (h0 : Tree root fs0) (hz : ∀ d, Gz.Written d (z d)) {f : String} {rest seen : List String} {td : Postings} {acc : GoMap String Postings} {c : SaveCall} {fs1 : FS} (hr : c.Ready fs1) :
    ∀ (k : Nat) (pc : SavePc) (s : BDisk), SaveCall.left c pc = k → SaveCall.At c fs1 (s.fs, pc) → Going fs0 root z s (.reading f rest seen [] td acc) (some (c, pc)) →
      ∃ s', Going fs0 root z s' (.reading f rest seen [] td acc) (some (c, .done)) ∧ Leads root z s s' := by
  intro k
  induction k with
  | zero =>
    intro pc s hk hat h
    cases pc with
    | done => exact ⟨s, h, Leads.refl s⟩
    | failed => exact hat.elim
    | _ => simp [SaveCall.left] at hk
  | succ k ih =>
    intro pc s hk hat h
    obtain ⟨⟨fs', pc'⟩, h1, h2⟩ := SaveCall.step_left hr (s.fs, pc) hat (by show 0 < SaveCall.left c pc; omega)
    have hat' := SaveCall.step_at hr _ _ hat h1
    have hnf : pc' ≠ .failed := by rintro rfl; exact hat'
    have hnd : pc ≠ .done := by rintro rfl; simp [SaveCall.left] at hk
    have hstep : s.mergeStep z root = some { s with fs := fs', saveI := some (c, pc') } := by
      unfold BDisk.mergeStep
      rw [h.merger, h.save]
      cases pc with
      | done => exact absurd rfl hnd
      | _ => cases pc' <;> simp_all
    obtain ⟨g1, g2⟩ := h.next h0 hz hstep h.proc h.merger rfl
    obtain ⟨s', g3, g4⟩ := ih pc' _ (by have : SaveCall.left c pc' + 1 = SaveCall.left c pc := h2; omega) hat' g1
    exact ⟨s', g3, g2.trans g4⟩

theorem delete_fragments (h0 : Tree root fs0) (hz : ∀ d, Gz.Written d (z d)) {f : String} {rest : List String} {acc : GoMap String Postings} : ∀ (ns : List String) (s : BDisk),
    Going fs0 root z s (.deleting f rest ns acc) none → ∃ s', Going fs0 root z s' (.atField rest acc) none ∧ Leads root z s s'
  | [], s, h => by
    have hstep : s.mergeStep z root = some (s.setMerger (.atField rest acc)) := by unfold BDisk.mergeStep; rw [h.merger]
    obtain ⟨g1, g2⟩ := h.next h0 hz hstep h.proc rfl h.save
    exact ⟨_, g1, g2⟩
  | n :: ns, s, h => by
    obtain ⟨done, td, m, buf, e, -, -, -, -, -, -, -, -, -, -, hfr⟩ := h.at_
    have pf := field_plain h0 (mem_field h0 e)
    obtain ⟨c, hc, pn⟩ := (hfr n).1 (by simp)
    have epath : join (BDisk.tempDir root f) n = root ++ [f, "temp", n] := by unfold BDisk.tempDir; rw [join_plain pf, join_plain (s := "temp") (by decide), join_plain pn]; simp
    have hrm : s.fs.remove (root ++ [f, "temp", n]) = some (GoMap.del s.fs (root ++ [f, "temp", n])) := by unfold FS.remove; rw [hc]
    have hstep : s.mergeStep z root = some ({ s with fs := GoMap.del s.fs (root ++ [f, "temp", n]) }.setMerger (.deleting f rest ns acc)) := by
      unfold BDisk.mergeStep
      rw [h.merger]
      simp only [epath, hrm]
    obtain ⟨g1, g2⟩ := h.next h0 hz hstep h.proc rfl h.save
    obtain ⟨s', g3, g4⟩ := delete_fragments h0 hz ns _ g1
    exact ⟨s', g3, g2.trans g4⟩

theorem one_field (h0 : Tree root fs0) (hz : ∀ d, Gz.Written d (z d)) (ht : Tidy fs0 root) (hnd : ∀ p, ¬ Damaged fs0 root p) (hh : Small fs0 root) {s : BDisk} {f : String} {rest : List String} {acc : GoMap String Postings}
    (h : Going fs0 root z s (.atField (f :: rest) acc) none) : ∃ s' acc', Going fs0 root z s' (.atField rest acc') none ∧ Leads root z s s' := by
  obtain ⟨s1, files, td0, g1, l1⟩ := begin_field h0 hz ht hnd h
  obtain ⟨s2, seen, td, g2, l2⟩ := read_fragments h0 hz hnd files [] td0 s1 g1
  obtain ⟨done, e, hb, hd, hn, hfr, hnn, hall, hg, hnames⟩ := g2.at_
  have hf := mem_field h0 e
  have pf := field_plain h0 hf
  rw [List.append_nil] at hall
  cases hser : FBB.serializeIndex td with
  | none =>
    have hsm := hh f td hg.neat.1 hg.neat.2 (fun t ht => ⟨hf, hg.terms t ht⟩) fun e he d hd => (hg.says hf hall e.1 d).1 ((hasPosting_iff _ _ _).2 ⟨e.2, GoMap.get?_of_mem hg.neat.1 he, hd⟩)
    obtain ⟨buf, h1, -⟩ := FBB.fit (FBB.index_back td hg.neat.1 hg.neat.2) hsm
    rw [hser] at h1; cases h1
  | some raw =>
    have hstep : s2.mergeStep z root = some { s2 with fs := s2.fs, saveI := some (⟨root ++ [f], "index", z raw⟩, .start) } := by
      unfold BDisk.mergeStep
      rw [g2.merger, g2.save]
      simp only [hser, join_plain pf, mkdir_field (hb.above h0) (hb.dirs _ hf.1)]
    obtain ⟨g3, l3⟩ := g2.next h0 hz hstep g2.proc g2.merger rfl
    have hready : SaveCall.Ready ⟨root ++ [f], "index", z raw⟩ s2.fs := by
      have hx : ∀ x ∈ ["index", "index_temp", "index_old"], s2.fs.get? (root ++ [f, x]) ≠ some .dir := fun x hx => by
        rw [hnames x hx]
        rcases List.mem_cons.1 hx with rfl | hx
        · exact fun hc => hnd _ (.directory hf (by simp) hc)
        · exact ht f hf x hx
      refine ⟨by show PlainName "index"; decide, ?_, ?_, ?_, ?_⟩
      · show s2.fs.isDir (root ++ [f]) = true
        simp [FS.isDir, hb.dirs _ hf.1]
      · simpa using hx "index" (by simp)
      · simpa using hx "index_temp" (by simp)
      · simpa using hx "index_old" (by simp)
    obtain ⟨s4, g4, l4⟩ := save_index h0 hz hready _ .start { s2 with fs := s2.fs, saveI := some (⟨root ++ [f], "index", z raw⟩, .start) } rfl rfl g3
    have hstep5 : s4.mergeStep z root = some { s4.setMerger (.deleting f rest seen (acc.set f td)) with saveI := none } := by
      unfold BDisk.mergeStep
      rw [g4.merger, g4.save]
    obtain ⟨g5, l5⟩ := g4.next h0 hz hstep5 g4.proc rfl rfl
    obtain ⟨s6, g6, l6⟩ := delete_fragments h0 hz seen _ g5
    exact ⟨s6, acc.set f td, g6, l1.trans (l2.trans (l3.trans (l4.trans (l5.trans l6))))⟩

theorem all_fields (h0 : Tree root fs0) (hz : ∀ d, Gz.Written d (z d)) (ht : Tidy fs0 root) (hnd : ∀ p, ¬ Damaged fs0 root p) (hh : Small fs0 root) : ∀ (rest : List String) (acc : GoMap String Postings) (s : BDisk),
    Going fs0 root z s (.atField rest acc) none → ∃ s', s'.d.ix.proc = .up ∧ s'.d.up = false ∧ (∃ l, Base fs0 root l s'.fs) ∧ Leads root z s s'
  | [], acc, s, h => by
    obtain ⟨done, -, hb, -, -⟩ := h.at_
    have hstep : s.mergeStep z root = some { s with d := { s.d with ix := { s.d.ix with proc := .up, mem := acc, merger := .idle } } } := by
      unfold BDisk.mergeStep
      rw [h.merger]
      simp only [h.proc, if_true]
    exact ⟨{ s with d := { s.d with ix := { s.d.ix with proc := .up, mem := acc, merger := .idle } } }, rfl, h.up, ⟨done, hb⟩, Leads.step h.proc hstep⟩
  | f :: rest, acc, s, h => by
    obtain ⟨s1, acc', g1, l1⟩ := one_field h0 hz ht hnd hh h
    obtain ⟨s', q1, q2, q3, q4⟩ := all_fields h0 hz ht hnd hh rest acc' s1 g1
    exact ⟨s', q1, q2, q3, l1.trans q4⟩

theorem foldlM_some {α β : Type} (g : β → α → Option β) : ∀ (l : List α) (b : β), (∀ x ∈ l, ∀ b, ∃ b', g b x = some b') → ∃ r, l.foldlM g b = some r
  | [], b, _ => ⟨b, rfl⟩
  | x :: l, b, h => by
    obtain ⟨b', hb⟩ := h x (by simp) b
    obtain ⟨r, hr⟩ := foldlM_some g l b' fun y hy => h y (List.mem_cons_of_mem _ hy)
    exact ⟨r, by rw [List.foldlM_cons, hb]; exact hr⟩

/-- **C128, what is not damaged opens.** A folder in which every file that counts can be read, and in which no directory stands in the way of the two files that the index is written with, opens, after finitely many steps — unless the index of some field is too large (1 GiB) to be written again. -/
theorem c128_opens {t : BDisk} (h0 : Tree root t.fs) (hz : ∀ d, Gz.Written d (z d)) (ht : Tidy t.fs root) (hnd : ∀ p, ¬ Damaged t.fs root p) (hh : Small t.fs root) (n : Int) (progs : List (List DOp)) :
    ∃ k s, t.kill.run z root (opening k n progs) = some s ∧ s.d.up = true := by
  have hopen : t.kill.exec z root .open_ = some { t.kill with d := { t.kill.d with ix := { t.kill.d.ix with proc := .opening, panicked := false, merger := .atField (t.fs.listDirectories root) [] } } } := by
    simp only [BDisk.exec]
    exact if_pos rfl
  have hgo : Going t.fs root z { t.kill with d := { t.kill.d with ix := { t.kill.d.ix with proc := .opening, panicked := false, merger := .atField (t.fs.listDirectories root) [] } } } (.atField (t.fs.listDirectories root) []) none :=
    ⟨rfl, rfl, rfl, rfl, [], rfl, ⟨h0.wf, fun _ h => h, fun _ _ => rfl⟩, (fun g hg => by cases hg), fun _ _ => rfl⟩
  obtain ⟨s1, q1, q2, ⟨l, hb⟩, k, hk⟩ := all_fields h0 hz ht hnd hh _ _ _ hgo
  have hmem := fun g => (FS.mem_listDirectories s1.fs hb.wf root g).trans (base_field hb g)
  have hM : ∃ r, loadM s1.fs root = some r := by
    refine foldlM_some _ _ _ fun g hg b => ?_
    have hf := (hmem g).1 hg
    have ep : join (join root g) "metrics" = root ++ [g, "metrics"] := by rw [join_plain (field_plain h0 hf), join_plain (by decide)]; simp
    have eg := base_other hb g "metrics" (by decide)
    unfold loadM1
    rw [ep]
    cases hq : t.fs.get? (root ++ [g, "metrics"]) with
    | none => rw [if_neg (by simp [FS.exists_, eg, hq])]; exact ⟨_, rfl⟩
    | some x =>
      cases x with
      | dir => exact absurd (.directory hf (by simp) hq) (hnd _)
      | file buf =>
        have hrd : s1.fs.readFile (root ++ [g, "metrics"]) = some buf := by simp [FS.readFile, eg, hq]
        rw [if_pos (by simp [FS.exists_, eg, hq]), hrd, Option.bind_some]
        cases hdec : decodeMetrics buf with
        | some m => exact ⟨_, rfl⟩
        | none => exact absurd (Damaged.metrics hf hq fun m hm => by rw [decodeMetrics_iff.2 hm] at hdec; cases hdec) (hnd _)
  have hN : ∃ r, loadN s1.fs root = some r := by
    refine foldlM_some _ _ _ fun g hg b => ?_
    have hf := (hmem g).1 hg
    have ep : join (join root g) "nfterm" = root ++ [g, "nfterm"] := by rw [join_plain (field_plain h0 hf), join_plain (by decide)]; simp
    have eg := base_other hb g "nfterm" (by decide)
    unfold loadN1
    rw [ep]
    cases hq : t.fs.get? (root ++ [g, "nfterm"]) with
    | none => rw [if_neg (by simp [FS.exists_, eg, hq])]; exact ⟨_, rfl⟩
    | some x =>
      cases x with
      | dir => exact absurd (.directory hf (by simp) hq) (hnd _)
      | file buf =>
        have hrd : s1.fs.readFile (root ++ [g, "nfterm"]) = some buf := by simp [FS.readFile, eg, hq]
        rw [if_pos (by simp [FS.exists_, eg, hq]), hrd, Option.bind_some]
        cases hdec : decodeCounts buf with
        | some m => exact ⟨_, rfl⟩
        | none => exact absurd (Damaged.counts hf hq fun m hm => by rw [decodeCounts_iff.2 hm] at hdec; cases hdec) (hnd _)
  obtain ⟨⟨size, length⟩, hM⟩ := hM
  obtain ⟨nft, hN⟩ := hN
  have hlast : s1.exec z root (.openRest n progs) = some { s1 with d := { s1.d with up := true, mem := CMem.loaded s1.d.ix.mem size length nft, cache := LRU.new n, clients := progs.map fun p => { todo := p } } } := by
    simp only [BDisk.exec]
    rw [if_pos ⟨q1, q2⟩, hM, hN]
  exact ⟨k, _, brun_cons.2 ⟨_, hopen, brun_append.2 ⟨s1, hk, brun_one.2 hlast⟩⟩, rfl⟩

end live
end Opening
end Goir
