import Verif.Lemmas.OpeningKill
/-!
# C130: processes that only read, killed at any moment
-/
namespace Goir
open GoMap Spec Spec.Opening

namespace Opening
open BDisk

variable {root : Path} {z : Bytes → Bytes} {fs0 : FS}

/-- in the gap there is no index file. -/
theorem RenameGap.absent {had : String → Prop} {fs : FS} {m : MergePc} {sv : Option (SaveCall × SavePc)} (h : KeptFolder fs0 root z had fs m sv) {g : String} (hg : RenameGap m sv g) : fs.get? (root ++ [g, "index"]) = none := by
  obtain ⟨rest, seen, files, td, acc, c, rfl, rfl⟩ := hg
  obtain ⟨-, fs1, -, -, -, -, -, -, ⟨raw, -, rfl⟩, hi⟩ := h.keep
  have q : fs.get? (root ++ [g] ++ ["index"]) = none := hi
  simpa using q

theorem KeptState.killed (hz : ∀ d, Gz.Written d (z d)) {fsd : FS} {had : String → Prop} {s : BDisk} (hc : Calm fsd root s) (h : KeptState fs0 root z had s) (hd : ∀ g, had g → ∃ b, s.fs.get? (root ++ [g, "index"]) = some (.file b)) :
    KeptState fs0 root z had s.kill := by
  refine KeptState.kill h.rest fun g => KeptFolder.same hz h hc.folder.aside ?_
  by_cases hg : RenameGap s.d.ix.merger s.saveI g
  · refine .inr fun hh => ?_
    obtain ⟨b, hb⟩ := hd g hh
    rw [RenameGap.absent h hg] at hb; cases hb
  · exact .inl hg

theorem KeptState.of {had : String → Prop} {s s' : BDisk} (h : KeptState fs0 root z had s) (e1 : s'.fs = s.fs) (e2 : s'.d.ix.merger = s.d.ix.merger) (e3 : s'.saveI = s.saveI) : KeptState fs0 root z had s' := by
  unfold KeptState; rw [e1, e2, e3]; exact h

/-- a client that reads does not concern itself with the index files. -/
theorem client_ix {s : BDisk} {d' : CDisk} {i k : Nat} (h : Calm fs0 root s) (he : s.d.client i k = some d') : d'.ix = s.d.ix := by
  have hr := h.readers
  unfold CDisk.client at he
  split at he
  · cases he
  · rename_i cl hcl
    have hcm := hr.clients cl (List.mem_of_getElem? hcl)
    split at he
    · rename_i hcur
      split at he
      · cases he
      · rename_i op rest htodo
        obtain ⟨_, _, e⟩ := hcm.todo (.write op) (by rw [htodo]; simp)
        cases e
      · cases he; rfl
    · rename_i op loc hcur
      obtain ⟨_, _, _, e, -⟩ := hcm.cur _ hcur
      cases e
    · rename_i ids name loc hcur
      split at he
      · cases he
      · rename_i s1 loc1 hx
        cases he
        unfold CDisk.rexec at hx
        split at hx <;> (try split at hx) <;> (try split at hx) <;> first | (cases hx; done) | (cases hx; rfl) | (obtain ⟨c, h1, h2⟩ := Option.map_eq_some_iff.1 hx; cases h2; rfl)
      · rename_i s1 out1 hx
        cases he
        unfold CDisk.rexec at hx
        split at hx <;> (try split at hx) <;> first | (cases hx; done) | (cases hx; rfl) | (obtain ⟨c, h1, h2⟩ := Option.map_eq_some_iff.1 hx; cases h2)

/-- the process has ended, and the files are as before. -/
def EndedAs (s s' : BDisk) : Prop := s'.fs = s.fs ∧ s'.d.ix.merger = .idle ∧ s'.saveI = none ∧ s'.d.ix.proc = .down

/-- every action. -/
theorem exec_kept_or (hz : ∀ d, Gz.Written d (z d)) {fsd : FS} {had : String → Prop} {s s' : BDisk} {act : CDisk.Act} (hc : Calm fsd root s) (h : KeptState fs0 root z had s) (ho : OnlyReads act)
    (hh : ∀ g b, s.fs.get? (root ++ [g, "index"]) = some (.file b) → had g) (he : s.exec z root act = some s') : KeptState fs0 root z had s' ∨ EndedAs s s' := by
  have hcur : ∀ i c, s.d.curOf i = some c → ∃ ids name loc, c = .read ids name loc := fun i c hc' => by
    unfold CDisk.curOf at hc'
    obtain ⟨cl, hcl, hcur⟩ := Option.bind_eq_some_iff.1 hc'
    obtain ⟨ids, name, loc, e, -⟩ := (hc.readers.clients cl (List.mem_of_getElem? hcl)).cur _ hcur
    exact ⟨ids, name, loc, e⟩
  cases act with
  | client i k =>
    simp only [BDisk.exec] at he
    split at he
    · rename_i ids name id todo out hc'
      split at he
      · cases he
        unfold BDisk.readDoc
        split
        · rename_i hl
          exact .inr ⟨rfl, rfl, rfl, rfl⟩
        · exact .inl <| h.of rfl rfl rfl
        · exact .inl <| h.of rfl rfl rfl
      · cases he
    · rename_i hn
      obtain ⟨d', h1, rfl⟩ := Option.map_eq_some_iff.1 he
      simp only [CDisk.exec] at h1
      split at h1
      · exact .inl <| h.of rfl (by rw [show ({ s with d := d' } : BDisk).d.ix = s.d.ix from client_ix hc h1]) rfl
      · cases h1
  | recvM i =>
    obtain ⟨d', h1, -⟩ := Option.map_eq_some_iff.1 he
    simp only [CDisk.exec] at h1
    split at h1
    · rename_i hc'; obtain ⟨_, _, _, e⟩ := hcur _ _ hc'; cases e
    · cases h1
  | recvN i =>
    obtain ⟨d', h1, -⟩ := Option.map_eq_some_iff.1 he
    simp only [CDisk.exec] at h1
    split at h1
    · rename_i hc'; obtain ⟨_, _, _, e⟩ := hcur _ _ hc'; cases e
    · cases h1
  | recvD i =>
    obtain ⟨d', h1, -⟩ := Option.map_eq_some_iff.1 he
    simp only [CDisk.exec] at h1
    split at h1
    · rename_i hc'; obtain ⟨_, _, _, e⟩ := hcur _ _ hc'; cases e
    · cases h1
  | tickM o =>
    obtain ⟨d', h1, rfl⟩ := Option.map_eq_some_iff.1 he
    simp only [CDisk.exec] at h1
    split at h1
    · obtain ⟨mx, h2, rfl⟩ := Option.map_eq_some_iff.1 h1
      exact .inl <| h.of rfl rfl rfl
    · cases h1
  | tickN o =>
    obtain ⟨d', h1, rfl⟩ := Option.map_eq_some_iff.1 he
    simp only [CDisk.exec] at h1
    split at h1
    · obtain ⟨mx, h2, rfl⟩ := Option.map_eq_some_iff.1 h1
      exact .inl <| h.of rfl rfl rfl
    · cases h1
  | tickD o =>
    obtain ⟨d', h1, rfl⟩ := Option.map_eq_some_iff.1 he
    simp only [CDisk.exec] at h1
    split at h1
    · obtain ⟨mx, h2, rfl⟩ := Option.map_eq_some_iff.1 h1
      exact .inl <| h.of rfl rfl rfl
    · cases h1
  | stepM =>
    simp only [BDisk.exec] at he
    obtain ⟨x, h1, h2⟩ := Option.map_eq_some_iff.1 he
    obtain rfl := flush_still hc.still.mp hc.still.ms h1
    cases h2
    exact .inl <| h.of rfl rfl rfl
  | stepN =>
    simp only [BDisk.exec] at he
    obtain ⟨x, h1, h2⟩ := Option.map_eq_some_iff.1 he
    obtain rfl := flush_still hc.still.np hc.still.ns h1
    cases h2
    exact .inl <| h.of rfl rfl rfl
  | stepD =>
    simp only [BDisk.exec] at he
    obtain ⟨x, h1, h2⟩ := Option.map_eq_some_iff.1 he
    obtain rfl := flush_still hc.still.dp hc.still.ds h1
    cases h2
    exact .inl <| h.of rfl rfl rfl
  | ix a =>
    simp only [BDisk.exec] at he
    split at he
    · cases a with
      | merge => exact .inl (merge_kept hz hc h hh he)
      | create name => rcases hc.still.iw with hw | hw <;> simp [BDisk.ixExec, BDisk.create, hw] at he
      | write => rcases hc.still.iw with hw | hw <;> simp [BDisk.ixExec, BDisk.write, hw] at he
      | startMerge =>
        simp only [BDisk.ixExec] at he
        split at he
        · rename_i hm
          cases he
          refine .inl ⟨h.rest, ?_⟩
          have hk := h.keep
          rw [hm.2] at hk
          exact hk
        · cases he
      | recv =>
        obtain ⟨d', h1, rfl⟩ := Option.map_eq_some_iff.1 he
        simp only [CDisk.exec] at h1
        split at h1
        · obtain ⟨ix, h2, -⟩ := Option.map_eq_some_iff.1 h1
          simp [IxState.exec, hc.still.chan] at h2
        · cases h1
      | tick o =>
        obtain ⟨d', h1, rfl⟩ := Option.map_eq_some_iff.1 he
        simp only [CDisk.exec] at h1
        split at h1
        · obtain ⟨ix, h2, h3⟩ := Option.map_eq_some_iff.1 h1
          simp only [IxState.exec] at h2
          split at h2
          · rename_i hm
            cases h2
            rw [if_neg (by rw [hm.1]; simp)] at h3
            subst h3
            exact .inl <| h.of rfl rfl rfl
          · cases h2
        · cases h1
      | flushed =>
        obtain ⟨d', h1, rfl⟩ := Option.map_eq_some_iff.1 he
        simp only [CDisk.exec] at h1
        split at h1
        · obtain ⟨ix, h2, h3⟩ := Option.map_eq_some_iff.1 h1
          simp only [IxState.exec] at h2
          split at h2
          · cases h2
            split at h3
            · subst h3
              exact .inl <| h.of rfl rfl rfl
            · subst h3
              exact .inl <| h.of rfl rfl rfl
          · cases h2
        · cases h1
      | _ => simp [BDisk.ixExec] at he
    · cases he
  | crash =>
    simp only [BDisk.exec] at he
    split at he
    · cases he
    · cases he
      exact .inr ⟨rfl, rfl, rfl, rfl⟩
  | open_ =>
    simp only [BDisk.exec] at he
    split at he
    · rename_i hdn
      cases he
      refine .inl ⟨h.rest, ?_⟩
      have hk := h.keep
      rw [hc.down hdn] at hk
      exact hk
    · cases he
  | openRest n progs =>
    simp only [BDisk.exec] at he
    split at he
    · split at he
      · cases he; exact .inl <| h.of rfl rfl rfl
      · cases he; exact .inr ⟨rfl, rfl, rfl, rfl⟩
    · cases he

theorem exec_kept (hz : ∀ d, Gz.Written d (z d)) {fsd : FS} {had : String → Prop} {s s' : BDisk} {act : CDisk.Act} (hc : Calm fsd root s) (h : KeptState fs0 root z had s) (ho : OnlyReads act)
    (hh : ∀ g b, s.fs.get? (root ++ [g, "index"]) = some (.file b) → had g) (he : s.exec z root act = some s')
    (hd : s'.d.ix.proc = .down → ∀ g, had g → ∃ b, s'.fs.get? (root ++ [g, "index"]) = some (.file b)) : KeptState fs0 root z had s' := by
  rcases exec_kept_or hz hc h ho hh he with h' | ⟨e1, e2, e3, e4⟩
  · exact h'
  · exact (KeptState.killed hz hc h (by rw [← e1]; exact hd e4)).of e1 e2 e3

theorem KeepMerge.mono {had had' : String → Prop} (hm : ∀ g, had g → had' g) {fs : FS} {m : MergePc} {sv : Option (SaveCall × SavePc)} (h : KeepMerge fs0 root z had fs m sv) : KeepMerge fs0 root z had' fs m sv := by
  cases m with
  | reading f rest seen files td acc =>
    obtain ⟨h1, fs1, h2, h3, h4, h5, h6, h7, h8⟩ := h
    exact ⟨h1, fs1, h2, h3, h4, h5, h6, h7.imp id (hm f), h8⟩
  | _ => exact h

/-- a folder says nothing that it did not say at first. -/
theorem KeptFolder.sub (hz : ∀ d, Gz.Written d (z d)) {had : String → Prop} {fs : FS} {m : MergePc} {sv : Option (SaveCall × SavePc)} (h : KeptFolder fs0 root z had fs m sv) (ha : Aside root fs m sv) {g t d : String}
    (hs : Says fs root g t d) : Says fs0 root g t d := by
  by_cases hg : RenameGap m sv g
  · have hn := RenameGap.absent h hg
    obtain ⟨rest, seen, files, td, acc, c, rfl, rfl⟩ := hg
    obtain ⟨-, fs1, hs1, hf1, hfr, -⟩ := h.keep
    obtain ⟨-, p, buf, m, ds, hp, hr⟩ := hs
    cases hp with
    | index h1 => rw [hn] at h1; cases h1
    | fragment h1 => exact (hs1 t d).1 ⟨hf1, _, buf, m, ds, .fragment (hfr _ ▸ h1), hr⟩
  · exact (KeptFolder.same hz h ha (.inl hg) t d).1 hs

/-- in the gap, the file `index_temp` holds all that the folder said of the field. -/
theorem RenameGap.holds (hz : ∀ d, Gz.Written d (z d)) {had : String → Prop} {fs : FS} {m : MergePc} {sv : Option (SaveCall × SavePc)} (h : KeptFolder fs0 root z had fs m sv) (ha : Aside root fs m sv) {g : String} (hg : RenameGap m sv g) :
    ∃ buf m, fs.get? (root ++ [g, "index_temp"]) = some (.file buf) ∧ HoldsIndex buf m ∧ ∀ t d, hasPosting m t d = true ↔ Says fs0 root g t d := by
  obtain ⟨rest, seen, files, td, acc, c, rfl, rfl⟩ := hg
  obtain ⟨-, fs1, hs1, hf1, hfr, hall, hgt, -, ⟨raw, hser, rfl⟩, -⟩ := h.keep
  obtain ⟨rfl, -, hnow⟩ := ha.2.2.2
  rw [List.append_nil] at hall
  obtain ⟨m, h2, h3⟩ := written_holds hz hgt.neat hser
  have q : fs.get? (root ++ [g] ++ ["index" ++ "_temp"]) = some (.file (z raw)) := hnow.2
  rw [show ("index" ++ "_temp" : String) = "index_temp" from by decide] at q
  exact ⟨z raw, m, by simpa using q, h2, fun t d => by rw [h3]; exact (hgt.says hf1 hall t d).trans (hs1 t d)⟩

/-! ### runs -/

/-- every field that had an index file at some moment of the run `as`, which ends in `s`, has one at its end. -/
def AllThere (z : Bytes → Bytes) (root : Path) (t : BDisk) (as : List CDisk.Act) (s : BDisk) : Prop :=
  ∀ (as0 as1 : List CDisk.Act) (s0 : BDisk) (f : String) (b : Bytes), as = as0 ++ as1 → t.kill.run z root as0 = some s0 → s0.fs.get? (root ++ [f, "index"]) = some (.file b) → ∃ b', s.fs.get? (root ++ [f, "index"]) = some (.file b')

/-- whenever in the run no process is running, no index file is missing. -/
def NoneMissing (z : Bytes → Bytes) (root : Path) (t : BDisk) (as : List CDisk.Act) : Prop :=
  ∀ (as1 as2 : List CDisk.Act) (s1 : BDisk), as = as1 ++ as2 → t.kill.run z root as1 = some s1 → s1.d.ix.proc = .down → AllThere z root t as1 s1

/-- field `g` has had an index file. -/
def HadIndex (z : Bytes → Bytes) (root : Path) (t : BDisk) (as : List CDisk.Act) (g : String) : Prop :=
  ∃ (as0 as1 : List CDisk.Act) (s0 : BDisk) (b : Bytes), as = as0 ++ as1 ∧ t.kill.run z root as0 = some s0 ∧ s0.fs.get? (root ++ [g, "index"]) = some (.file b)

theorem bdisk_run_snoc {t s : BDisk} {as : List CDisk.Act} {a : CDisk.Act} (h : t.run z root (as ++ [a]) = some s) : ∃ s1, t.run z root as = some s1 ∧ s1.exec z root a = some s := by
  unfold BDisk.run at h ⊢
  rw [List.foldlM_append] at h
  obtain ⟨s1, h1, h2⟩ := Option.bind_eq_some_iff.1 h
  refine ⟨s1, h1, ?_⟩
  rw [List.foldlM_cons] at h2
  obtain ⟨s2, h3, h4⟩ := Option.bind_eq_some_iff.1 h2
  cases h4; exact h3

theorem run_kept {t : BDisk} (h0 : Tree root t.fs) (hz : ∀ d, Gz.Written d (z d)) (as : List CDisk.Act) : ∀ {s : BDisk}, t.kill.run z root as = some s → (∀ a ∈ as, OnlyReads a) → NoneMissing z root t as →
    KeptState t.fs root z (HadIndex z root t as) s := by
  induction as using List.reverseRecOn with
  | nil =>
    intro s h _ _
    cases h
    exact ⟨fun _ _ => rfl, fun _ _ _ => Iff.rfl⟩
  | append_singleton as a ih =>
    intro s h ho hw
    obtain ⟨s1, h1, h2⟩ := bdisk_run_snoc h
    have hs1 := ih h1 (fun x hx => ho x (by simp [hx])) fun as1 as2 s2 e => hw as1 (as2 ++ [a]) s2 (by simp [e])
    have hc := run_calm h0 h1 fun x hx => ho x (by simp [hx])
    refine exec_kept hz hc ⟨hs1.rest, hs1.keep.mono fun g => ?_⟩ (ho a (by simp)) (fun g b hb => ⟨as, [a], s1, b, rfl, h1, hb⟩) h2 fun hdn g => ?_
    · rintro ⟨as0, as1, s0, b, rfl, hr⟩
      exact ⟨as0, as1 ++ [a], s0, b, by simp, hr⟩
    · rintro ⟨as0, as1, s0, b, e, hr, hb⟩
      exact hw (as ++ [a]) [] s (by simp) h hdn as0 as1 s0 g b e hr hb

/-- Any number of processes that only read, opened and killed at any byte: as long as no process ended while an index file was missing, the folder says of every field what it said at first; only while the merge of that field stands
between its two renames it does not, and then the file `index_temp` holds all of it. -/
theorem c130_kept_partial {t s : BDisk} {as : List CDisk.Act} (h0 : Tree root t.fs) (hz : ∀ d, Gz.Written d (z d)) (h : t.kill.run z root as = some s) (ho : ∀ a ∈ as, OnlyReads a) (hw : NoneMissing z root t as) (f : String) :
    (∀ term d, Says s.fs root f term d ↔ Says t.fs root f term d) ∨
    (s.fs.get? (root ++ [f, "index"]) = none ∧ HadIndex z root t as f ∧ ∃ buf m, s.fs.get? (root ++ [f, "index_temp"]) = some (.file buf) ∧ HoldsIndex buf m ∧ ∀ term d, hasPosting m term d = true ↔ Says t.fs root f term d) := by
  have hk := run_kept h0 hz as h ho hw
  have ha := (run_calm h0 h ho).folder.aside
  by_cases hg : RenameGap s.d.ix.merger s.saveI f
  · by_cases hh : HadIndex z root t as f
    · exact .inr ⟨RenameGap.absent hk hg, hh, RenameGap.holds hz hk ha hg⟩
    · exact .inl (KeptFolder.same hz hk ha (.inr hh))
  · exact .inl (KeptFolder.same hz hk ha (.inl hg))

/-- … so the next process, if the last one is killed when no index file is missing, answers for every field and every term what the folder said at first. -/
theorem c130_reopened_partial {t s s' : BDisk} {as : List CDisk.Act} {k : Nat} {n : Int} {progs : List (List DOp)} (h0 : Tree root t.fs) (hz : ∀ d, Gz.Written d (z d)) (h : t.kill.run z root as = some s) (ho : ∀ a ∈ as, OnlyReads a)
    (hw : NoneMissing z root t as) (hs : AllThere z root t as s) (h' : s.kill.run z root (opening k n progs) = some s') (hu : s'.d.up = true) (f term d : String) :
    GoSet.contains (s'.d.getDocuments f term).1 d = true ↔ Says t.fs root f term d := by
  rw [c128_documents (run_calm h0 h ho).folder.tree hz h' hu]
  rcases c130_kept_partial h0 hz h ho hw f with hk | ⟨hn, ⟨as0, as1, s0, b, e, hr, hb⟩, -⟩
  · exact hk term d
  · obtain ⟨b', hb'⟩ := hs as0 as1 s0 f b e hr hb
    rw [hn] at hb'; cases hb'

/-- whatever the moments of the kills: -/
theorem run_base {t : BDisk} (h0 : Tree root t.fs) (hz : ∀ d, Gz.Written d (z d)) (as : List CDisk.Act) : ∀ {s : BDisk}, t.kill.run z root as = some s → (∀ a ∈ as, OnlyReads a) →
    ∃ fs0 : FS, KeptState fs0 root z (fun _ => True) s ∧ (∀ g term d, Says fs0 root g term d → Says t.fs root g term d) ∧ ∀ p, (∀ f, ¬ Mine root f p) → fs0.get? p = t.fs.get? p := by
  induction as using List.reverseRecOn with
  | nil =>
    intro s h _
    cases h
    exact ⟨t.fs, ⟨fun _ _ => rfl, fun _ _ _ => Iff.rfl⟩, fun _ _ _ h => h, fun _ _ => rfl⟩
  | append_singleton as a ih =>
    intro s h ho
    obtain ⟨s1, h1, h2⟩ := bdisk_run_snoc h
    obtain ⟨fs0, k1, k2, k3⟩ := ih h1 (fun x hx => ho x (by simp [hx]))
    have hc := run_calm h0 h1 fun x hx => ho x (by simp [hx])
    rcases exec_kept_or hz hc k1 (ho a (by simp)) (fun _ _ _ => trivial) h2 with k | ⟨e1, e2, e3, e4⟩
    · exact ⟨fs0, k, k2, k3⟩
    · refine ⟨s.fs, ⟨fun _ _ => rfl, ?_⟩, fun g term d hg => k2 g term d (KeptFolder.sub hz k1 hc.folder.aside (by rw [← e1]; exact hg)), fun p hp => by rw [e1, k1.rest p hp, k3 p hp]⟩
      rw [e2, e3]
      exact fun _ _ _ => Iff.rfl

/-- the folder never says anything that it did not say at first. -/
theorem c130_nothing_new {t s : BDisk} {as : List CDisk.Act} (h0 : Tree root t.fs) (hz : ∀ d, Gz.Written d (z d)) (h : t.kill.run z root as = some s) (ho : ∀ a ∈ as, OnlyReads a) {f term d : String} (hs : Says s.fs root f term d) :
    Says t.fs root f term d := by
  obtain ⟨fs0, k1, k2, -⟩ := run_base h0 hz as h ho
  exact k2 _ _ _ (KeptFolder.sub hz k1 (run_calm h0 h ho).folder.aside hs)

/-- nothing but the index files and the fragments is touched: every other file is as it was. -/
theorem c130_untouched {t s : BDisk} {as : List CDisk.Act} (h0 : Tree root t.fs) (hz : ∀ d, Gz.Written d (z d)) (h : t.kill.run z root as = some s) (ho : ∀ a ∈ as, OnlyReads a) (p : Path)
    (hp : ∀ f x rest, p = root ++ f :: x :: rest → x ∉ ["temp", "index", "index_temp", "index_old"]) : s.fs.get? p = t.fs.get? p := by
  obtain ⟨fs0, k1, -, k3⟩ := run_base h0 hz as h ho
  have hm : ∀ f, ¬ Mine root f p := by
    rintro f (rfl | ⟨x, hx, rfl⟩ | ⟨n, rfl⟩)
    · exact hp f "temp" [] rfl (by simp)
    · refine hp f x [] rfl ?_
      simp only [List.mem_cons, List.not_mem_nil, or_false] at hx ⊢
      tauto
    · exact hp f "temp" [n] rfl (by simp)
  rw [k1.rest p hm, k3 p hm]

theorem holds_congr {fs fs' : FS} (h : ∀ p, (∀ f x rest, p = root ++ f :: x :: rest → x ∉ ["temp", "index", "index_temp", "index_old"]) → fs'.get? p = fs.get? p) :
    (∀ f, IsField fs' root f ↔ IsField fs root f) ∧ (∀ f x, x ∉ ["temp", "index", "index_temp", "index_old"] → fs'.get? (root ++ [f, x]) = fs.get? (root ++ [f, x])) ∧
    ∀ id, fs'.get? (root ++ ["docs", "metrics", id]) = fs.get? (root ++ ["docs", "metrics", id]) := by
  refine ⟨fun f => ?_, fun f x hx => h _ fun g y rest e => ?_, fun id => h _ fun g y rest e => ?_⟩
  · unfold IsField
    rw [h _ fun g y rest e => ?_]
    have := List.append_cancel_left e
    simp at this
  · have := List.append_cancel_left e
    simp only [List.cons.injEq] at this
    rw [← this.2.1]; exact hx
  · have := List.append_cancel_left e
    simp only [List.cons.injEq] at this
    rw [← this.2.1]; decide

/-- in particular the sizes, the lengths, the term counts and the documents. -/
theorem c130_numbers {t s : BDisk} {as : List CDisk.Act} (h0 : Tree root t.fs) (hz : ∀ d, Gz.Written d (z d)) (h : t.kill.run z root as = some s) (ho : ∀ a ∈ as, OnlyReads a) :
    (∀ f x y, Metrics s.fs root f x y ↔ Metrics t.fs root f x y) ∧ (∀ f m, Counts s.fs root f m ↔ Counts t.fs root f m) ∧
    (∀ id name fd, Stored s.fs root id name fd ↔ Stored t.fs root id name fd) ∧ ∀ id, DamagedDocument s.fs root id ↔ DamagedDocument t.fs root id := by
  obtain ⟨e1, e2, e3⟩ := holds_congr (root := root) (c130_untouched h0 hz h ho)
  refine ⟨fun f x y => ?_, fun f m => ?_, fun id name fd => ?_, fun id => ?_⟩
  · unfold Metrics
    simp only [e1, e2 _ "metrics" (by decide)]
  · unfold Counts
    simp only [e1, e2 _ "nfterm" (by decide)]
  · unfold Stored
    simp only [e3]
  · unfold DamagedDocument
    simp only [e3]

end Opening
end Goir
