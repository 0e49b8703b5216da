import Verif.Props.OpeningRead
/-!
# Processes that only read, killed at any moment: the invariant
-/
namespace Goir
open GoMap Spec Spec.Opening

namespace Opening
open BDisk

variable {root : Path} {z : Bytes → Bytes} {fs0 : FS}

/-- two folders say the same of field `g`. -/
def SaysSame (fs0 : FS) (root : Path) (fs : FS) (g : String) : Prop := ∀ t d, Says fs root g t d ↔ Says fs0 root g t d

/-- the file that a SecureSaveFile replaces, which was `o` at its start. -/
def SaveIdx (c : SaveCall) (o : Option Node) (fs : FS) : SavePc → Prop
  | .start => fs.get? (c.path ++ [c.name]) = o
  | .writing _ => fs.get? (c.path ++ [c.name]) = o
  | .written => fs.get? (c.path ++ [c.name]) = o
  | .moved => fs.get? (c.path ++ [c.name]) = none
  | .installed => fs.get? (c.path ++ [c.name]) = some (.file c.buf)
  | .done => fs.get? (c.path ++ [c.name]) = some (.file c.buf)
  | .failed => False

theorem SaveIdx.step {c : SaveCall} {o : Option Node} {fs fs' : FS} {pc pc' : SavePc} (hn : PlainName c.name) (hd : fs.get? c.path = some .dir) (hv : Saving c fs fs pc) (h : SaveIdx c o fs pc)
    (hs : c.step (fs, pc) = some (fs', pc')) : (pc' ≠ .failed ∧ SaveIdx c o fs' pc') ∨ (pc' = .failed ∧ fs' = fs ∧ pc ≠ .moved) := by
  have e1 := SaveCall.cur_ne_tmp hn
  have e2 := SaveCall.cur_ne_old hn
  have e3 := SaveCall.tmp_ne_old hn
  have c1 := SaveCall.cur_eq hn
  have c2 := SaveCall.tmp_eq hn
  have c3 := SaveCall.old_eq hn
  rw [c1, c2] at e1
  rw [c1, c3] at e2
  rw [c2, c3] at e3
  unfold SaveCall.step at hs
  rw [c1, c2, c3] at hs
  cases pc with
  | start =>
    simp only [FS.create] at hs
    split at hs
    · rename_i fs1 hc
      split at hc
      · cases hc; cases hs
        refine .inl ⟨by simp, ?_⟩
        show GoMap.get? _ _ = _
        rw [get?_set, if_neg e1.symm]; exact h
      · cases hc
    · cases hs; exact .inr ⟨rfl, rfl, by simp⟩
  | writing n =>
    simp only at hs
    split at hs
    · cases hs
      refine .inl ⟨by simp, ?_⟩
      show GoMap.get? _ _ = _
      rw [FS.writeTo, get?_set, if_neg e1.symm]; exact h
    · cases hs; exact .inl ⟨by simp, h⟩
  | written =>
    simp only at hs
    split at hs
    · split at hs
      · rename_i fs1 hc
        unfold FS.rename at hc
        split at hc
        · split at hc
          · cases hc; cases hs
            refine .inl ⟨by simp, ?_⟩
            show GoMap.get? _ _ = _
            rw [get?_set, if_neg e2.symm, get?_del, if_pos rfl]
          · cases hc
        · cases hc
      · cases hs; exact .inr ⟨rfl, rfl, by simp⟩
    · rename_i hx
      cases hs
      refine .inl ⟨by simp, ?_⟩
      show GoMap.get? _ _ = _
      simpa [FS.exists_] using hx
  | moved =>
    have ht : fs.get? (c.path ++ [c.name ++ "_temp"]) = some (.file c.buf) := hv.2
    have hc : fs.get? (c.path ++ [c.name]) = none := h
    have hr : fs.rename (c.path ++ [c.name ++ "_temp"]) (c.path ++ [c.name]) = some (GoMap.set (GoMap.del fs (c.path ++ [c.name ++ "_temp"])) (c.path ++ [c.name]) (.file c.buf)) := by
      unfold FS.rename
      rw [ht]
      simp only
      rw [if_pos ⟨by simp [FS.isDir, hd], by rw [hc]; simp, by simp⟩]
    simp only [hr] at hs
    cases hs
    refine .inl ⟨by simp, ?_⟩
    show GoMap.get? _ _ = _
    rw [get?_set, if_pos rfl]
  | installed =>
    simp only at hs
    split at hs
    · split at hs
      · rename_i fs1 hc
        unfold FS.remove at hc
        split at hc
        · cases hc; cases hs
          refine .inl ⟨by simp, ?_⟩
          show GoMap.get? _ _ = _
          rw [get?_del, if_neg e2.symm]; exact h
        · cases hc
      · cases hs; exact .inr ⟨rfl, rfl, by simp⟩
    · cases hs; exact .inl ⟨by simp, h⟩
  | done => cases hs
  | failed => cases hs

/-- where the folder stands in a merge, `fs0` being the folder at the start and `had` the fields that have had an index file. -/
def KeepMerge (fs0 : FS) (root : Path) (z : Bytes → Bytes) (had : String → Prop) (fs : FS) : MergePc → Option (SaveCall × SavePc) → Prop
  | .reading f _ seen files td _, sv => (∀ g, g ≠ f → SaysSame fs0 root fs g) ∧ ∃ fs1 : FS, SaysSame fs0 root fs1 f ∧ IsField fs1 root f ∧ (∀ n, fs.get? (root ++ [f, "temp", n]) = fs1.get? (root ++ [f, "temp", n])) ∧
      (∀ n, n ∈ seen ++ files ↔ ∃ c, fs1.get? (root ++ [f, "temp", n]) = some (.file c)) ∧ Gathered fs1 root f seen td ∧ (fs1.get? (root ++ [f, "index"]) = none ∨ had f) ∧
      match sv with
      | none => fs.get? (root ++ [f, "index"]) = fs1.get? (root ++ [f, "index"])
      | some (c, pc) => (∃ raw, FBB.serializeIndex td = some raw ∧ c = ⟨root ++ [f], "index", z raw⟩) ∧ SaveIdx c (fs1.get? (root ++ [f, "index"])) fs pc
  | .deleting f _ _ _, _ => (∀ g, g ≠ f → SaysSame fs0 root fs g) ∧ ∃ buf m, fs.get? (root ++ [f, "index"]) = some (.file buf) ∧ HoldsIndex buf m ∧ (∀ t d, hasPosting m t d = true ↔ Says fs0 root f t d) ∧
      ∀ n b m' t d, fs.get? (root ++ [f, "temp", n]) = some (.file b) → HoldsIndex b m' → hasPosting m' t d = true → Says fs0 root f t d
  | _, _ => ∀ g, SaysSame fs0 root fs g

theorem says_parts {fs fs' : FS} {f : String} (h0 : IsField fs' root f ↔ IsField fs root f) (hi : fs'.get? (root ++ [f, "index"]) = fs.get? (root ++ [f, "index"]))
    (hf : ∀ n, fs'.get? (root ++ [f, "temp", n]) = fs.get? (root ++ [f, "temp", n])) (t d : String) : Says fs' root f t d ↔ Says fs root f t d := by
  unfold Says
  rw [h0]
  refine and_congr_right fun _ => ⟨?_, ?_⟩ <;> rintro ⟨p, buf, m, ds, hp, hr⟩
  · refine ⟨p, buf, m, ds, ?_, hr⟩
    cases hp with
    | index h => exact .index (hi ▸ h)
    | fragment h => exact .fragment (hf _ ▸ h)
  · refine ⟨p, buf, m, ds, ?_, hr⟩
    cases hp with
    | index h => exact .index (hi.trans h)
    | fragment h => exact .fragment ((hf _).trans h)

theorem holdsIndex_inj {buf : Bytes} {m m' : GoMap String (GoMap String Bool)} (h : HoldsIndex buf m) (h' : HoldsIndex buf m') : m = m' := by
  have a := decodeIndex_iff.2 h
  rw [decodeIndex_iff.2 h'] at a
  cases a; rfl

/-- an index file that holds everything, and fragments that hold nothing else. -/
theorem same_of_index {fs : FS} {f : String} {buf : Bytes} {m : GoMap String (GoMap String Bool)} (hf : IsField fs root f) (hi : fs.get? (root ++ [f, "index"]) = some (.file buf)) (hh : HoldsIndex buf m)
    (hm : ∀ t d, hasPosting m t d = true ↔ Says fs0 root f t d)
    (hfr : ∀ n b m' t d, fs.get? (root ++ [f, "temp", n]) = some (.file b) → HoldsIndex b m' → hasPosting m' t d = true → Says fs0 root f t d) : SaysSame fs0 root fs f := fun t d => by
  constructor
  · rintro ⟨-, p, b, m', ds, hp, h2, h4, h5⟩
    have h3 := (hasPosting_iff m' t d).2 ⟨ds, h4, h5⟩
    cases hp with
    | index h1 =>
      rw [hi] at h1; cases h1
      rw [← holdsIndex_inj hh h2] at h3
      exact (hm t d).1 h3
    | fragment h1 => exact hfr _ _ _ t d h1 h2 h3
  · intro h
    obtain ⟨ds, h4, h5⟩ := (hasPosting_iff m t d).1 ((hm t d).2 h)
    exact ⟨hf, _, buf, m, ds, .index hi, hh, h4, h5⟩

/-- nothing but the files of indices has changed, and these as the merge has changed them. -/
structure KeptFolder (fs0 : FS) (root : Path) (z : Bytes → Bytes) (had : String → Prop) (fs : FS) (m : MergePc) (sv : Option (SaveCall × SavePc)) : Prop where
  rest : ∀ p, (∀ f, ¬ Mine root f p) → fs.get? p = fs0.get? p
  keep : KeepMerge fs0 root z had fs m sv

theorem KeptFolder.field {had : String → Prop} {fs : FS} {m : MergePc} {sv : Option (SaveCall × SavePc)} (h : KeptFolder fs0 root z had fs m sv) (g : String) : IsField fs root g ↔ IsField fs0 root g := by
  unfold IsField; rw [h.rest _ fun f => Mine.not_field]

/-- a merge that is writing the index of field `f`. -/
theorem written_holds (hz : ∀ d, Gz.Written d (z d)) {td : Postings} {raw : Bytes} (hn : Neat td) (hs : FBB.serializeIndex td = some raw) : ∃ m, HoldsIndex (z raw) m ∧ ∀ t d, hasPosting m t d = hasPosting td t d :=
  ⟨_, ⟨raw, (Gzip.c117_reads _ _).1 (Gzip.c117_round_trip (hz raw)), FBB.c111_index_bytes td hn.1 hn.2 hs⟩, hasPosting_written hn⟩

/-- between the two renames of the index of field `f`. -/
def RenameGap (m : MergePc) (sv : Option (SaveCall × SavePc)) (f : String) : Prop := ∃ rest seen files td acc c, m = .reading f rest seen files td acc ∧ sv = some (c, .moved)

/-- while the index of a field is being merged: outside of the gap, the folder says what it said. -/
theorem KeptFolder.same (hz : ∀ d, Gz.Written d (z d)) {had : String → Prop} {fs : FS} {m : MergePc} {sv : Option (SaveCall × SavePc)} (h : KeptFolder fs0 root z had fs m sv) (ha : Aside root fs m sv) {g : String}
    (hg : ¬ RenameGap m sv g ∨ ¬ had g) : SaysSame fs0 root fs g := by
  have hfield := h.field
  have hk := h.keep
  cases m with
  | idle => exact hk g
  | atField rest acc => exact hk g
  | dead => exact hk g
  | saving => exact ha.elim
  | deleting f rest ns acc =>
    obtain ⟨ho, buf, m, h1, h2, h3, h4⟩ := hk
    by_cases e : g = f
    · subst e
      cases sv with
      | some x => exact ha.elim
      | none => exact same_of_index ⟨ha.1.2.2, ha.1.2.1⟩ h1 h2 h3 h4
    · exact ho g e
  | reading f rest seen files td acc =>
    obtain ⟨ho, fs1, hs1, hf1, hfr, hall, hgt, hhad, hsv⟩ := hk
    by_cases e : g = f
    · subst e
      have hf : IsField fs root g := ⟨ha.1.2.2, ha.1.2.1⟩
      have plain : fs.get? (root ++ [g, "index"]) = fs1.get? (root ++ [g, "index"]) → SaysSame fs0 root fs g := fun hi t d => (says_parts (by simp only [hf, hf1]) hi hfr t d).trans (hs1 t d)
      cases sv with
      | none => exact plain hsv
      | some x =>
        obtain ⟨c, pc⟩ := x
        obtain ⟨hfl, -, hnow⟩ := ha.2.2.2
        subst hfl
        obtain ⟨⟨raw, hser, rfl⟩, hi⟩ := hsv
        have e1 : root ++ [g] ++ ["index"] = root ++ [g, "index"] := by simp
        have done : fs.get? (root ++ [g, "index"]) = some (.file (z raw)) → SaysSame fs0 root fs g := fun hi => by
          obtain ⟨m, h2, h3⟩ := written_holds hz hgt.neat hser
          rw [List.append_nil] at hall
          have hm : ∀ t d, hasPosting m t d = true ↔ Says fs0 root g t d := fun t d => by rw [h3]; exact (hgt.says hf1 hall t d).trans (hs1 t d)
          refine same_of_index hf hi h2 hm fun n b m' t d hn hb hp => ?_
          obtain ⟨ds, h4, h5⟩ := (hasPosting_iff m' t d).1 hp
          exact (hs1 t d).1 ⟨hf1, _, b, m', ds, .fragment (hfr n ▸ hn), hb, h4, h5⟩
        cases pc with
        | start => exact plain (by have q : fs.get? (root ++ [g] ++ ["index"]) = fs1.get? (root ++ [g, "index"]) := hi; rwa [e1] at q)
        | writing k => exact plain (by have q : fs.get? (root ++ [g] ++ ["index"]) = fs1.get? (root ++ [g, "index"]) := hi; rwa [e1] at q)
        | written => exact plain (by have q : fs.get? (root ++ [g] ++ ["index"]) = fs1.get? (root ++ [g, "index"]) := hi; rwa [e1] at q)
        | moved =>
          rcases hg with hg | hg'
          · exact absurd ⟨_, _, _, _, _, _, rfl, rfl⟩ hg
          · have hn : fs.get? (root ++ [g, "index"]) = none := by rw [← e1]; exact hi
            exact plain (by rw [hn]; exact (hhad.resolve_right hg').symm)
        | installed => exact done (by rw [← e1]; exact hi)
        | done => exact done (by rw [← e1]; exact hi)
        | failed => exact hi.elim
    · exact ho g e

/-- a step that leaves the files that make up the indices as they are. -/
theorem SaysSame.of {fs fs' : FS} {g : String} (h : SaysSame fs0 root fs g) (h0 : IsField fs' root g ↔ IsField fs root g) (hi : fs'.get? (root ++ [g, "index"]) = fs.get? (root ++ [g, "index"]))
    (hf : ∀ n, fs'.get? (root ++ [g, "temp", n]) = fs.get? (root ++ [g, "temp", n])) : SaysSame fs0 root fs' g := fun t d => (says_parts h0 hi hf t d).trans (h t d)

/-- a change of what belongs to field `f` leaves the other fields. -/
theorem SaysSame.other {fs fs' : FS} {f g : String} (h : SaysSame fs0 root fs g) (hne : g ≠ f) (hs : ∀ p, ¬ Mine root f p → fs'.get? p = fs.get? p) : SaysSame fs0 root fs' g :=
  h.of (by unfold IsField; rw [hs _ Mine.not_field]) (hs _ fun hp => hne (Mine.eq (f := g) (.inr (.inl ⟨"index", by simp, rfl⟩)) hp)) fun n => hs _ fun hp => hne (Mine.eq (f := g) (.inr (.inr ⟨n, rfl⟩)) hp)

theorem KeptFolder.rest_of {fs fs' : FS} {f : String} (h : ∀ p, (∀ f, ¬ Mine root f p) → fs.get? p = fs0.get? p) (hs : ∀ p, ¬ Mine root f p → fs'.get? p = fs.get? p) (p : Path) (hp : ∀ f, ¬ Mine root f p) : fs'.get? p = fs0.get? p :=
  (hs p (hp f)).trans (h p hp)

/-- a state is as it should be. -/
def KeptState (fs0 : FS) (root : Path) (z : Bytes → Bytes) (had : String → Prop) (s : BDisk) : Prop := KeptFolder fs0 root z had s.fs s.d.ix.merger s.saveI

/-- the process ends. -/
theorem KeptState.kill {had : String → Prop} {s : BDisk} (h : ∀ p, (∀ f, ¬ Mine root f p) → s.fs.get? p = fs0.get? p) (hs : ∀ g, SaysSame fs0 root s.fs g) : KeptState fs0 root z had s.kill := ⟨h, hs⟩

theorem KeptState.loadError {had : String → Prop} {s : BDisk} (h : ∀ p, (∀ f, ¬ Mine root f p) → s.fs.get? p = fs0.get? p) (hs : ∀ g, SaysSame fs0 root s.fs g) : KeptState fs0 root z had s.loadError := by
  unfold BDisk.loadError
  split
  · exact KeptState.kill h hs
  · exact ⟨h, hs⟩

theorem mem_fragFiles {fs : FS} {f : String} (wf : fs.WF) (n : String) : n ∈ fs.listFiles (root ++ [f, "temp"]) ↔ ∃ c, fs.get? (root ++ [f, "temp", n]) = some (.file c) := by
  rw [FS.mem_listFiles fs wf]
  have : root ++ [f, "temp"] ++ [n] = root ++ [f, "temp", n] := by simp
  rw [this]

/-- one step of the merge. -/
theorem merge_kept (hz : ∀ d, Gz.Written d (z d)) {fsd : FS} {had : String → Prop} {s s' : BDisk} (hc : Calm fsd root s) (h : KeptState fs0 root z had s) (hh : ∀ g b, s.fs.get? (root ++ [g, "index"]) = some (.file b) → had g)
    (he : s.mergeStep z root = some s') : KeptState fs0 root z had s' := by
  have hsame : ∀ g, ¬ RenameGap s.d.ix.merger s.saveI g → SaysSame fs0 root s.fs g := fun g hg => KeptFolder.same hz h hc.folder.aside (.inl hg)
  have hfield := KeptFolder.field h
  obtain ⟨ht, -, ha⟩ := hc.folder
  have hrest := KeptFolder.rest h
  have hk := KeptFolder.keep h
  have pi : PlainName "index" := by decide
  have pt : PlainName "temp" := by decide
  unfold BDisk.mergeStep at he
  split at he
  · rename_i acc hm
    rw [hm] at hk
    split at he
    · cases he; exact ⟨hrest, hk⟩
    · cases he; exact ⟨hrest, hk⟩
  · -- a field is begun
    rename_i f rest acc hm
    rw [hm] at ha hk
    cases hsv : s.saveI with
    | some x => rw [hsv] at ha; exact ha.elim
    | none =>
    rw [hsv] at ha
    have hall : ∀ g ∈ f :: rest, Fld root s.fs g := ha
    obtain ⟨pf, fnd, hfd⟩ := hall f (by simp)
    have hk : ∀ g, SaysSame fs0 root s.fs g := hk
    have etemp : BDisk.tempDir root f = root ++ [f, "temp"] := by unfold BDisk.tempDir; rw [join_plain pf, join_plain pt]; simp
    have eidx : join (join root f) "index" = root ++ [f, "index"] := by rw [join_plain pf, join_plain pi]; simp
    split at he
    · cases he; exact KeptState.kill hrest hk
    · rename_i fs' hmk
      rw [etemp] at hmk
      have hfs : fs'.WF ∧ (∀ p, p ≠ root ++ [f, "temp"] → fs'.get? p = s.fs.get? p) := by
        rcases mkdir_temp ht.root hfd hmk with ⟨rfl, -⟩ | ⟨rfl, hnone⟩
        · exact ⟨ht.wf, fun _ _ => rfl⟩
        · exact ⟨ht.wf.set _ _, fun p hp => by rw [get?_set, if_neg (Ne.symm hp)]⟩
      obtain ⟨w1, w3⟩ := hfs
      have hrest' := KeptFolder.rest_of (f := f) hrest fun p hp => w3 p fun e => hp (.inl e)
      have hk' : ∀ g, SaysSame fs0 root fs' g := fun g => (hk g).of (by unfold IsField; rw [w3 _ (by simp)]) (w3 _ (by simp)) fun n => w3 _ (by simp)
      split at he
      · cases he; exact KeptState.kill (s := { s with fs := fs' }) hrest' hk'
      · cases he; exact KeptState.loadError (s := { s with fs := fs' }) hrest' hk'
      · rename_i td hload
        cases he
        refine ⟨hrest', ?_⟩
        show KeepMerge fs0 root z had fs' (.reading f rest [] (fs'.listFiles (BDisk.tempDir root f)) td acc) s.saveI
        rw [hsv, etemp]
        have hf' : IsField fs' root f := ⟨(w3 _ (by simp)).trans hfd, fnd⟩
        have finish : Gathered fs' root f [] td → (fs'.get? (root ++ [f, "index"]) = none ∨ had f) → KeepMerge fs0 root z had fs' (.reading f rest [] (fs'.listFiles (root ++ [f, "temp"])) td acc) none := fun hg hd =>
          ⟨fun g _ => hk' g, fs', hk' f, hf', fun _ => rfl, fun n => by rw [List.nil_append]; exact mem_fragFiles w1 n, hg, hd, rfl⟩
        unfold BDisk.loadTerms at hload
        rw [eidx] at hload
        split at hload
        · split at hload
          · cases hload
          · rename_i buf hrd
            obtain ⟨m, hm1, hm2⟩ := Option.map_eq_some_iff.1 hload
            cases hm2
            have hhx := decodeIndex_iff.1 hm1
            have hget : fs'.get? (root ++ [f, "index"]) = some (.file buf) := by
              unfold FS.readFile at hrd
              split at hrd
              · rename_i c hc; cases hrd; exact hc
              · cases hrd
            refine finish ⟨Neat.loadPostings, fun t d => ?_, fun b hb => ?_, (fun n hn => by cases hn), fun t ht => ⟨_, buf, m, .index hget, hhx, mem_keys_loadPostings ht⟩⟩ (.inr (hh f buf ((w3 _ (by simp)).symm.trans hget)))
            · rw [hasPosting_loadPostings m (holdsIndex_neat hhx).1]
              constructor
              · exact fun h => .inl ⟨buf, m, hget, hhx, h⟩
              · rintro (⟨b, m', h1, h2, h3⟩ | ⟨n, hn, -⟩)
                · rw [hget] at h1; cases h1
                  rw [holdsIndex_inj hhx h2]; exact h3
                · cases hn
            · rw [hget] at hb; cases hb; exact ⟨m, hhx⟩
        · rename_i hex
          cases hload
          have hnone : fs'.get? (root ++ [f, "index"]) = none := by simpa [FS.exists_] using hex
          refine finish ⟨neat_nil, fun t d => ?_, fun b hb => ?_, (fun n hn => by cases hn), fun t ht => by cases ht⟩ (.inl hnone)
          · rw [hasPosting_nil]
            constructor
            · intro h; cases h
            · rintro (⟨b, m', h1, -⟩ | ⟨n, hn, -⟩)
              · rw [hnone] at h1; cases h1
              · cases hn
          · rw [hnone] at hb; cases hb
  · -- a fragment is read
    rename_i f rest seen n ns td acc hm
    rw [hm] at ha hk
    obtain ⟨hfld, -, hpn, hsa⟩ := ha
    have hsn : s.saveI = none := by
      cases hs : s.saveI with
      | none => rfl
      | some x => rw [hs] at hsa; exact absurd hsa.1 (by simp)
    have hS : ∀ g, SaysSame fs0 root s.fs g := fun g => hsame g fun ⟨_, _, _, _, _, _, _, e⟩ => by rw [hsn] at e; cases e
    obtain ⟨ho, fs1, hs1, hf1, hfr, hall, hg, hhad, hsv⟩ := hk
    rw [hsn] at hsv
    have pn : PlainName n := hpn n (by simp)
    have epath : join (BDisk.tempDir root f) n = root ++ [f, "temp", n] := by unfold BDisk.tempDir; rw [join_plain hfld.1, join_plain pt, join_plain pn]; simp
    obtain ⟨c, hc1⟩ := (hall n).1 (by simp)
    have hrd : s.fs.readFile (root ++ [f, "temp", n]) = some c := by unfold FS.readFile; rw [hfr, hc1]
    rw [epath, hrd] at he
    simp only at he
    split at he
    · cases he; exact KeptState.kill hrest hS
    · rename_i m hdec
      cases he
      have hhx := decodeIndex_iff.1 hdec
      refine ⟨hrest, ?_⟩
      show KeepMerge fs0 root z had s.fs (.reading f rest (seen ++ [n]) ns (IxState.mergeInto td m) acc) s.saveI
      rw [hsn]
      refine ⟨ho, fs1, hs1, hf1, hfr, fun k => by rw [← hall k]; simp, ⟨hg.neat.mergeInto, fun t d => ?_, hg.index, fun k hk => ?_, fun t ht => ?_⟩, hhad, hsv⟩
      · rw [hasPosting_mergeInto td m (holdsIndex_neat hhx).1, Bool.or_eq_true, hg.has]
        constructor
        · rintro ((h | ⟨k, hk, h⟩) | h)
          · exact .inl h
          · exact .inr ⟨k, by simp [hk], h⟩
          · exact .inr ⟨n, by simp, c, m, hc1, hhx, h⟩
        · rintro (h | ⟨k, hk, b, m', h1, h2, h3⟩)
          · exact .inl (.inl h)
          · rcases List.mem_append.1 hk with hk | hk
            · exact .inl (.inr ⟨k, hk, b, m', h1, h2, h3⟩)
            · rw [List.mem_singleton] at hk; subst hk
              rw [hc1] at h1; cases h1
              rw [holdsIndex_inj hhx h2]; exact .inr h3
      · rcases List.mem_append.1 hk with hk | hk
        · exact hg.seen k hk
        · rw [List.mem_singleton] at hk; subst hk; exact ⟨c, m, hc1, hhx⟩
      · rcases mem_keys_mergeInto ht with ht | ht
        · exact hg.terms t ht
        · exact ⟨_, c, m, .fragment hc1, hhx, ht⟩
  · -- the merged index is to be written
    rename_i f rest seen td acc hm hsn
    rw [hm] at ha hk
    obtain ⟨hfld, -, hpn, -⟩ := ha
    have hS : ∀ g, SaysSame fs0 root s.fs g := fun g => hsame g fun ⟨_, _, _, _, _, _, _, e⟩ => by rw [hsn] at e; cases e
    obtain ⟨ho, fs1, hs1, hf1, hfr, hall, hg, hhad, hsv⟩ := hk
    rw [hsn] at hsv
    split at he
    · cases he; exact KeptState.kill hrest hS
    · rename_i raw hser
      rw [join_plain hfld.1, mkdir_field ht.root hfld.2.2] at he
      cases he
      refine ⟨hrest, ?_⟩
      show KeepMerge fs0 root z had s.fs s.d.ix.merger _
      rw [hm]
      refine ⟨ho, fs1, hs1, hf1, hfr, hall, hg, hhad, ⟨raw, hser, rfl⟩, ?_⟩
      have e1 : root ++ [f] ++ ["index"] = root ++ [f, "index"] := by simp
      show s.fs.get? (root ++ [f] ++ ["index"]) = _
      rw [e1]; exact hsv
  · -- the merged index has been written
    rename_i f rest seen td acc c hm hsn
    have hS : ∀ g, SaysSame fs0 root s.fs g := fun g => hsame g fun ⟨_, _, _, _, _, _, _, e⟩ => by rw [hsn] at e; cases e
    rw [hm] at ha hk
    obtain ⟨hfld, -, hpn, -⟩ := ha
    obtain ⟨ho, fs1, hs1, hf1, hfr, hall, hg, hhad, hsv⟩ := hk
    rw [hsn] at hsv
    obtain ⟨⟨raw, hser, rfl⟩, hi⟩ := hsv
    rw [List.append_nil] at hall
    cases he
    refine ⟨hrest, ?_⟩
    show KeepMerge fs0 root z had s.fs (.deleting f rest seen (acc.set f td)) none
    obtain ⟨m, h2, h3⟩ := written_holds hz hg.neat hser
    refine ⟨ho, z raw, m, ?_, h2, fun t d => ?_, fun n b m' t d hn hb hp => ?_⟩
    · have q : s.fs.get? (root ++ [f] ++ ["index"]) = some (.file (z raw)) := hi
      simpa using q
    · rw [h3]; exact (hg.says hf1 hall t d).trans (hs1 t d)
    · obtain ⟨ds, h4, h5⟩ := (hasPosting_iff m' t d).1 hp
      exact (hs1 t d).1 ⟨hf1, _, b, m', ds, .fragment (hfr n ▸ hn), hb, h4, h5⟩
  · -- the merged index is being written
    rename_i f rest seen td acc c pc hpc hm hsn
    rw [hm] at ha hk
    rw [hsn] at ha
    obtain ⟨hfld, hrst, hpn, hfl, -, hnow⟩ := ha
    obtain ⟨ho, fs1, hs1, hf1, hfr, hall, hg, hhad, hsv⟩ := hk
    rw [hsn] at hsv
    obtain ⟨⟨raw, hser, rfl⟩, hi⟩ := hsv
    split at he
    · cases he
    · rename_i fs' hst
      cases he
      rcases SaveIdx.step pi hfld.2.2 hnow hi hst with ⟨h1, -⟩ | ⟨-, rfl, h2⟩
      · exact absurd rfl h1
      · refine KeptState.loadError (s := s) hrest fun g => hsame g ?_
        rintro ⟨_, _, _, _, _, _, -, e⟩
        rw [hsn] at e; cases e; exact h2 rfl
    · rename_i fs' pc' hnf hst
      cases he
      obtain ⟨fr, sv⟩ := Saving.self pi hnow hst
      rcases SaveIdx.step pi hfld.2.2 hnow hi hst with ⟨-, h1⟩ | ⟨h1, -⟩
      · refine ⟨KeptFolder.rest_of (f := f) hrest (Frame.mine fr), ?_⟩
        show KeepMerge fs0 root z had fs' s.d.ix.merger _
        rw [hm]
        exact ⟨fun g hg => (ho g hg).other hg (Frame.mine fr), fs1, hs1, hf1, fun n => (Frame.frag fr f n).trans (hfr n), hall, hg, hhad, ⟨raw, hser, rfl⟩, h1⟩
      · exact (hnf h1).elim
  · -- the fragments are gone
    rename_i f rest acc hm
    have hS : ∀ g, SaysSame fs0 root s.fs g := fun g => hsame g fun ⟨_, _, _, _, _, _, e, _⟩ => by rw [hm] at e; cases e
    rw [hm] at ha
    cases hsv : s.saveI with
    | some x => rw [hsv] at ha; exact ha.elim
    | none =>
    cases he
    refine ⟨hrest, ?_⟩
    show KeepMerge fs0 root z had s.fs (.atField rest acc) s.saveI
    exact hS
  · -- a fragment is removed
    rename_i f rest n ns acc hm
    have hS : ∀ g, SaysSame fs0 root s.fs g := fun g => hsame g fun ⟨_, _, _, _, _, _, e, _⟩ => by rw [hm] at e; cases e
    rw [hm] at ha hk
    cases hsv : s.saveI with
    | some x => rw [hsv] at ha; exact ha.elim
    | none =>
    rw [hsv] at ha
    obtain ⟨hfld, hrst, hn⟩ := ha
    obtain ⟨ho, buf, m, h1, h2, h3, h4⟩ := hk
    have pn := hn n (by simp)
    have epath : join (BDisk.tempDir root f) n = root ++ [f, "temp", n] := by unfold BDisk.tempDir; rw [join_plain hfld.1, join_plain pt, join_plain pn]; simp
    rw [epath] at he
    split at he
    · cases he; exact KeptState.loadError hrest hS
    · rename_i fs' hrm
      cases he
      unfold FS.remove at hrm
      split at hrm
      · cases hrm
        have hmine : ∀ p, ¬ Mine root f p → GoMap.get? (GoMap.del s.fs (root ++ [f, "temp", n])) p = s.fs.get? p := fun p hp => by rw [get?_del, if_neg fun e => hp (.inr (.inr ⟨n, e.symm⟩))]
        refine ⟨KeptFolder.rest_of (f := f) hrest hmine, ?_⟩
        show KeepMerge fs0 root z had (GoMap.del s.fs (root ++ [f, "temp", n])) (.deleting f rest ns acc) s.saveI
        refine ⟨fun g hg => (ho g hg).other hg hmine, buf, m, ?_, h2, h3, fun k b m' t d hk => ?_⟩
        · rw [get?_del, if_neg (by simp)]; exact h1
        · have hk : GoMap.get? (GoMap.del s.fs (root ++ [f, "temp", n])) (root ++ [f, "temp", k]) = some (.file b) := hk
          rw [get?_del] at hk
          split at hk
          · cases hk
          · exact h4 k b m' t d hk
      · cases hrm
  · cases he

end Opening
end Goir
