import Verif.Lemmas.DiskBytesWriter
/-!
# The store with bytes follows the store with objects: the merge
-/
namespace Goir
open GoMap
open FRel (withDir)

section
variable {root : Path} {D : String → Prop} {s : BDisk} {a : CDisk}

theorem MgRel.none {fs : FS} {m am : MergePc} {sv : Option (SaveCall × SavePc)} (h : MgRel root fs m sv am) (hm : ∀ f rest seen td acc, m ≠ .reading f rest seen [] td acc) : sv = none ∧ am = m := by
  cases sv with
  | none => exact ⟨rfl, h⟩
  | some x =>
    obtain ⟨c, pc⟩ := x
    obtain ⟨f, rest, seen, td, acc, b, apc, h1, _⟩ := h
    exact absurd h1 (hm _ _ _ _ _)

theorem merge_exec {aix : IxState} (hg : a.up = true ∨ a.ix.proc = .opening) (he : a.ix.mergeStep = some aix) (hp : aix.proc ≠ .down) : a.run [.ix .merge] = some { a with ix := aix } :=
  run_one (ix_exec rfl hg he hp)

/-- the merge only changes its place. -/
theorem BRel.place (h : BRel root D s a) {m : MergePc} (hn : s.saveI = none) (hd : ∀ f ∈ IxState.remaining m, f ∈ a.ix.dirs.keys) :
    BRel root D (s.setMerger m) { a with ix := { a.ix with merger := m } } :=
  { h with
    merger := by
      show MgRel root s.fs m s.saveI m
      rw [hn]; rfl
    inDirs := hd }

/-- how much SecureSaveFile has to do until the store with objects makes a step. -/
def stutter : Option (SaveCall × SavePc) → Nat
  | some (c, .writing n) => c.buf.length - n + 1
  | _ => 0

/-- a step of SecureSaveFile that is none of the store with objects. -/
theorem save_stutter {ag : FB.Buf → Bytes → Prop} {fs fs' : FS} {c : SaveCall} {pc pc' : SavePc} {b : FB.Buf} {apc : SPc} (h : SaveRel ag fs c pc b apc) (h' : SaveRel ag fs' c pc' b apc)
    (hs : c.step (fs, pc) = some (fs', pc')) : stutter (some (c, pc')) < stutter (some (c, pc)) := by
  have h2 := h.2.2
  have h3 := h'.2.2
  cases pc with
  | start =>
    simp only [SaveCall.step] at hs
    split at hs <;> cases hs
    · simp only at h2 h3
      rw [h2] at h3
      have := h3.2.2
      split at this <;> cases this
    · exact h3.elim
  | writing n =>
    simp only [SaveCall.step] at hs
    split at hs <;> cases hs <;> simp only [stutter] <;> omega
  | written =>
    simp only at h2
    simp only [SaveCall.step] at hs
    repeat' split at hs
    all_goals cases hs
    · have := h3.2.2; rw [h2.2] at this; cases this
    · exact h3.elim
    · have := h3.2.2; rw [h2.2] at this; cases this
  | moved =>
    simp only at h2
    simp only [SaveCall.step] at hs
    split at hs <;> cases hs
    · have := h3.2; rw [h2.2.2] at this; cases this
    · exact h3.elim
  | installed =>
    simp only at h2
    simp only [SaveCall.step] at hs
    repeat' split at hs
    all_goals cases hs
    · have h3 : apc = .done := h3
      rw [h2.2] at h3; cases h3
    · exact h3.elim
    · have h3 : apc = .done := h3
      rw [h2.2] at h3; cases h3
  | done => cases hs
  | failed => exact h2.elim

/-- the step of the merge ends the process: the store with objects would panic, or the index is too large for its file. -/
def Fatal (s : BDisk) (a : CDisk) : Prop :=
  (∃ ix, a.ix.mergeStep = some ix ∧ ix.proc = .down) ∨ ∃ f rest seen td acc, s.d.ix.merger = .reading f rest seen [] td acc ∧ s.saveI = none ∧ FBB.serializeIndex td = none

/-- what one step of the merge is for the store with objects: nothing, a step of its merge, or the end of the process. -/
def BMerges (s s' : BDisk) (a : CDisk) (bs : List CDisk.Act) : Prop :=
  (bs = [] ∧ stutter s'.saveI < stutter s.saveI) ∨ bs = [.ix .merge] ∨ (bs = [.crash] ∧ s'.d.ix.proc = .down ∧ Fatal s a)

theorem BMerges.quiet {s s' : BDisk} {a : CDisk} {bs : List CDisk.Act} (h : BMerges s s' a bs) : Quiet bs := by
  rcases h with ⟨rfl, -⟩ | rfl | ⟨rfl, -⟩
  · exact fun _ h => by cases h
  · exact quiet_one fun _ _ e => by cases e
  · exact quiet_one fun _ _ e => by cases e

theorem kill_merges {s0 : BDisk} (h : BRel root D s a) (hp : a.ix.proc ≠ .down) (hf : Fatal s0 a) : ∃ bs a', a.run bs = some a' ∧ BRel root D s.kill a' ∧ BMerges s0 s.kill a bs :=
  ⟨_, _, run_one (crash_exec hp), kill_rel h.files h.earlier h.begun h.ihist h.uuids, .inr (.inr ⟨rfl, rfl, hf⟩)⟩

theorem merge_sim (h : BRel root D s a) (hi : AInv D a) (hD : Ids D) {z : Bytes → Bytes} (hz : ∀ d, Spec.Gz.Written d (z d)) (hg : s.d.up = true ∨ s.d.ix.proc = .opening) {s' : BDisk}
    (he : s.mergeStep z root = some s') : ∃ bs a', a.run bs = some a' ∧ BRel root D s' a' ∧ BMerges s s' a bs := by
  obtain ⟨hg', hnd⟩ := live h hi hg
  have q : ∀ {t}, BMerges s t a [.ix .merge] := .inr (.inl rfl)
  have hmo := hi.ok.ix.merger
  unfold IxState.MergerOk at hmo
  unfold BDisk.mergeStep at he
  split at he
  · -- the last field is done
    rename_i acc hm
    obtain ⟨h1, h2⟩ := h.merger.none (by rw [hm]; intro _ _ _ _ _ e; cases e)
    rw [hm] at h2
    split at he
    · rename_i ho
      cases he
      have ho' : a.ix.proc = .opening := by rw [h.iproc]; exact ho
      refine ⟨_, _, merge_exec (aix := { a.ix with proc := .up, mem := acc, merger := .idle }) hg' (by simp [IxState.mergeStep, h2, ho']) (fun e => by cases e), ?_, q⟩
      exact { h with iproc := rfl, imem := rfl, merger := by show MgRel root s.fs .idle s.saveI .idle; rw [h1]; rfl
                     inDirs := fun _ h => by cases h }
    · rename_i ho
      cases he
      have ho' : a.ix.proc ≠ .opening := by rw [h.iproc]; exact ho
      exact ⟨_, _, merge_exec (aix := { a.ix with merger := .idle }) hg' (by simp [IxState.mergeStep, h2, ho']) hnd, h.place h1 (fun _ h => by cases h), q⟩
  · -- a field begins
    rename_i f rest acc hm
    obtain ⟨h1, h2⟩ := h.merger.none (by rw [hm]; intro _ _ _ _ _ e; cases e)
    rw [hm] at h2
    have hfk : f ∈ a.ix.dirs.keys := h.inDirs f (by rw [h2]; exact List.mem_cons_self)
    have hsub : ∀ g ∈ f :: rest, g ∈ a.ix.dirs.keys := fun g hg => h.inDirs g (by rw [h2]; exact hg)
    have hf := h.files.names f hfk
    obtain ⟨fs1, m1, m2, m3, m4⟩ := FRel.mkdir_temp hD h.files hf
    rw [FRel.withDir_of_mem hfk] at m2
    rw [tempDir_eq hf, m1] at he
    simp only at he
    have hb := h.mkdir' m2 m3
    have hslot := (m2.slot (.ix f) hf).cur
    have ej : join (join root f) "index" = (Slot.ix f).dir root ++ [(Slot.ix f).name] := by
      rw [join_plain hf.1, join_plain (by decide)]; rfl
    have hA : slots a (.ix f) = (a.ix.files f).index := rfl
    rw [hA] at hslot
    have hls : fs1.listFiles (root ++ [f, "temp"]) = (a.ix.files f).temp.keys := m2.frags f hf
    rw [hls] at he
    unfold BDisk.loadTerms FS.exists_ FS.readFile at he
    rw [ej] at he
    match hcur : (a.ix.files f).index.cur, hnode : fs1.get? ((Slot.ix f).dir root ++ [(Slot.ix f).name]), hslot with
    | none, none, _ =>
      rw [hnode] at he
      simp only [Option.isSome_none, Bool.false_eq_true, if_false] at he
      cases he
      exact ⟨_, _, merge_exec (aix := { a.ix with merger := .reading f rest [] (a.ix.files f).temp.keys [] acc }) hg' (by simp [IxState.mergeStep, h2, hcur]) hnd, hb.place h1 hsub, q⟩
    | some .torn, some (.file bs), hr =>
      have hr : Gzip.decompressData bs = none := hr
      rw [hnode] at he
      simp only [Option.isSome_some, if_true, BDisk.decodeIndex, hr, Option.bind_none, Option.map_none] at he
      cases he
      exact kill_merges hb hnd (.inl ⟨_, by simp only [IxState.mergeStep, h2, hcur]; rfl, rfl⟩)
    | some (.full b), some (.file bs), hr =>
      obtain ⟨raw, r1, r2⟩ := hr
      have r2 : FBB.deserializeIndex raw = deserializeIndex b := r2
      rw [hnode] at he
      simp only [Option.isSome_some, if_true, BDisk.decodeIndex, r1, Option.bind_some, r2] at he
      cases hd : deserializeIndex b with
      | none => rw [hd] at he; cases he; exact kill_merges hb hnd (.inl ⟨_, by simp only [IxState.mergeStep, h2, hcur, hd]; rfl, rfl⟩)
      | some p =>
        rw [hd] at he
        cases he
        exact ⟨_, _, merge_exec (aix := { a.ix with merger := .reading f rest [] (a.ix.files f).temp.keys (IxState.loadPostings p) acc }) hg' (by simp [IxState.mergeStep, h2, hcur, hd]) hnd, hb.place h1 hsub, q⟩
  · -- a fragment is read
    rename_i f rest seen n ns td acc hm
    obtain ⟨h1, h2⟩ := h.merger.none (by rw [hm]; intro _ _ _ _ _ e; cases e)
    rw [hm] at h2
    rw [h2] at hmo
    have hsub : ∀ g ∈ f :: rest, g ∈ a.ix.dirs.keys := fun g hg => h.inDirs g (by rw [h2]; exact hg)
    have hf := h.files.names f (hsub f List.mem_cons_self)
    have hne : (temps a f).get? n ≠ none := hmo.2.2.2.2.1 n List.mem_cons_self
    obtain ⟨cc, hcc⟩ := Option.ne_none_iff_exists'.1 hne
    have ej : join (BDisk.tempDir root f) n = fragPath root f n := by
      rw [tempDir_eq hf, join_plain (h.uuids f n cc hcc)]; simp [fragPath]
    have hr := h.files.frag f n hf
    rw [ej] at he
    unfold FS.readFile at he
    rw [hcc] at hr
    have hcc' : (a.ix.files f).temp.get? n = some cc := hcc
    match cc, hnode : s.fs.get? (fragPath root f n), hr with
    | .torn, some (.file bs), hr =>
      have hr : Gzip.decompressData bs = none := hr
      rw [hnode] at he
      simp only [BDisk.decodeIndex, hr, Option.bind_none] at he
      cases he
      exact kill_merges h hnd (.inl ⟨_, by simp only [IxState.mergeStep, h2, hcc']; rfl, rfl⟩)
    | .full b, some (.file bs), hr =>
      obtain ⟨raw, r1, r2⟩ := hr
      have r2 : FBB.deserializeIndex raw = deserializeIndex b := r2
      rw [hnode] at he
      simp only [BDisk.decodeIndex, r1, Option.bind_some, r2] at he
      cases hd : deserializeIndex b with
      | none => rw [hd] at he; cases he; exact kill_merges h hnd (.inl ⟨_, by simp only [IxState.mergeStep, h2, hcc', hd]; rfl, rfl⟩)
      | some p =>
        rw [hd] at he
        cases he
        exact ⟨_, _, merge_exec (aix := { a.ix with merger := .reading f rest (seen ++ [n]) ns (IxState.mergeInto td p) acc }) hg' (by simp [IxState.mergeStep, h2, hcc', hd]) hnd, h.place h1 hsub, q⟩
  · -- SecureSaveFile begins
    rename_i f rest seen td acc hm hsv
    have h2 : a.ix.merger = .reading f rest seen [] td acc := by
      have := h.merger
      rw [hsv] at this
      rw [← hm]; exact this
    rw [h2] at hmo
    have hsub : ∀ g ∈ f :: rest, g ∈ a.ix.dirs.keys := fun g hg => h.inDirs g (by rw [h2]; exact hg)
    have hfk := hsub f List.mem_cons_self
    have hf := h.files.names f hfk
    obtain ⟨b, hb, hag⟩ := agI f td hmo.2.1
    cases hr : FBB.serializeIndex td with
    | none => rw [hr] at he; cases he; exact kill_merges h hnd (.inr ⟨_, _, _, _, _, hm, hsv, hr⟩)
    | some raw =>
      rw [hr] at he
      obtain ⟨fs1, m1, m2, m3, m4⟩ := FRel.mkdir_field hD h.files hf
      rw [FRel.withDir_of_mem hfk] at m2
      rw [join_plain hf.1, m1] at he
      cases he
      have hb' := h.mkdir' m2 m3
      refine ⟨_, _, merge_exec (aix := { a.ix with merger := .saving f rest seen td (acc.set f td) b .start }) hg' (by simp [IxState.mergeStep, h2, hb]) hnd, ?_, q⟩
      exact { hb' with
        merger := ⟨f, rest, seen, td, acc, b, .start, hm, rfl, hf, rfl, rfl, ⟨raw, hz raw, hag raw hr⟩, by simp [FS.isDir, m4], rfl⟩
        inDirs := hsub }
  · -- SecureSaveFile has returned
    rename_i f rest seen td acc c hm hsv
    have hmr := h.merger
    rw [hsv, hm] at hmr
    obtain ⟨f', rest', seen', td', acc', b, apc, e1, e2, e3, e4, e5, e6⟩ := hmr
    cases e1
    cases he
    have hapc : apc = .done := e6.2.2
    subst hapc
    have hsub : ∀ g ∈ f :: rest, g ∈ a.ix.dirs.keys := fun g hg => h.inDirs g (by rw [e2]; exact hg)
    refine ⟨_, _, merge_exec (aix := { a.ix with merger := .deleting f rest seen (acc.set f td) }) hg' (by simp [IxState.mergeStep, e2]) hnd, ?_, q⟩
    exact { h with merger := rfl, inDirs := hsub }
  · -- SecureSaveFile goes on
    rename_i f rest seen td acc c pc hnd' hm hsv
    have hmr := h.merger
    rw [hm, hsv] at hmr
    obtain ⟨f', rest', seen', td', acc', b, apc, e1, e2, e3, e4, e5, e6⟩ := hmr
    cases e1
    have hsub : ∀ g ∈ f :: rest, g ∈ a.ix.dirs.keys := fun g hg => h.inDirs g (by rw [e2]; exact hg)
    have hfk := hsub f List.mem_cons_self
    cases hst : c.step (s.fs, pc) with
    | none => rw [hst] at he; cases he
    | some y =>
      obtain ⟨fs1, pc'⟩ := y
      have hv : (Slot.ix f).Valid D := e3
      have hs := h.files.slot (.ix f) hv
      rw [← e4, ← e5] at hs
      obtain ⟨hnf, fr, apc', f', g1, g2, g3⟩ := save_step (e5 ▸ Slot.plain hD hv) hs e6 hst
      rw [hst] at he
      have he2 : some { s with fs := fs1, saveI := some (c, pc') } = some s' := by
        cases pc' <;> first | exact absurd rfl hnf | exact he
      cases he2
      rw [e4, e5] at g1
      have files : ∀ A' : Slot → SFile, A' (.ix f) = f' → (∀ τ, τ ≠ .ix f → A' τ = slots a τ) → FRel root D fs1 A' (temps a) a.ix.dirs.keys ∧ Keeps root D (fun τ => τ = .ix f) s.fs fs1 := by
        intro A' e1 e2
        exact FRel.save hD h.files hv e4 e5 fr (by rw [e1]; exact g1) e2 fun g hg => by rcases hg with hg | hg <;> cases hg
      rcases g3 with ⟨rfl, rfl⟩ | ⟨hnd2, rfl, rfl⟩
      · obtain ⟨k1, k2⟩ := files (slots a) rfl fun _ _ => rfl
        refine ⟨[], a, rfl, ?_, .inl ⟨rfl, by rw [hsv]; exact save_stutter e6 g2 hst⟩⟩
        exact { h with
          files := k1
          mx := h.mx.keep k2 fun _ e => by cases e
          nf := h.nf.keep k2 fun _ e => by cases e
          fl := h.fl.keep k2 fun _ e => by cases e
          merger := ⟨f, rest, seen, td, acc, b, apc', hm, e2, e3, e4, e5, g2⟩ }
      · have eK : (a.ix.setFiles f { a.ix.files f with index := (a.ix.files f).index.step b apc }).dirs.keys = a.ix.dirs.keys := by
          rw [keys_mkdir, FRel.withDir_of_mem hfk]
        have eT : ∀ m, temps { a with ix := { a.ix.setFiles f { a.ix.files f with index := (a.ix.files f).index.step b apc } with merger := m } } = temps a := by
          intro m
          funext g
          show ((a.ix.setFiles f _).files g).temp = (a.ix.files g).temp
          rw [files_setFiles]
          split
          · rename_i e; rw [e]
          · rfl
        obtain ⟨k1, k2⟩ := files (slots { a with ix := { a.ix.setFiles f { a.ix.files f with index := (a.ix.files f).index.step b apc } with merger := .saving f rest seen td (acc.set f td) b apc.next } })
          (by
            show ((a.ix.setFiles f _).files f).index = _
            rw [files_setFiles, if_pos rfl]
            rfl)
          (fun τ hτ => by
            cases τ with
            | ix g =>
              show ((a.ix.setFiles f _).files g).index = (a.ix.files g).index
              rw [files_setFiles, if_neg (fun e => hτ (by rw [e]))]
            | _ => rfl)
        refine ⟨_, _, merge_exec (aix := { a.ix.setFiles f { a.ix.files f with index := (a.ix.files f).index.step b apc } with merger := .saving f rest seen td (acc.set f td) b apc.next }) hg' ?_ hnd, ?_, q⟩
        · unfold IxState.mergeStep
          rw [e2]
          cases apc <;> first | exact absurd rfl hnd2 | rfl
        · exact { h with
            files := by
              rw [eT]
              simp only [eK]
              exact k1
            uuids := by rw [eT]; exact h.uuids
            mx := h.mx.keep k2 fun _ e => by cases e
            nf := h.nf.keep k2 fun _ e => by cases e
            fl := h.fl.keep k2 fun _ e => by cases e
            merger := ⟨f, rest, seen, td, acc, b, apc.next, hm, rfl, e3, e4, e5, g2⟩
            inDirs := by simp only [eK]; exact hsub }
  · -- all fragments are deleted
    rename_i f rest acc hm
    obtain ⟨h1, h2⟩ := h.merger.none (by rw [hm]; intro _ _ _ _ _ e; cases e)
    rw [hm] at h2
    have hsub : ∀ g ∈ f :: rest, g ∈ a.ix.dirs.keys := fun g hg => h.inDirs g (by rw [h2]; exact hg)
    cases he
    exact ⟨_, _, merge_exec (aix := { a.ix with merger := .atField rest acc }) hg' (by simp [IxState.mergeStep, h2]) hnd, h.place h1 (fun g hg => hsub g (List.mem_cons_of_mem _ hg)), q⟩
  · -- a fragment is deleted
    rename_i f rest n ns acc hm
    obtain ⟨h1, h2⟩ := h.merger.none (by rw [hm]; intro _ _ _ _ _ e; cases e)
    rw [hm] at h2
    rw [h2] at hmo
    have hsub : ∀ g ∈ f :: rest, g ∈ a.ix.dirs.keys := fun g hg => h.inDirs g (by rw [h2]; exact hg)
    have hfk := hsub f List.mem_cons_self
    have hf := h.files.names f hfk
    obtain ⟨b, hcc⟩ := hmo.2.1 n List.mem_cons_self
    have ej : join (BDisk.tempDir root f) n = fragPath root f n := by
      rw [tempDir_eq hf, join_plain (h.uuids f n _ hcc)]; simp [fragPath]
    have hr := h.files.frag f n hf
    have hcc' : (temps a f).get? n = some (.full b) := hcc
    rw [hcc'] at hr
    rw [ej] at he
    unfold FS.remove at he
    match hnode : s.fs.get? (fragPath root f n), hr with
    | some (.file bs), hr =>
      rw [hnode] at he
      cases he
      have eK : (a.ix.setFiles f { a.ix.files f with temp := (a.ix.files f).temp.del n }).dirs.keys = a.ix.dirs.keys := by
        rw [keys_mkdir, FRel.withDir_of_mem hfk]
      have eT : temps { a with ix := { a.ix.setFiles f { a.ix.files f with temp := (a.ix.files f).temp.del n } with merger := .deleting f rest ns acc } } =
          fun g => if f = g then (temps a f).del n else temps a g := by
        funext g
        show ((a.ix.setFiles f _).files g).temp = _
        rw [files_setFiles]
        split <;> rfl
      obtain ⟨k1, k2⟩ := FRel.frag_del (T' := fun g => if f = g then (temps a f).del n else temps a g) h.files hf hfk (n := n) (by simp) (fun g hg => by simp [Ne.symm hg])
      refine ⟨_, _, merge_exec (aix := { a.ix.setFiles f { a.ix.files f with temp := (a.ix.files f).temp.del n } with merger := .deleting f rest ns acc }) hg' (by simp [IxState.mergeStep, h2, hcc]) hnd, ?_, q⟩
      exact { h with
        files := by
          rw [eT]
          simp only [BDisk.setMerger, eK]
          refine frel_ext k1 fun σ => ?_
          cases σ with
          | ix g =>
            show ((a.ix.setFiles f _).files g).index = (a.ix.files g).index
            rw [files_setFiles]
            split
            · rename_i e; rw [e]
            · rfl
          | _ => rfl
        uuids := by
          rw [eT]
          intro g m c hc
          simp only at hc
          split at hc
          · rename_i e
            subst e
            rw [GoMap.get?_del] at hc
            split at hc
            · cases hc
            · exact h.uuids f m c hc
          · exact h.uuids g m c hc
        mx := h.mx.keep k2 fun _ => id
        nf := h.nf.keep k2 fun _ => id
        fl := h.fl.keep k2 fun _ => id
        merger := by
          show MgRel root _ (.deleting f rest ns acc) s.saveI _
          rw [h1]; rfl
        inDirs := by simp only [eK]; exact hsub }
  · cases he


/-- a merge that is under way makes a step. -/
theorem merge_total (h : BRel root D s a) {z : Bytes → Bytes} {aix : IxState} (ha : a.ix.mergeStep = some aix) (hns : ∀ f rest seen td acc b pc, s.d.ix.merger ≠ .saving f rest seen td acc b pc) :
    ∃ s', s.mergeStep z root = some s' := by
  have hmr := h.merger
  cases he : s.mergeStep z root with
  | some s' => exact ⟨s', rfl⟩
  | none =>
    exfalso
    unfold BDisk.mergeStep at he
    repeat' split at he
    all_goals try cases he
    · rename_i c pc hnd hm hsv _ hst
      rw [hsv, hm] at hmr
      obtain ⟨f', rest', seen', td', acc', b, apc, e1, e2, e3, e4, e5, e6⟩ := hmr
      cases pc with
      | done => exact hnd rfl
      | failed => exact e6.2.2
      | _ =>
        simp only [SaveCall.step] at hst
        repeat' split at hst
        all_goals cases hst
    · cases hm : s.d.ix.merger with
      | idle =>
        rw [hm] at hmr
        cases hsv : s.saveI with
        | none =>
          rw [hsv] at hmr
          have hmr : a.ix.merger = .idle := hmr
          rw [IxState.mergeStep, hmr] at ha
          cases ha
        | some x =>
          rw [hsv] at hmr
          obtain ⟨f', rest', seen', td', acc', b, apc, e1, -⟩ := hmr
          cases e1
      | dead =>
        rw [hm] at hmr
        cases hsv : s.saveI with
        | none =>
          rw [hsv] at hmr
          have hmr : a.ix.merger = .dead := hmr
          rw [IxState.mergeStep, hmr] at ha
          cases ha
        | some x =>
          rw [hsv] at hmr
          obtain ⟨f', rest', seen', td', acc', b, apc, e1, -⟩ := hmr
          cases e1
      | atField l acc =>
        rename_i h1 h2 h3 h4 h5 h6 h7 h8
        cases l with
        | nil => exact h1 _ hm
        | cons n ns => exact h2 _ _ _ hm
      | reading f rest seen l td acc =>
        rename_i h1 h2 h3 h4 h5 h6 h7 h8
        cases l with
        | nil =>
          cases hsv : s.saveI with
          | none => exact h6 _ _ _ _ _ hm hsv
          | some x => exact h8 _ _ _ _ _ _ _ hm hsv
        | cons n ns => exact h3 _ _ _ _ _ _ _ hm
      | saving f rest seen td acc b pc => exact hns _ _ _ _ _ _ _ hm
      | deleting f rest l acc =>
        rename_i h1 h2 h3 h4 h5 h6 h7 h8
        cases l with
        | nil => exact h4 _ _ _ hm
        | cons n ns => exact h5 _ _ _ _ _ hm

end
end Goir
