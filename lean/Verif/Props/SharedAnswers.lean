import Verif.Props.Shared
/-!
# C131: what the processes that have one folder open answer
-/
namespace Goir
open GoMap Spec Spec.Opening Opening

namespace Shared
open BDisk

variable {root : Path} {z : Bytes → Bytes} {fs0 : FS}

/-- a process answers what the folder said at first; and while it opens, it will. -/
structure Speaks (fs0 : FS) (root : Path) (z : Bytes → Bytes) (p : BDisk) : Prop where
  opens : p.d.ix.proc = .opening → p.d.up = false ∧ ∃ fsI : FS, Tree root fsI ∧ At fsI root z p.fs p.d.ix.merger p.saveI ∧ ∀ f t d, Says fsI root f t d ↔ Says fs0 root f t d
  loads : p.d.ix.proc = .up → p.d.up = false → ∀ f t d, (∃ td, p.d.ix.mem.get? f = some td ∧ hasPosting td t d = true) ↔ Says fs0 root f t d
  down : p.d.ix.proc = .down → p.d.up = false
  up : p.d.up = true → Answers fs0 root (p.d.readsOf (doc0 fs0 root))

/-- the process has ended. -/
def Ended (p : BDisk) : Prop := p.d.ix.proc = .down ∧ p.d.up = false

theorem Ended.speaks {p : BDisk} (h : Ended p) : Speaks fs0 root z p :=
  ⟨(fun e => by rw [h.1] at e; cases e), (fun e => by rw [h.1] at e; cases e), fun _ => h.2, (fun e => by rw [h.2] at e; cases e)⟩

theorem client_up {s : BDisk} {d' : CDisk} {i k : Nat} (h : Calm fs0 root s) (he : s.d.client i k = some d') : d'.up = s.d.up := by
  have hr := h.readers
  unfold CDisk.client at he
  split at he
  · cases he
  · rename_i cl hcl
    have hcm := hr.clients cl (List.mem_of_getElem? hcl)
    split at he
    · rename_i hcur
      split at he
      · cases he
      · rename_i op rest htodo
        obtain ⟨_, _, e⟩ := hcm.todo (.write op) (by rw [htodo]; simp)
        cases e
      · cases he; rfl
    · rename_i op loc hcur
      obtain ⟨_, _, _, e, -⟩ := hcm.cur _ hcur
      cases e
    · rename_i ids name loc hcur
      split at he
      · cases he
      · rename_i s1 loc1 hx
        cases he
        unfold CDisk.rexec at hx
        split at hx <;> (try split at hx) <;> (try split at hx) <;> first | (cases hx; done) | (cases hx; rfl) | (obtain ⟨c, h1, h2⟩ := Option.map_eq_some_iff.1 hx; cases h2; rfl)
      · rename_i s1 out1 hx
        cases he
        unfold CDisk.rexec at hx
        split at hx <;> (try split at hx) <;> first | (cases hx; done) | (cases hx; rfl) | (obtain ⟨c, h1, h2⟩ := Option.map_eq_some_iff.1 hx; cases h2)

/-- what opens, loads and answers is as before. -/
structure Same (s s' : BDisk) : Prop where
  fs : s'.fs = s.fs
  proc : s'.d.ix.proc = s.d.ix.proc
  up : s'.d.up = s.d.up
  mem : s'.d.ix.mem = s.d.ix.mem
  merge : s.d.ix.proc = .opening → s'.d.ix.merger = s.d.ix.merger ∧ s'.saveI = s.saveI

/-- every action but the steps of an opening. -/
theorem exec_same {s s' : BDisk} {act : CDisk.Act} (hc : Calm fs0 root s) (he : s.exec z root act = some s') (h1 : act ≠ .ix .merge) (h2 : act ≠ .open_) (h3 : ∀ n progs, act ≠ .openRest n progs) : Ended s' ∨ Same s s' := by
  have hcur : ∀ i c, s.d.curOf i = some c → ∃ ids name loc, c = .read ids name loc := fun i c hc' => by
    unfold CDisk.curOf at hc'
    obtain ⟨cl, hcl, hcur⟩ := Option.bind_eq_some_iff.1 hc'
    obtain ⟨ids, name, loc, e, -⟩ := (hc.readers.clients cl (List.mem_of_getElem? hcl)).cur _ hcur
    exact ⟨ids, name, loc, e⟩
  have same : ∀ {t : BDisk}, t.fs = s.fs → t.d.ix = s.d.ix → t.d.up = s.d.up → t.saveI = s.saveI → Ended t ∨ Same s t := fun a b c e => .inr ⟨a, by rw [b], c, by rw [b], fun _ => ⟨by rw [b], e⟩⟩
  cases act with
  | client i k =>
    simp only [BDisk.exec] at he
    split at he
    · split at he
      · cases he
        unfold BDisk.readDoc
        split
        · exact .inl ⟨rfl, rfl⟩
        · exact same rfl rfl rfl rfl
        · exact same rfl rfl rfl rfl
      · cases he
    · obtain ⟨d', h1, rfl⟩ := Option.map_eq_some_iff.1 he
      simp only [CDisk.exec] at h1
      split at h1
      · exact same rfl (client_ix hc h1) (client_up hc h1) rfl
      · cases h1
  | recvM i =>
    obtain ⟨d', h1, -⟩ := Option.map_eq_some_iff.1 he
    simp only [CDisk.exec] at h1
    split at h1
    · rename_i hc'; obtain ⟨_, _, _, e⟩ := hcur _ _ hc'; cases e
    · cases h1
  | recvN i =>
    obtain ⟨d', h1, -⟩ := Option.map_eq_some_iff.1 he
    simp only [CDisk.exec] at h1
    split at h1
    · rename_i hc'; obtain ⟨_, _, _, e⟩ := hcur _ _ hc'; cases e
    · cases h1
  | recvD i =>
    obtain ⟨d', h1, -⟩ := Option.map_eq_some_iff.1 he
    simp only [CDisk.exec] at h1
    split at h1
    · rename_i hc'; obtain ⟨_, _, _, e⟩ := hcur _ _ hc'; cases e
    · cases h1
  | tickM o =>
    obtain ⟨d', h1, rfl⟩ := Option.map_eq_some_iff.1 he
    simp only [CDisk.exec] at h1
    split at h1
    · obtain ⟨mx, h2, rfl⟩ := Option.map_eq_some_iff.1 h1
      exact same rfl rfl rfl rfl
    · cases h1
  | tickN o =>
    obtain ⟨d', h1, rfl⟩ := Option.map_eq_some_iff.1 he
    simp only [CDisk.exec] at h1
    split at h1
    · obtain ⟨mx, h2, rfl⟩ := Option.map_eq_some_iff.1 h1
      exact same rfl rfl rfl rfl
    · cases h1
  | tickD o =>
    obtain ⟨d', h1, rfl⟩ := Option.map_eq_some_iff.1 he
    simp only [CDisk.exec] at h1
    split at h1
    · obtain ⟨mx, h2, rfl⟩ := Option.map_eq_some_iff.1 h1
      exact same rfl rfl rfl rfl
    · cases h1
  | stepM =>
    simp only [BDisk.exec] at he
    obtain ⟨x, h1, h2⟩ := Option.map_eq_some_iff.1 he
    obtain rfl := flush_still hc.still.mp hc.still.ms h1
    cases h2
    exact same rfl rfl rfl rfl
  | stepN =>
    simp only [BDisk.exec] at he
    obtain ⟨x, h1, h2⟩ := Option.map_eq_some_iff.1 he
    obtain rfl := flush_still hc.still.np hc.still.ns h1
    cases h2
    exact same rfl rfl rfl rfl
  | stepD =>
    simp only [BDisk.exec] at he
    obtain ⟨x, h1, h2⟩ := Option.map_eq_some_iff.1 he
    obtain rfl := flush_still hc.still.dp hc.still.ds h1
    cases h2
    exact same rfl rfl rfl rfl
  | ix a =>
    simp only [BDisk.exec] at he
    split at he
    · cases a with
      | merge => exact absurd rfl h1
      | create name => rcases hc.still.iw with hw | hw <;> simp [BDisk.ixExec, BDisk.create, hw] at he
      | write => rcases hc.still.iw with hw | hw <;> simp [BDisk.ixExec, BDisk.write, hw] at he
      | startMerge =>
        simp only [BDisk.ixExec] at he
        split at he
        · rename_i hm
          cases he
          exact .inr ⟨rfl, rfl, rfl, rfl, (fun e => by rw [hm.1] at e; cases e)⟩
        · cases he
      | recv =>
        obtain ⟨d', h1, rfl⟩ := Option.map_eq_some_iff.1 he
        simp only [CDisk.exec] at h1
        split at h1
        · obtain ⟨ix, h2, -⟩ := Option.map_eq_some_iff.1 h1
          simp [IxState.exec, hc.still.chan] at h2
        · cases h1
      | tick o =>
        obtain ⟨d', h1, rfl⟩ := Option.map_eq_some_iff.1 he
        simp only [CDisk.exec] at h1
        split at h1
        · obtain ⟨ix, h2, h3⟩ := Option.map_eq_some_iff.1 h1
          simp only [IxState.exec] at h2
          split at h2
          · rename_i hm
            cases h2
            rw [if_neg (by rw [hm.1]; simp)] at h3
            subst h3
            exact .inr ⟨rfl, rfl, rfl, rfl, fun _ => ⟨rfl, rfl⟩⟩
          · cases h2
        · cases h1
      | flushed =>
        obtain ⟨d', h1, rfl⟩ := Option.map_eq_some_iff.1 he
        simp only [CDisk.exec] at h1
        split at h1
        · obtain ⟨ix, h2, h3⟩ := Option.map_eq_some_iff.1 h1
          simp only [IxState.exec] at h2
          split at h2
          · cases h2
            split at h3
            · rename_i hd
              subst h3
              exact .inl ⟨hd, rfl⟩
            · subst h3
              exact .inr ⟨rfl, rfl, rfl, rfl, fun _ => ⟨rfl, rfl⟩⟩
          · cases h2
        · cases h1
      | _ => simp [BDisk.ixExec] at he
    · cases he
  | crash =>
    simp only [BDisk.exec] at he
    split at he <;> cases he
    exact .inl ⟨rfl, rfl⟩
  | open_ => exact absurd rfl h2
  | openRest n progs => exact absurd rfl (h3 n progs)

/-- a step of the background merge. -/
theorem merge_same {s s' : BDisk} (hu : s.d.ix.proc = .up) (he : s.mergeStep z root = some s') : Ended s' ∨ (s'.d.ix.proc = .up ∧ s'.d.up = s.d.up) := by
  have hl : ∀ t : BDisk, t.d = s.d → t.loadError.d.ix.proc = .up ∧ t.loadError.d.up = s.d.up := fun t ht => by
    unfold BDisk.loadError; rw [if_neg (by rw [ht, hu]; simp)]; exact ⟨by rw [← hu, ← ht], by rw [← ht]⟩
  unfold BDisk.mergeStep at he
  repeat' split at he
  all_goals first
    | (rename_i hop; rw [hu] at hop; cases hop; done)
    | (cases he; exact .inl ⟨rfl, rfl⟩)
    | (cases he; exact .inr ⟨hu, rfl⟩)
    | (cases he; exact .inr (hl _ rfl))
    | cases he

theorem Grown.reads {d d' : CDisk} (g : Grown d.mem d'.mem) (files : String → GoMap String Field) : d'.readsOf files = d.readsOf files := by
  obtain ⟨dc, n, e⟩ := g.mem
  unfold CDisk.readsOf CDisk.getDocuments CDisk.getFieldSize CDisk.getFieldLength CDisk.getNumberFieldTerm
  rw [e]
  rfl

/-- a store that has loaded the index as the folder said at first, and the files that the merges leave alone. -/
theorem answers_loaded {fs : FS} {d : CDisk} {ix : GoMap String Postings} {size length : GoMap String Int} {nft : GoMap String (GoMap String Int)} (ht : Tree root fs) (hr : ∀ p, (∀ f, ¬ Mine root f p) → fs.get? p = fs0.get? p)
    (hix : ∀ f t x, (∃ td, ix.get? f = some td ∧ hasPosting td t x = true) ↔ Says fs0 root f t x) (hm : loadM fs root = some (size, length)) (hn : loadN fs root = some nft) (hd : d.mem = CMem.loaded ix size length nft) :
    Answers fs0 root (d.readsOf (doc0 fs0 root)) := by
  obtain ⟨e1, e2, e3⟩ := holds_congr (root := root) (fs := fs0) (fs' := fs) fun p hp => hr p fun f hm => by
    rcases hm with e | ⟨y, hy, e⟩ | ⟨n, e⟩
    · exact hp f "temp" [] e (by simp)
    · exact hp f y [] e (by simp at hy ⊢; tauto)
    · exact hp f "temp" [n] e (by simp)
  have eM : ∀ f x y, Metrics fs root f x y ↔ Metrics fs0 root f x y := fun f x y => by
    unfold Metrics; simp only [e1, e2 _ "metrics" (by decide)]
  have eN : ∀ f m, Counts fs root f m ↔ Counts fs0 root f m := fun f m => by
    unfold Counts; simp only [e1, e2 _ "nfterm" (by decide)]
  obtain ⟨-, -, k3, k4⟩ := loaded_numbers (l := []) ht ⟨ht.wf, fun _ h => h, fun _ _ => rfl⟩ hm hn
  refine ⟨fun f t' x => (has_iff _ _ _ _ _).trans ((get?_idx d hd f t' x).trans (hix f t' x)), fun ids f x hp fd => ?_, fun f => ?_, fun f terms t' ht' => ?_⟩
  · rw [readsOf_fields, ← stored_iff hp]
    by_cases hx : x ∈ ids <;> simp [hx]
  · have es : d.getFieldSize f = (size.get? f).getD 0 := by simp only [CDisk.getFieldSize, Memory.getFieldSize, CMem.view, hd, CMem.loaded, GoMap.getD]
    have el : d.getFieldLength f = (length.get? f).getD 0 := by simp only [CDisk.getFieldLength, Memory.getFieldLength, CMem.view, hd, CMem.loaded, GoMap.getD]
    show Metrics fs0 root f (d.getFieldSize f) (d.getFieldLength f) ∨ _
    rcases k3 f with ⟨x, y, h1, h2, h3⟩ | ⟨h1, h2, h3⟩
    · left
      rw [es, el, h2, h3]
      exact (eM f x y).1 h1
    · exact .inr ⟨fun x y hxy => h1 x y ((eM f x y).2 hxy), by show d.getFieldSize f = 0; rw [es, h2]; rfl, by show d.getFieldLength f = 0; rw [el, h3]; rfl⟩
  · have ec : ((d.readsOf (doc0 fs0 root)).getNumberFieldTerm f terms).getD t' 0 = ((nft.get? f).getD []).getD t' 0 := by
      show (d.mem.view.getNumberFieldTerm f terms).getD t' 0 = _
      rw [GoMap.getD, CMem.view_nft]
      simp only [ht', if_true, hd, CMem.df, CMem.loaded, GoMap.getD, Option.getD_some]
      rw [get?_mapKeys nft (fun k => (⟨k, 0⟩ : Ref String))]
      cases hq : nft.get? f <;> simp [hq, GoMap.get?]
    rw [ec]
    refine ⟨fun m hm' => ?_, fun hno => ?_⟩
    · rw [(k4 f).1 m ((eN f m).2 hm')]; rfl
    · rw [(k4 f).2 fun m hm' => hno m ((eN f m).1 hm')]; rfl

theorem exec_speaks (hz : ∀ d, Gz.Written d (z d)) {s s' : BDisk} {act : CDisk.Act} (hc : Calm fs0 root s) (h : Speaks fs0 root z s) (ho : OnlyReads act) (he : s.exec z root act = some s')
    (hr : ∀ p, (∀ f, ¬ Mine root f p) → s.fs.get? p = fs0.get? p) (hop : act = .open_ → ∀ f, SaysSame fs0 root s.fs f) : Speaks fs0 root z s' := by
  have hc' := exec_calm hc ho he
  by_cases h1 : act = .ix .merge
  · subst h1
    simp only [BDisk.exec] at he
    split at he
    · rename_i hg
      have he : s.mergeStep z root = some s' := he
      by_cases hp : s.d.ix.proc = .opening
      · obtain ⟨hup, fsI, k1, k2, k3⟩ := h.opens hp
        obtain ⟨q1, q2⟩ := merge_inv k1 hz hp hup k2 he
        rcases q2 with q | ⟨q, q3⟩ | ⟨q, q3⟩
        · exact Ended.speaks ⟨q, q1⟩
        · exact ⟨fun _ => ⟨q1, fsI, k1, q3, k3⟩, (fun e => by rw [q] at e; cases e), (fun e => by rw [q] at e; cases e), (fun e => by rw [q1] at e; cases e)⟩
        · refine ⟨(fun e => by rw [q] at e; cases e), fun _ _ f t d => ?_, (fun e => by rw [q] at e; cases e), (fun e => by rw [q1] at e; cases e)⟩
          rw [← k3]
          have hmem := FS.mem_listDirectories fsI k1.wf root f
          constructor
          · rintro ⟨td, h1, h2⟩
            by_cases hf : f ∈ fsI.listDirectories root
            · obtain ⟨td', h3, h4⟩ := (q3.done f hf).loaded
              rw [h1] at h3; cases h3
              exact (h4 t d).1 h2
            · rw [q3.none_ f hf] at h1; cases h1
          · intro hs
            obtain ⟨td, h3, h4⟩ := (q3.done f (hmem.2 hs.1)).loaded
            exact ⟨td, h3, (h4 t d).2 hs⟩
      · have hup : s.d.up = true := by rcases hg with e | e; exact e; exact absurd e hp
        have hpu : s.d.ix.proc = .up := by
          cases e : s.d.ix.proc with
          | down => have := h.down e; rw [hup] at this; cases this
          | opening => exact absurd e hp
          | up => rfl
        rcases merge_same hpu he with e | ⟨e1, e2⟩
        · exact e.speaks
        · rw [hup] at e2
          refine ⟨(fun e => by rw [e1] at e; cases e), (fun _ e => by rw [e2] at e; cases e), (fun e => by rw [e1] at e; cases e), fun _ => ?_⟩
          rw [Grown.reads (merge_grown he e2)]
          exact h.up hup
    · cases he
  by_cases h2 : act = .open_
  · subst h2
    simp only [BDisk.exec] at he
    split at he
    · rename_i hdn
      cases he
      refine ⟨fun _ => ⟨h.down hdn, s.fs, hc.folder.tree, ?_, fun f t d => hop rfl f t d⟩, (fun e => by cases e), (fun e => by cases e), fun e => ?_⟩
      · have hs : s.saveI = none := by
          have ha := hc.folder.aside
          rw [hc.down hdn] at ha
          cases e : s.saveI with
          | none => rfl
          | some x => rw [e] at ha; exact ha.elim
        show At s.fs root z s.fs (.atField (s.fs.listDirectories root) []) s.saveI
        rw [hs]
        exact ⟨[], rfl, ⟨hc.folder.tree.wf, fun _ h => h, fun _ _ => rfl⟩, (fun g hg => by cases hg), fun _ _ => rfl⟩
      · have e : s.d.up = true := e
        rw [h.down hdn] at e; cases e
    · cases he
  by_cases h3 : ∃ n progs, act = .openRest n progs
  · obtain ⟨n, progs, rfl⟩ := h3
    simp only [BDisk.exec] at he
    split at he
    · rename_i hcond
      split at he
      · rename_i size length nft hm hn
        cases he
        refine ⟨(fun e => by rw [hcond.1] at e; cases e), (fun _ e => by cases e), (fun e => by rw [hcond.1] at e; cases e), fun _ => ?_⟩
        exact answers_loaded hc.folder.tree hr (h.loads hcond.1 hcond.2) hm hn rfl
      · cases he; exact Ended.speaks ⟨rfl, rfl⟩
    · cases he
  push Not at h3
  rcases exec_same hc he h1 h2 h3 with e | e
  · exact e.speaks
  · refine ⟨fun hp => ?_, fun hp hu => ?_, fun hp => ?_, fun hu => ?_⟩
    · rw [e.proc] at hp
      obtain ⟨k1, fsI, k2, k3, k4⟩ := h.opens hp
      obtain ⟨m1, m2⟩ := e.merge hp
      rw [e.up, e.fs, m1, m2]
      exact ⟨k1, fsI, k2, k3, k4⟩
    · rw [e.proc] at hp; rw [e.up] at hu; rw [e.mem]
      exact h.loads hp hu
    · rw [e.proc] at hp; rw [e.up]; exact h.down hp
    · have hu0 : s.d.up = true := by rw [← e.up]; exact hu
      rw [Grown.reads (exec_grown hc hu0 he hu)]
      exact h.up hu0

theorem Speaks.opening_merges {p : BDisk} (h : Speaks fs0 root z p) (hp : p.d.ix.proc = .opening) : Merging p := by
  obtain ⟨-, fsI, -, k, -⟩ := h.opens hp
  refine ⟨fun e => ?_, fun e => ?_⟩ <;> rw [e] at k <;> exact k.elim

/-- other files, seen by a process that is not merging. -/
theorem Speaks.seeing {p : BDisk} {fs fs' : FS} (h : Speaks fs0 root z { p with fs := fs }) (hq : ¬ Merging p) : Speaks fs0 root z { p with fs := fs' } :=
  ⟨fun hp => absurd (Speaks.opening_merges h hp) hq, h.loads, h.down, h.up⟩

theorem step_speaks (hz : ∀ d, Gz.Written d (z d)) {had : String → Prop} {s s' : Shared} {i : Nat} {act : CDisk.Act} (h : Inv fs0 root z had s) (hs : ∀ (j : Nat) (p : BDisk), s.procs[j]? = some p → Speaks fs0 root z (s.sees p))
    (ho : OnlyReads act) (h1 : OneMerges s) (h1' : OneMerges s') (he : s.exec z root (i, act) = some s') : ∀ (j : Nat) (p : BDisk), s'.procs[j]? = some p → Speaks fs0 root z (s'.sees p) := by
  unfold Shared.exec at he
  simp only at he
  split at he
  · cases he
  rename_i p hp
  obtain ⟨p', hx, rfl⟩ := Option.map_eq_some_iff.1 he
  have hlt : i < s.procs.length := (List.getElem?_eq_some_iff.1 hp).1
  have hi' : (s.procs.set i p')[i]? = some p' := by rw [List.getElem?_set_self hlt]
  have hj' : ∀ (j : Nat) (q : BDisk), j ≠ i → ((s.procs.set i p')[j]? = some q ↔ s.procs[j]? = some q) := fun j q hne => by rw [List.getElem?_set_ne hne.symm]
  have hcp := h.calm i p hp
  obtain ⟨o, po, hpo, hko, hother⟩ := h.kept
  have hsp : Speaks fs0 root z p' := by
    refine exec_speaks hz hcp (hs i p hp) ho hx (fun q hq => hko.rest q hq) fun hopen => ?_
    subst hopen
    simp only [BDisk.exec] at hx
    split at hx
    · rename_i hdn
      cases hx
      have hpi : ¬ Merging p := not_merging.2 (.inl (hcp.down hdn))
      have hpo' : ¬ Merging po := by
        by_cases e : o = i
        · subst e; rw [hp] at hpo; cases hpo; exact hpi
        · exact h1' i o _ po (Ne.symm e) hi' ((hj' o po e).2 hpo) ⟨by simp, by simp⟩
      rw [not_merging] at hpo'
      have hk := hko.keep
      have hk : KeepMerge fs0 root z had s.fs po.d.ix.merger po.saveI := hk
      rcases hpo' with e | e <;> rw [e] at hk <;> exact hk
    · cases hx
  intro j q hq
  by_cases e : j = i
  · subst e
    rw [show (s.procs.set j p')[j]? = some p' from hi'] at hq
    obtain rfl := Option.some.inj hq
    exact hsp
  · have hq := (hj' j q e).1 hq
    show Speaks fs0 root z { q with fs := p'.fs }
    by_cases hmq : Merging q
    · have hnp : ¬ Merging p := h1 j i q p e hq hp hmq
      rw [exec_quiet hcp hnp ho hx]
      exact hs j q hq
    · exact Speaks.seeing (fs := s.fs) (hs j q hq) hmq

theorem run_speaks {fs : FS} {n : Nat} (h0 : Tree root fs) (hz : ∀ d, Gz.Written d (z d)) (xs : List (Nat × CDisk.Act)) : ∀ {s : Shared}, (start fs (n + 1)).run z root xs = some s → (∀ x ∈ xs, OnlyReads x.2) →
    InTurn z root (start fs (n + 1)) xs → NoneMissing z root (start fs (n + 1)) xs → ∀ (j : Nat) (p : BDisk), s.procs[j]? = some p → Speaks fs root z (s.sees p) := by
  induction xs using List.reverseRecOn with
  | nil =>
    intro s h _ _ _ j p hp
    cases h
    obtain rfl := start_get hp
    exact Ended.speaks ⟨rfl, rfl⟩
  | append_singleton xs x ih =>
    intro s h ho ht hw
    obtain ⟨s1, h1, h2⟩ := run_snoc h
    have o1 : ∀ y ∈ xs, OnlyReads y.2 := fun y hy => ho y (by simp [hy])
    have t1 : InTurn z root (start fs (n + 1)) xs := fun xs0 xs1 s0 e => ht xs0 (xs1 ++ [x]) s0 (by simp [e])
    have w1 : NoneMissing z root (start fs (n + 1)) xs := fun xs0 xs1 s0 e => hw xs0 (xs1 ++ [x]) s0 (by simp [e])
    exact step_speaks (i := x.1) (act := x.2) hz (run_inv h0 hz xs h1 o1 t1 w1) (ih h1 o1 t1 w1) (ho x (by simp)) (ht xs [x] s1 rfl h1) (ht (xs ++ [x]) [] s (by simp) h) h2

/-- **C131, the answers.** Every process that has come up answers what the folder said before any of them was started: the documents of every field and term, the stored fields, the sizes and lengths, the counts. -/
theorem c131_answers_partial {fs : FS} {n : Nat} {s : Shared} {xs : List (Nat × CDisk.Act)} (h0 : Tree root fs) (hz : ∀ d, Gz.Written d (z d)) (h : (start fs (n + 1)).run z root xs = some s) (ho : ∀ x ∈ xs, OnlyReads x.2)
    (ht : InTurn z root (start fs (n + 1)) xs) (hw : NoneMissing z root (start fs (n + 1)) xs) {i : Nat} {p : BDisk} (hp : s.procs[i]? = some p) (hu : p.d.up = true) :
    (∀ f term d, GoSet.contains (p.d.getDocuments f term).1 d = true ↔ Says fs root f term d) ∧ Answers fs root (p.d.readsOf (doc0 fs root)) := by
  have ha := (run_speaks h0 hz xs h ho ht hw i p hp).up hu
  exact ⟨fun f term d => (has_iff _ (doc0 fs root) _ _ _).symm.trans (ha.documents f term d), ha⟩

end Shared
end Goir
