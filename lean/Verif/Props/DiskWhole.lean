import Verif.Props.DiskLive
import Verif.Props.DiskSearch
import Verif.Props.CountersCrash
import Verif.Props.Score
/-!
# C79, C80: stopping and reopening the whole store
-/
namespace Goir
open GoMap Spec Disk

namespace Disk

/-- everything that was saved has been written: nothing waits in a channel or a buffer, no writer is in the middle of a flush, and the merge is not
between the two renames of an index file. -/
def Settled (s : Disk) : Prop :=
  s.ix.chan = [] ∧ s.ix.buf = [] ∧ s.ix.writer = .idle ∧ inRenameWindow s.ix = false ∧ MetricsFlushed s.ct ∧ TermsFlushed s.ct ∧ DocsFlushed s.dc

instance (s : Disk) : Decidable (Settled s) := inferInstanceAs (Decidable (_ ∧ _))

/-- the process ends (in any way) and a new one opens the folder with cache size `m`; `k` is how many steps loading the index takes. -/
def reopen (k : Nat) (m : Int) : List Act := .crash :: .open_ :: (List.replicate k (.ix .merge) ++ [.openRest m])

/-! ### reopening, part by part -/

theorem merges_parts {k : Nat} {t t' : Disk} (hc : t.ct.up = false) (hd : t.dc.up = false) (hp : t.prog = [])
    (h : t.run (List.replicate k (.ix .merge)) = some t') :
    t.ix.run (List.replicate k .merge) = some t'.ix ∧ t'.ct = t.ct ∧ t'.dc = t.dc ∧ t'.prog = [] := by
  induction k generalizing t with
  | zero => rw [List.replicate_zero, run_nil] at h; subst h; exact ⟨rfl, rfl, rfl, hp⟩
  | succ k ih =>
    rw [List.replicate_succ, run_cons] at h
    obtain ⟨u, h1, h2⟩ := h
    have key : t.ix.exec .merge = some u.ix ∧ u.ct = t.ct ∧ u.dc = t.dc ∧ u.prog = [] := by
      cases exec_eff h1 with
      | ix hb hu hx hn => exact ⟨hx, rfl, rfl, hp⟩
      | ixDown hb hu hx hn => exact ⟨hx, by simp [stop, CtState.exec, hc], by simp [stop, DcState.exec, hd], rfl⟩
    obtain ⟨k1, k2, k3, k4⟩ := key
    obtain ⟨g1, g2, g3, g4⟩ := ih (by rw [k2]; exact hc) (by rw [k3]; exact hd) k4 h2
    refine ⟨?_, g2.trans k2, g3.trans k3, g4⟩
    rw [List.replicate_succ, IxState.run_cons]
    exact ⟨_, k1, g1⟩

theorem reopen_parts {s s' : Disk} {k : Nat} {m : Int} (hu : s.dc.up = true) (hcu : s.ct.up = true) (h : s.run (reopen k m) = some s') :
    s.ix.run (.crash :: .open_ :: List.replicate k .merge) = some s'.ix ∧ s'.ix.proc = .up ∧ s.ct.run [.crash, .open_] = some s'.ct ∧
      s.dc.run [.crash, .open_ m] = some s'.dc ∧ s'.prog = [] := by
  unfold reopen at h
  obtain ⟨a, h1, h⟩ := run_cons.1 h
  obtain ⟨b, h2, h⟩ := run_cons.1 h
  obtain ⟨c, h3, h4⟩ := run_snoc.1 h
  cases exec_eff h1 with
  | @crash i1 hx1 =>
    cases exec_eff h2 with
    | @open_ i2 hx2 =>
      have ec : (s.stop i1).ct = { mx := s.ct.mx.killed, nf := s.ct.nf.killed } := by simp [stop, CtState.exec, hcu]
      have ed : (s.stop i1).dc = { fl := s.dc.fl.killed } := by simp [stop, DcState.exec, hu]
      obtain ⟨g1, g2, g3, g4⟩ := merges_parts (t := ⟨i2, (s.stop i1).ct, (s.stop i1).dc, (s.stop i1).prog⟩)
        (by show (s.stop i1).ct.up = _; rw [ec]) (by show (s.stop i1).dc.up = _; rw [ed]) rfl h3
      cases exec_eff h4 with
      | openRest hp hn hy1 hy2 =>
        refine ⟨?_, hp, ?_, ?_, g4⟩
        · exact (IxState.run_cons _ _ _ _).2 ⟨_, hx1, (IxState.run_cons _ _ _ _).2 ⟨_, hx2, g1⟩⟩
        · rw [CtState.run_cons]
          refine ⟨(s.stop i1).ct, by rw [ec]; simp [CtState.exec, hcu], ?_⟩
          rw [CtState.run_cons]
          refine ⟨_, ?_, (CtState.run_nil _ _).2 rfl⟩
          rw [← hy1]; congr 1; exact g2.symm
        · rw [DcState.run_cons]
          refine ⟨(s.stop i1).dc, by rw [ed]; simp [DcState.exec, hu], ?_⟩
          rw [DcState.run_cons]
          refine ⟨_, ?_, rfl⟩
          rw [← hy2]; congr 1; exact g3.symm

theorem reopen_exists {s : Disk} {k : Nat} {m : Int} {ix : IxState} {ct : CtState} {dc : DcState} (hu : s.dc.up = true) (hcu : s.ct.up = true)
    (hx : s.ix.run (.crash :: .open_ :: List.replicate k .merge) = some ix) (hp : ix.proc = .up) (hct : s.ct.run [.crash, .open_] = some ct)
    (hdc : s.dc.run [.crash, .open_ m] = some dc) : s.run (reopen k m) = some ⟨ix, ct, dc, []⟩ := by
  obtain ⟨i1, x1, hx⟩ := (IxState.run_cons _ _ _ _).1 hx
  obtain ⟨i2, x2, hx⟩ := (IxState.run_cons _ _ _ _).1 hx
  obtain ⟨c1, y1, hct⟩ := (CtState.run_cons _ _ _ _).1 hct
  obtain ⟨c2, y2, hct⟩ := (CtState.run_cons _ _ _ _).1 hct
  rw [CtState.run_nil] at hct; subst hct
  obtain ⟨d1, z1, hdc⟩ := DcState.run_cons.1 hdc
  obtain ⟨d2, z2, hdc⟩ := DcState.run_cons.1 hdc
  cases hdc
  have hop : i2.proc = .opening := by
    simp only [IxState.exec] at x2
    split at x2
    · cases x2; rfl
    · cases x2
  have merges : ∀ (k : Nat) (i : IxState), i.proc = .opening → i.run (List.replicate k .merge) = some ix →
      run ⟨i, c1, d1, []⟩ (List.replicate k (.ix .merge)) = some ⟨ix, c1, d1, []⟩ := by
    intro k
    induction k with
    | zero => intro i hi h; rw [List.replicate_zero] at h; rw [IxState.run_nil] at h; subst h; rfl
    | succ k ih =>
      intro i hi h
      rw [List.replicate_succ, IxState.run_cons] at h
      obtain ⟨j, h1, h2⟩ := h
      rw [List.replicate_succ, run_cons]
      have hj : j.proc = .opening ∨ j.merger = .idle := by
        have he' : i.mergeStep = some j := h1
        revert he'
        unfold IxState.mergeStep IxState.loadError
        simp only [hi, if_true]
        (repeat' split) <;> intro he' <;> (first | (cases he'; first | exact .inr rfl | exact .inl hi | exact .inl rfl) | (cases he'))
      have hex : (⟨i, c1, d1, []⟩ : Disk).exec (.ix .merge) = some (if j.proc = .down then stop ⟨i, c1, d1, []⟩ j else ⟨j, c1, d1, []⟩) := by
        simp only [exec, ixBackground, hi, or_true, and_self, if_true, h1, Option.map_some]
      rcases hj with hj | hj
      · refine ⟨_, hex, ?_⟩
        rw [if_neg (by rw [hj]; simp)]
        exact ih j hj h2
      · cases k with
        | zero =>
          rw [List.replicate_zero, IxState.run_nil] at h2; subst h2
          refine ⟨_, hex, ?_⟩
          rw [if_neg (by rw [hp]; simp)]; rfl
        | succ k =>
          rw [List.replicate_succ, IxState.run_cons] at h2
          obtain ⟨l, h3, -⟩ := h2
          have h3 : j.mergeStep = some l := h3
          unfold IxState.mergeStep at h3
          rw [hj] at h3; cases h3
  have es : s.stop i1 = ⟨i1, c1, d1, []⟩ := by unfold stop; rw [y1, z1]; rfl
  have hcd : d1.up = false := by
    simp only [DcState.exec, hu, if_true] at z1; cases z1; rfl
  unfold reopen
  rw [run_cons]
  refine ⟨⟨i1, c1, d1, []⟩, by simp only [exec, x1, Option.map_some, es], ?_⟩
  rw [run_cons]
  refine ⟨⟨i2, c1, d1, []⟩, by simp only [exec, x2, Option.map_some], ?_⟩
  rw [run_snoc]
  refine ⟨_, merges k i2 hop hx, ?_⟩
  simp only [exec, hp, hcd, and_self, if_true, y2, z2]

theorem ct_reopened {c c' : CtState} (h : c.run [.crash, .open_] = some c') : c'.up = true ∧ c'.sendM = none ∧ c'.sendN = none := by
  obtain ⟨c1, y1, h⟩ := (CtState.run_cons _ _ _ _).1 h
  obtain ⟨c2, y2, h⟩ := (CtState.run_cons _ _ _ _).1 h
  rw [CtState.run_nil] at h; subst h
  simp only [CtState.exec] at y1 y2
  split at y1
  · cases y1
    simp only [Bool.false_eq_true, if_false] at y2
    split at y2
    · cases y2; exact ⟨rfl, rfl, rfl⟩
    · cases y2
  · cases y1

theorem dc_reopened {c c' : DcState} {m : Int} (h : c.run [.crash, .open_ m] = some c') : c'.up = true ∧ c'.send = none := by
  obtain ⟨c1, y1, h⟩ := DcState.run_cons.1 h
  obtain ⟨c2, y2, h⟩ := DcState.run_cons.1 h
  cases h
  simp only [DcState.exec] at y1 y2
  split at y1
  · cases y1; cases y2; exact ⟨rfl, rfl⟩
  · cases y1

theorem reopened_idle {s s' : Disk} {k : Nat} {m : Int} (hu : s.dc.up = true) (hcu : s.ct.up = true) (h : s.run (reopen k m) = some s') : s'.idle = true := by
  obtain ⟨-, -, h1, h2, h3⟩ := reopen_parts hu hcu h
  obtain ⟨-, a2, a3⟩ := ct_reopened h1
  obtain ⟨b1, b2⟩ := dc_reopened h2
  simp [idle, blocked, b1, b2, a2, a3, h3]

end Disk

/-- **C79.** If everything has been written, the folder can be opened again, with any cache size … -/
theorem c79_reopens {as : List Act} {s : Disk} (h : run {} as = some s) (hu : s.dc.up = true) (hs : Settled s) (m : Int) :
    ∃ k s', s.run (reopen k m) = some s' ∧ s'.idle = true := by
  obtain ⟨u1, u2, -⟩ := up_together h
  obtain ⟨r1, r2, r3⟩ := run_parts h
  have hcu : s.ct.up = true := by rw [u1, hu]
  obtain ⟨⟨k, ix, g1, g2⟩, -⟩ := c30_clean_restart _ _ r1 (u2 hu) hs.1 hs.2.1 hs.2.2.1 hs.2.2.2.1
  obtain ⟨ct, g3, -⟩ := c34_sizes_after_restart r2 hcu hs.2.2.2.2.1
  have g4 : s.dc.run [.crash, .open_ m] = some { up := true, cache := LRU.new m, fl := s.dc.fl.killed } := by
    simp [DcState.run, DcState.exec, hu]
  have := reopen_exists (m := m) hu hcu g1 g2 g3 g4
  exact ⟨k, _, this, reopened_idle hu hcu this⟩

/-- … and the reopened store shows the same postings; its sizes and lengths are the same up to 32 bits; and each document frequency is the same up to 32
bits, or 0 (that is C32). This holds after any history, with any number of crashes before. -/
theorem c79_restart {as : List Act} {s s' : Disk} {k : Nat} {m : Int} (h : run {} as = some s) (hu : s.dc.up = true) (hs : Settled s)
    (hr : s.run (reopen k m) = some s') (name : String) :
    (∀ t, (s'.getDocuments name t).2 = (s.getDocuments name t).2 ∧
      ∀ d, (s'.getDocuments name t).1.contains d = (s.getDocuments name t).1.contains d) ∧
    s'.getFieldSize name = toInt32 (s.getFieldSize name) ∧ s'.getFieldLength name = toInt32 (s.getFieldLength name) ∧
    ∀ terms, ∀ t ∈ terms, (s'.getNumberFieldTerm name terms).get? t = ((s.getNumberFieldTerm name terms).get? t).map toInt32 ∨
      (s'.getNumberFieldTerm name terms).get? t = some 0 := by
  obtain ⟨u1, u2, -⟩ := up_together h
  obtain ⟨r1, r2, r3⟩ := run_parts h
  have hcu : s.ct.up = true := by rw [u1, hu]
  obtain ⟨p1, p2, p3, p4, p5⟩ := reopen_parts hu hcu hr
  have g1 := (c30_clean_restart _ _ r1 (u2 hu) hs.1 hs.2.1 hs.2.2.1 hs.2.2.2.1).2 k s'.ix p1 p2 name
  obtain ⟨ct, g2, -, g3⟩ := c34_sizes_after_restart r2 hcu hs.2.2.2.2.1
  rw [p3] at g2; cases g2
  obtain ⟨ct, g4, -, g5⟩ := c32_same_or_reset_partial r2 hcu hs.2.2.2.2.2.1
  rw [p3] at g4; cases g4
  refine ⟨fun t => ⟨(g1 t).1, fun d => ?_⟩, (g3 name).1, (g3 name).2, fun terms t ht => ?_⟩
  · have := (g1 t).2 d
    rw [Bool.eq_iff_iff]; exact this
  · rw [getNumberFieldTerm_get?, getNumberFieldTerm_get?, if_pos ht, if_pos ht]
    rcases g5 name t with e | e
    · exact .inl (by rw [e]; rfl)
    · exact .inr (by rw [e])


/-! ### stored documents after a restart -/

/-- in an orderly run in which the writer has written everything, GetFields returns the latest field of every requested document. -/
theorem settled_getFields {as : List DcState.Act} {s : DcState} (h : DcState.Orderly as s) (hg : GoFields as) (hfit : FieldsFit as) (hu : s.up = true)
    (hf : DocsFlushed s) (hc : 1 ≤ s.cache.capacity) (ids : List String) (name : String) :
    ∃ s' out, s.getFields ids name = some (s', out) ∧ ∀ d, out.get? d = if d ∈ ids then latest as d name else none := by
  let P : DcState → Prop := fun t => t.up = true ∧ DocsFlushed t ∧ 1 ≤ t.cache.capacity ∧ ∃ bs, DcState.Orderly (as ++ bs) t ∧ ∀ a ∈ bs, ∃ d, a = .read d
  have hstep : ∀ t d, d ∈ ids → P t → ∃ t', t.getField d name = some (t', latest as d name) ∧ P t' := by
    rintro t d - ⟨h1, h2, h3, bs, h4, h5⟩
    have saves : ∀ d g, DcState.Act.save d g ∈ as ++ bs → DcState.Act.save d g ∈ as := by
      intro d g hm
      rcases List.mem_append.1 hm with hm | hm
      · exact hm
      · obtain ⟨_, e⟩ := h5 _ hm; cases e
    have hg' : GoFields (as ++ bs) := fun d f hm => hg d f (saves d f hm)
    have hfit' : FieldsFit (as ++ bs) := fun d f hm => hfit d f (saves d f hm)
    have hl : ∀ d name, latest (as ++ bs) d name = latest as d name := by
      clear h4 saves hg' hfit'
      induction bs using List.reverseRecOn with
      | nil => intro d name; rw [List.append_nil]
      | append_singleton bs b ih =>
        intro d name
        rw [← List.append_assoc, DcState.latest_other, ih fun a ha => h5 a (List.mem_append_left _ ha)]
        intro d f e
        obtain ⟨_, e'⟩ := h5 b (by simp)
        rw [e] at e'; cases e'
    have hi := DcState.run_inv h4.run hg'
    obtain ⟨t', x, hx⟩ := DcState.getField_some hi h3 d name
    have hval := c26_latest_when_orderly_partial h4 hg' hfit' hx
    rw [hl] at hval
    subst hval
    have he := DcState.exec_read h1 h2.1 hx
    have hst : t'.up = t.up ∧ t'.send = t.send ∧ t'.fl = t.fl ∧ t'.cache.capacity = t.cache.capacity := by
      cases DcState.getField_spec hi.lok hx with
      | hit r c hv hok hval hcap e hx => subst e; exact ⟨rfl, rfl, rfl, hcap⟩
      | absent hv hc e hx => subst e; exact ⟨rfl, rfl, rfl, rfl⟩
      | loaded m b c hv hc hm hok hd hcap hval e hx => subst e; exact ⟨rfl, rfl, rfl, hcap⟩
    obtain ⟨e1, e2, e3, e4⟩ := hst
    refine ⟨t', hx, by rw [e1]; exact h1, ⟨by rw [e2]; exact h2.1, by rw [e3]; exact h2.2.1, by rw [e3]; exact h2.2.2⟩, by rw [e4]; exact h3,
      bs ++ [.read d], ?_, ?_⟩
    · rw [← List.append_assoc]
      refine .snoc h4 he ⟨fun j _ _ => ⟨by rw [h2.2.2]; rfl, fun r hr => by rw [h2.1] at hr; cases hr⟩, fun j f e => by cases e⟩
    · intro a ha
      rcases List.mem_append.1 ha with ha | ha
      · exact h5 a ha
      · exact ⟨d, by simpa using ha⟩
  obtain ⟨s', out, h1, -, h2⟩ := DcState.getFields_exact (val := fun d => latest as d name) ids hstep (s := s)
    ⟨hu, hf, hc, [], by rw [List.append_nil]; exact h, by simp⟩
  exact ⟨s', out, h1, h2⟩

/-- every saved field fits the 32-bit file format. -/
def CallsFit (h : List StoreOp) : Prop := ∀ op ∈ h, cutField op.field = op.field

/-- **C79, stored fields.** A store that was created by this process, with a cache large enough, and in which everything has been written: after
reopening it with any cache (even of one document) GetFields answers as a Memory store with the same history. -/
theorem c79_fields {as : List Act} {s s' : Disk} {k : Nat} {m : Int} (h : run {} (.open_ :: as) = some s) (ho : Act.open_ ∉ as)
    (gv : GoValues (calls as)) (hfit : CallsFit (calls as)) (hi : s.idle = true) (hn : CacheSuffices as) (hs : Settled s) (hm : 1 ≤ m)
    (hr : s.run (reopen k m) = some s') (ids : List String) (name : String) :
    ∃ t out, s'.getFields ids name = some (t, out) ∧ ∀ d, out.get? d = ((Memory.run (calls as)).getFields ids name).get? d := by
  obtain ⟨u, -, -, hsend, hp⟩ := idle_spec hi
  have hcu : s.ct.up = true := by rw [(up_together h).1, u]
  have hrd := (run_parts h).2.2
  obtain ⟨-, -, -, p4, -⟩ := reopen_parts u hcu hr
  cases first_run h ho gv with
  | opening g _ => rw [g.dc] at u; cases u
  | gone g _ _ => rw [g] at u; cases u
  | live n hn' g =>
    obtain ⟨tr', e1, e2⟩ := g.tr
    have hd : docSaves tr' = savesOf (calls as) := by
      have := g.docs
      rw [hp, e1] at this
      simpa [docSaves] using this
    rw [e1] at hrd
    have hsd : savedDocs tr' = ((calls as).filter StoreOp.isSave).map StoreOp.doc := by
      have a1 : savedDocs tr' = (docSaves tr').map Prod.fst := by
        unfold savedDocs docSaves
        rw [List.map_filterMap]
        congr 1; funext a; cases a <;> rfl
      rw [a1, savesOf_docs, hd]
    have hmem : ∀ d f, DcState.Act.save d f ∈ tr' → StoreOp.save d f ∈ calls as := by
      intro d f hx
      have : (d, f) ∈ savesOf (calls as) := by
        rw [← hd]; unfold docSaves; exact List.mem_filterMap.2 ⟨_, hx, rfl⟩
      obtain ⟨op, hop, e⟩ := List.mem_filterMap.1 this
      cases op with
      | save d' f' => cases e; exact hop
      | updateIndex d' f' => cases e
    obtain ⟨f1, f2⟩ := DcState.fresh_run hrd e2 (by rw [hsd]; exact hn n hn') (fun d f hx => gv _ (hmem d f hx))
    obtain ⟨t, q1, q2, q3, q4, q5⟩ := DcState.restart_orderly f2 u hs.2.2.2.2.2.2 m
    rw [p4] at q1; cases q1
    have hmem' : ∀ d f, DcState.Act.save d f ∈ DcState.Act.open_ n :: tr' ++ [.crash, .open_ m] → StoreOp.save d f ∈ calls as := by
      intro d f hx
      apply hmem
      simpa using hx
    obtain ⟨t, out, w1, w2⟩ := settled_getFields q2 (fun d f hx => gv _ (hmem' d f hx)) (fun d f hx => hfit _ (hmem' d f hx)) q3
      (by
        have : s'.dc = { up := true, cache := LRU.new m, fl := s.dc.fl.killed } := by
          have : s.dc.run [.crash, .open_ m] = some { up := true, cache := LRU.new m, fl := s.dc.fl.killed } := by simp [DcState.run, DcState.exec, u]
          rw [p4] at this; exact Option.some.inj this
        rw [this]; exact ⟨rfl, rfl, rfl⟩)
      (by rw [q4]; exact hm) ids name
    refine ⟨{ s' with dc := t }, out, by simp [Disk.getFields, w1], fun d => ?_⟩
    rw [w2, c14_memory_getFields_latest]
    have : latest (DcState.Act.open_ n :: tr' ++ [.crash, .open_ m]) d name = lastSaved (calls as) d name := by
      rw [show DcState.Act.open_ n :: tr' ++ [.crash, .open_ m] = DcState.Act.open_ n :: tr' ++ [.crash] ++ [.open_ m] by simp,
        DcState.latest_other _ _ (by intros; simp), DcState.latest_other _ _ (by intros; simp), DcState.latest_open, lastSaved_docSaves _ _ hd]
    rw [this]

theorem reopened_fields {as : List Act} {s s' : Disk} {k : Nat} {m : Int} (h : run {} (.open_ :: as) = some s) (ho : Act.open_ ∉ as)
    (gv : GoValues (calls as)) (hfit : CallsFit (calls as)) (hi : s.idle = true) (hn : CacheSuffices as)
    (hs : Settled s) (hm : 1 ≤ m) (hr : s.run (reopen k m) = some s') (ids : List String) (f d : String) :
    (s'.reads.getFields ids f).get? d = ((Memory.run (calls as)).reads.getFields ids f).get? d := by
  obtain ⟨t, out, e1, e2⟩ := c79_fields h ho gv hfit hi hn hs hm hr ids f
  show (((s'.getFields ids f).map Prod.snd).getD []).get? d = _
  rw [e1]; exact e2 d

theorem reopened_consistent {as : List Act} {s s' : Disk} {k : Nat} {m : Int} (h : run {} (.open_ :: as) = some s) (ho : Act.open_ ∉ as)
    (gv : GoValues (calls as)) (hfit : CallsFit (calls as)) (hi : s.idle = true) (hn : CacheSuffices as)
    (hs : Settled s) (hm : 1 ≤ m) (hr : s.run (reopen k m) = some s') : s'.reads.Consistent := by
  have hfields := reopened_fields h ho gv hfit hi hn hs hm hr
  have hmc := memory_consistent (Memory.run (calls as))
  refine ⟨fun ids f => ?_, fun ids f d => ?_⟩
  · obtain ⟨t, out, e1, e2⟩ := c79_fields h ho gv hfit hi hn hs hm hr ids f
    show (((s'.getFields ids f).map Prod.snd).getD []).WF
    rw [e1]; exact getFields_wf e1
  · have e2 : s'.reads.fieldOf d f = (Memory.run (calls as)).reads.fieldOf d f := hfields ..
    rw [hfields, hmc.fields, e2]

/-- **C79, searching.** Such a store, after it is reopened: Search lists exactly the documents that were saved under a query's field with one of the
query's terms. -/
theorem c79_search {F : Type} [GoFloat F] {as : List Act} {s s' : Disk} {k : Nat} {m : Int} (h : run {} (.open_ :: as) = some s) (ho : Act.open_ ∉ as)
    (gv : GoValues (calls as)) (hfit : CallsFit (calls as)) (hsv : ∀ op ∈ calls as, op.isSave = true) (hi : s.idle = true) (hn : CacheSuffices as)
    (hs : Settled s) (hm : 1 ≤ m) (hr : s.run (reopen k m) = some s') (query : List (Query F)) {cpus : Nat} {l : Scores F}
    (hl : SState.Returns s'.reads query cpus l) (d : String) :
    d ∈ l.map Prod.fst ↔ ∃ q ∈ query, ∃ t ∈ q.terms, Spec.Saved (calls as) q.fieldName t d := by
  have hst := reopened_consistent h ho gv hfit hi hn hs hm hr
  have hmat : ∀ f terms d, s'.reads.matches f terms d = (Memory.run (calls as)).reads.matches f terms d := by
    intro f terms d
    unfold Reads.matches
    congr 1
    funext t
    have g1 := (c79_restart h (idle_spec hi).1 hs hr f).1 t
    have g2 := (c22_disk_like_memory h ho gv hsv hi f).1 t
    show ((s'.getDocuments f t).2 && (s'.getDocuments f t).1.contains d) = (((Memory.run (calls as)).getDocuments f t).2 && ((Memory.run (calls as)).getDocuments f t).1.contains d)
    rw [g1.1, g1.2, g2.1, g2.2]
  obtain ⟨-, qs, hp, hmem⟩ := c59_result hst query cpus hl
  have e1 : d ∈ l.map Prod.fst ↔ docScores s'.reads qs d ≠ [] := by
    rw [List.mem_map]
    constructor
    · rintro ⟨⟨d', x⟩, he, rfl⟩; exact ((hmem d' x).1 he).1
    · intro hne; exact ⟨(d, _), (hmem d _).2 ⟨hne, rfl⟩, rfl⟩
  rw [e1, mem_docScores]
  have e2 : ∀ f, s'.reads.fieldOf d f = (Memory.run (calls as)).reads.fieldOf d f := fun f => reopened_fields h ho gv hfit hi hn hs hm hr ..
  constructor
  · rintro ⟨q, hq, hx⟩
    rw [hmat, e2] at hx
    exact ⟨q, hp.mem_iff.1 hq, (memory_matches _ hsv _ _ _).1 hx⟩
  · rintro ⟨q, hq, hx⟩
    refine ⟨q, hp.mem_iff.2 hq, ?_⟩
    rw [hmat, e2]
    exact (memory_matches _ hsv _ _ _).2 hx

/-! ### C79, C80: examples -/

/-- flushing the posting buffer, which holds the one field `f`. -/
def flushIx (n : Nat) (f : String) (p : Postings) (name : String) : List Act :=
  List.replicate n (.ix .recv) ++ [.ix (.tick [(f, p)]), .ix (.create name), .ix .write, .ix .flushed]
/-- flushing these documents. -/
def flushDc (ds : List String) : List Act := .dc (.tick ds) :: List.replicate (7 * ds.length + 1) (.dc .step)

/-- three documents; everything is written after the second and again after the third. -/
def c80Run : List Act :=
  runOpen 10 ++ runSave "1" ⟨"t", 1, [("a", 1)]⟩ ++ runSave "3" ⟨"t", 1, [("a", 1)]⟩ ++
    flushIx 2 "t" [("a", [("1", true), ("3", true)])] "u1" ++ flushMx "t" ++ flushNf "t" ++ flushDc ["1", "3"] ++
    runSave "2" ⟨"t", 1, [("b", 1)]⟩ ++ flushIx 1 "t" [("b", [("2", true)])] "u2" ++ flushMx "t" ++ flushNf "t" ++ flushDc ["2"]

/-- the query in which the ranking changes. -/
noncomputable def c80Query : Query ℝ := ⟨"t", 1, ["a", "b"]⟩

theorem c80_calls : calls c80Run = [.save "1" ⟨"t", 1, [("a", 1)]⟩, .save "3" ⟨"t", 1, [("a", 1)]⟩, .save "2" ⟨"t", 1, [("b", 1)]⟩] := by rfl

/-- the run meets the hypotheses of `c79_reopens`, `c79_restart`, `c79_fields` and `c79_search`. -/
theorem c80_hypotheses : Act.open_ ∉ c80Run ∧ GoValues (calls c80Run) ∧ CallsFit (calls c80Run) ∧ (∀ op ∈ calls c80Run, op.isSave = true) ∧
    CacheSuffices c80Run := by
  refine ⟨by decide, ?_, ?_, ?_, ?_⟩
  · rw [c80_calls]; intro op hop; simp only [List.mem_cons, List.not_mem_nil, or_false] at hop; rcases hop with rfl | rfl | rfl <;> decide
  · rw [c80_calls]; intro op hop; simp only [List.mem_cons, List.not_mem_nil, or_false] at hop; rcases hop with rfl | rfl | rfl <;> decide
  · rw [c80_calls]; decide
  · intro n hm
    have hn : n = 10 := by
      simp [c80Run, runOpen, runSave, flushIx, flushDc, flushMx, flushNf, GoMap.keys, List.mem_replicate] at hm
      exact hm
    subst hn
    rw [c80_calls]
    decide

theorem c80_scores {st : Reads} (hs : st.getFieldSize "t" = 3) (hl : st.getFieldLength "t" = 3)
    (h1 : st.has "t" "a" "1" = true) (h2 : st.has "t" "b" "2" = true)
    (f1 : st.fieldOf "1" "t" = some ⟨"t", 1, [("a", 1)]⟩) (f2 : st.fieldOf "2" "t" = some ⟨"t", 1, [("b", 1)]⟩) :
    docScores st [c80Query] "1" = [idfBM25 (3 : ℝ) (((st.getNumberFieldTerm "t" ["a", "b"]).getD "a" 0 : Int) : ℝ)] ∧
    docScores st [c80Query] "2" = [idfBM25 (3 : ℝ) (((st.getNumberFieldTerm "t" ["a", "b"]).getD "b" 0 : Int) : ℝ)] := by
  have m1 : st.matches "t" ["a", "b"] "1" = true := by simp [Reads.matches, h1]
  have m2 : st.matches "t" ["a", "b"] "2" = true := by simp [Reads.matches, h2]
  have q1 : queryScore st c80Query "1" = some (idfBM25 (3 : ℝ) (((st.getNumberFieldTerm "t" ["a", "b"]).getD "a" 0 : Int) : ℝ)) := by
    simp only [queryScore, c80Query, m1, f1, if_true, Option.map_some, c64_bm25_formula, Spec.bm25, hs, hl, List.map_cons, List.map_nil, List.sum_cons, List.sum_nil,
      idf_eq, Spec.saturation, GoFloat.lit, GoFloat.ofInt, GoFloat.div]
    have e1 : GoMap.getD ([("a", 1)] : GoMap String Int) "a" 0 = 1 := rfl
    have e2 : GoMap.getD ([("a", 1)] : GoMap String Int) "b" 0 = 0 := rfl
    rw [e1, e2]
    norm_num
  have q2 : queryScore st c80Query "2" = some (idfBM25 (3 : ℝ) (((st.getNumberFieldTerm "t" ["a", "b"]).getD "b" 0 : Int) : ℝ)) := by
    simp only [queryScore, c80Query, m2, f2, if_true, Option.map_some, c64_bm25_formula, Spec.bm25, hs, hl, List.map_cons, List.map_nil, List.sum_cons, List.sum_nil,
      idf_eq, Spec.saturation, GoFloat.lit, GoFloat.ofInt, GoFloat.div]
    have e1 : GoMap.getD ([("b", 1)] : GoMap String Int) "a" 0 = 0 := rfl
    have e2 : GoMap.getD ([("b", 1)] : GoMap String Int) "b" 0 = 1 := rfl
    rw [e1, e2]
    norm_num
  simp [docScores, q1, q2]

/-- what is read off the run of the counterexample, with document frequency `n` of the term `a`. -/
def C80Good (s : Disk) (n : Int) : Prop :=
  s.getFieldSize "t" = 3 ∧ s.getFieldLength "t" = 3 ∧ s.reads.has "t" "a" "1" = true ∧ s.reads.has "t" "b" "2" = true ∧
    s.reads.fieldOf "1" "t" = some ⟨"t", 1, [("a", 1)]⟩ ∧ s.reads.fieldOf "2" "t" = some ⟨"t", 1, [("b", 1)]⟩ ∧
    (s.getNumberFieldTerm "t" ["a", "b"]).getD "a" 0 = n ∧ (s.getNumberFieldTerm "t" ["a", "b"]).getD "b" 0 = 1

instance (s : Disk) (n : Int) : Decidable (C80Good s n) := inferInstanceAs (Decidable (_ ∧ _))

/-- **C80 is false of the code**: on a store that was created by this process, with a cache large enough, in which everything has been written, a search
ranks document 2 above document 1 before the restart and document 1 above document 2 after it, whatever the schedules of the searches. -/
theorem c80_ranking_refuted : ∃ as s s', ∃ k m, run {} (.open_ :: as) = some s ∧ Act.open_ ∉ as ∧ GoValues (calls as) ∧ CallsFit (calls as) ∧
    (∀ op ∈ calls as, op.isSave = true) ∧ CacheSuffices as ∧ s.idle = true ∧ Settled s ∧ 1 ≤ m ∧ s.run (reopen k m) = some s' ∧
    ∀ (cpus : Nat) (l l' : Scores ℝ), SState.Returns s.reads [c80Query] cpus l → SState.Returns s'.reads [c80Query] cpus l' →
      ∃ x₁ x₂ y₁ y₂, ("1", x₁) ∈ l ∧ ("2", x₂) ∈ l ∧ x₁ < x₂ ∧ ("1", y₁) ∈ l' ∧ ("2", y₂) ∈ l' ∧ y₂ < y₁ := by
  obtain ⟨s, h1, hi, hs, g, h2⟩ := exists_of_run (o := run {} (.open_ :: c80Run)) (P := fun s => s.idle = true ∧ Settled s ∧ C80Good s 2 ∧
    ((s.run (reopen 14 10)).map fun s' => decide (C80Good s' 0)) = some true) (by decide +kernel)
  · obtain ⟨s', hr, h2⟩ := Option.map_eq_some_iff.1 h2
    have h2 := of_decide_eq_true h2
    obtain ⟨a1, a2, a3, a4, a5⟩ := c80_hypotheses
    refine ⟨c80Run, s, s', 14, 10, h1, a1, a2, a3, a4, a5, hi, hs, by omega, hr, fun cpus l l' hl hl' => ?_⟩
    have hst : s.reads.Consistent := (disk_reads_like_memory h1 a1 a2 a4 hi a5).2
    have hst' : s'.reads.Consistent := reopened_consistent h1 a1 a2 a3 hi a5 hs (by omega) hr
    obtain ⟨g1, g2, g3, g4, g5, g6, g7, g8⟩ := g
    obtain ⟨k1, k2, k3, k4, k5, k6, k7, k8⟩ := h2
    obtain ⟨b1, b2⟩ := c80_scores (st := s.reads) g1 g2 g3 g4 g5 g6
    obtain ⟨c1, c2⟩ := c80_scores (st := s'.reads) k1 k2 k3 k4 k5 k6
    have r := (c59_ranking hst _ _ hl).2.1
    have r' := (c59_ranking hst' _ _ hl').2.1
    refine ⟨_, _, _, _, (r "1" _).2 ⟨by rw [b1]; simp, rfl⟩, (r "2" _).2 ⟨by rw [b2]; simp, rfl⟩, ?_, (r' "1" _).2 ⟨by rw [c1]; simp, rfl⟩, (r' "2" _).2 ⟨by rw [c2]; simp, rfl⟩, ?_⟩
    · rw [b1, b2]
      show [idfBM25 (3 : ℝ) (((s.getNumberFieldTerm "t" ["a", "b"]).getD "a" 0 : Int) : ℝ)].sum < [idfBM25 (3 : ℝ) (((s.getNumberFieldTerm "t" ["a", "b"]).getD "b" 0 : Int) : ℝ)].sum
      rw [g7, g8, List.sum_singleton, List.sum_singleton]
      exact c63_idf_decreases (by norm_num) (by norm_num) (by norm_num)
    · rw [c1, c2]
      show [idfBM25 (3 : ℝ) (((s'.getNumberFieldTerm "t" ["a", "b"]).getD "b" 0 : Int) : ℝ)].sum < [idfBM25 (3 : ℝ) (((s'.getNumberFieldTerm "t" ["a", "b"]).getD "a" 0 : Int) : ℝ)].sum
      rw [k7, k8, List.sum_singleton, List.sum_singleton]
      exact c63_idf_decreases (by norm_num) (by norm_num) (by norm_num)

/-- **C80, what holds instead.** If the sizes and lengths of the queried fields fit in 32 bits and the document frequencies of the queried terms have survived (C32
says which ones do), a search after the restart returns what it could have returned before, up to the order of equal scores, over any kind of number. -/
theorem c80_same_search_partial {F : Type} [GoFloat F] {as : List Act} {s s' : Disk} {k : Nat} {m : Int} (h : run {} (.open_ :: as) = some s) (ho : Act.open_ ∉ as)
    (gv : GoValues (calls as)) (hfit : CallsFit (calls as)) (hsv : ∀ op ∈ calls as, op.isSave = true) (hi : s.idle = true) (hn : CacheSuffices as)
    (hs : Settled s) (hm : 1 ≤ m) (hr : s.run (reopen k m) = some s') (query : List (Query F))
    (hf : ∀ q ∈ query, FitsInt32 (s.getFieldSize q.fieldName) ∧ FitsInt32 (s.getFieldLength q.fieldName))
    (hdf : ∀ q ∈ query, ∀ t ∈ q.terms, (s'.getNumberFieldTerm q.fieldName [t]).get? t = (s.getNumberFieldTerm q.fieldName [t]).get? t)
    {cpus cpus' : Nat} (hc : 0 < cpus) (hc' : 0 < cpus') (l : Scores F) :
    (SState.Returns s.reads query cpus l → ∃ l', SState.Returns s'.reads query cpus' l' ∧ l'.Perm l) ∧
    (SState.Returns s'.reads query cpus' l → ∃ l', SState.Returns s.reads query cpus l' ∧ l'.Perm l) := by
  obtain ⟨hsame, hst⟩ := disk_reads_like_memory h ho gv hsv hi hn
  have hst' := reopened_consistent h ho gv hfit hi hn hs hm hr
  have hq : ∀ q ∈ query, ∀ d, queryScore s.reads q d = queryScore s'.reads q d := by
    intro q hq d
    obtain ⟨p1, p2, p3, -⟩ := c79_restart h (idle_spec hi).1 hs hr q.fieldName
    refine queryScore_congr (fun t _ => ?_) ?_ ?_ ?_ fun t ht => ?_
    · show ((s.getDocuments q.fieldName t).2 && (s.getDocuments q.fieldName t).1.contains d) = ((s'.getDocuments q.fieldName t).2 && (s'.getDocuments q.fieldName t).1.contains d)
      rw [(p1 t).1, (p1 t).2]
    · exact (hsame.fields ..).trans (reopened_fields h ho gv hfit hi hn hs hm hr _ _ _).symm
    · show s.getFieldSize _ = s'.getFieldSize _
      rw [p2, CtState.toInt32_fits (hf q hq).1]
    · show s.getFieldLength _ = s'.getFieldLength _
      rw [p3, CtState.toInt32_fits (hf q hq).2]
    · have := hdf q hq t ht
      rw [getNumberFieldTerm_get?, getNumberFieldTerm_get?, if_pos (by simp), if_pos (by simp)] at this
      show (s.getNumberFieldTerm _ _).getD t 0 = (s'.getNumberFieldTerm _ _).getD t 0
      unfold GoMap.getD
      rw [getNumberFieldTerm_get?, getNumberFieldTerm_get?, if_pos ht, if_pos ht, this]
  exact ⟨fun hl => search_congr hst hst' query hq hc' hl, fun hl => search_congr hst' hst query (fun q hq' d => (hq q hq' d).symm) hc hl⟩

/-- the run of the counterexample, asked for `b` only, meets the hypotheses. -/
example : ∃ s s', run {} (.open_ :: c80Run) = some s ∧ s.idle = true ∧ Settled s ∧ s.run (reopen 14 3) = some s' ∧
    FitsInt32 (s.getFieldSize "t") ∧ FitsInt32 (s.getFieldLength "t") ∧
    (s'.getNumberFieldTerm "t" ["b"]).get? "b" = (s.getNumberFieldTerm "t" ["b"]).get? "b" ∧ (s.getNumberFieldTerm "t" ["b"]).get? "b" = some 1 := by
  obtain ⟨s, h1, hi, hs, h2, h3, h4, h5⟩ := exists_of_run (o := run {} (.open_ :: c80Run)) (P := fun s => s.idle = true ∧ Settled s ∧
    FitsInt32 (s.getFieldSize "t") ∧ FitsInt32 (s.getFieldLength "t") ∧ (s.getNumberFieldTerm "t" ["b"]).get? "b" = some 1 ∧
    ((s.run (reopen 14 3)).map fun s' => (s'.getNumberFieldTerm "t" ["b"]).get? "b") = some (some 1)) (by decide +kernel)
  obtain ⟨s', hr, h6⟩ := Option.map_eq_some_iff.1 h5
  exact ⟨s, s', h1, hi, hs, hr, h2, h3, h6.trans h4.symm, h4⟩

end Goir
