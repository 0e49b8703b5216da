import Verif.Props.OpeningRead
import Verif.Props.ServerLoaded
import Verif.Props.ServerBytes
/-!
# Searches on any folder: the invariant of a server whose clients only read
-/
namespace Goir
open GoMap Spec Spec.Opening

namespace Opening
open BDisk

variable {root : Path} {z : Bytes → Bytes} {fs0 : FS}

/-- memory has grown: new maps of fields have been made, and nothing else has changed. -/
structure Grown (m m' : CMem) : Prop where
  mem : ∃ dc n, m' = { m with docCells := dc, next := n }
  next : m.next ≤ m'.next
  cells : ∀ r : Ref String, r.n < m.next → m'.docCells r = m.docCells r

theorem Grown.refl (m : CMem) : Grown m m := ⟨⟨_, _, rfl⟩, Nat.le_refl _, fun _ _ => rfl⟩

theorem Grown.upd (m : CMem) (j : String) (v : GoMap String Field) : Grown m { m with docCells := Ref.upd m.docCells ⟨j, m.next⟩ v, next := m.next + 1 } := by
  refine ⟨⟨_, _, rfl⟩, Nat.le_succ _, fun r hr => ?_⟩
  simp only [Ref.upd]
  rw [if_neg]
  rintro rfl
  exact absurd hr (by simp)

theorem RefOk.grow {m m' : CMem} (g : Grown m m') {id : String} {r : Ref String} (h : RefOk fs0 root m id r) : RefOk fs0 root m' id r :=
  ⟨Nat.lt_of_lt_of_le h.1 g.next, fun hp => by rw [g.cells r h.1]; exact h.2 hp⟩

theorem Reading.grow {m m' : CMem} (g : Grown m m') {ids : List String} {name : String} {loc : RLoc} (h : Reading fs0 root m ids name loc) : Reading fs0 root m' ids name loc := by
  cases loc with
  | get todo out => exact h
  | load id todo out => exact h
  | field id r todo out => obtain ⟨done, h1, h2, h3⟩ := h; exact ⟨done, h1, h2, h3.grow g⟩
  | put id r todo out => obtain ⟨done, h1, h2, h3⟩ := h; exact ⟨done, h1, h2, h3.grow g⟩

/-- the map that GetFields is making. -/
def outOf : RLoc → GoMap String Field
  | .get _ out => out
  | .field _ _ _ out => out
  | .load _ _ out => out
  | .put _ _ _ out => out

/-- it is a map, and of documents that were asked for. -/
def MapOk (ids : List String) (out : GoMap String Field) : Prop := out.WF ∧ ∀ d fl, out.get? d = some fl → d ∈ ids

theorem found_ok {ids : List String} {out : GoMap String Field} (h : MapOk ids out) {id : String} (hi : id ∈ ids) (v : Option Field) : MapOk ids (CDisk.found out id v) := by
  unfold CDisk.found
  split
  · refine ⟨h.1.set _ _, fun d fl e => ?_⟩
    rw [get?_set] at e
    split at e
    · rename_i hd; exact hd ▸ hi
    · exact h.2 d fl e
  · exact h

/-- what a step inside GetFields keeps. -/
structure Kept (s s' : BDisk) : Prop where
  grown : Grown s.d.mem s'.d.mem
  up : s'.d.up = s.d.up

/-- one step inside GetFields. -/
theorem rexec_calm {s s' : BDisk} {ids : List String} {f : String} {loc : RLoc} {y : RLoc ⊕ GoMap String Field} (h : Calm fs0 root s) (hl : Reading fs0 root s.d.mem ids f loc) (hw : MapOk ids (outOf loc))
    (he : s.rexec root f loc = some (s', some y)) :
    Calm fs0 root s' ∧ Kept s s' ∧ ∀ loc', y = .inl loc' → Reading fs0 root s'.d.mem ids f loc' ∧ MapOk ids (outOf loc') := by
  obtain ⟨⟨ht, hdoc, ha⟩, hs, hr, hdn⟩ := h
  cases loc with
  | load id todo out =>
    obtain ⟨done, e1, e2⟩ := hl
    simp only [BDisk.rexec] at he
    split at he
    · cases he
    · rename_i hl
      cases he
      refine ⟨⟨⟨ht, hdoc, ha⟩, hs, hr, hdn⟩, ⟨Grown.refl _, rfl⟩, ?_⟩
      rintro loc' ⟨⟩
      exact ⟨⟨done ++ [id], by simp [e1], outOk_skip e2 fun hp => by rw [← loadDoc_eq hdoc hp]; exact hl⟩, hw⟩
    · rename_i fd hl
      cases he
      have hval : PlainName id → fd = doc0 fs0 root id ∧ loadDoc fs0 root id ≠ none := fun hp => by
        have : loadDoc fs0 root id = some (some fd) := by rw [← loadDoc_eq hdoc hp]; exact hl
        exact ⟨by unfold doc0; rw [this]; rfl, by rw [this]; simp⟩
      have g := Grown.upd s.d.mem id fd
      refine ⟨⟨⟨ht, hdoc, ha⟩, hs.of rfl rfl rfl rfl rfl rfl rfl rfl rfl, ⟨hr.cacheOk, fun j r hj => (hr.cache j r hj).grow g, fun c hc => ?_, hr.answers⟩, hdn⟩, ⟨g, rfl⟩, ?_⟩
      · have := hr.clients c hc
        exact ⟨this.todo, fun x hx => by obtain ⟨a, b, l, e, hl⟩ := this.cur x hx; exact ⟨a, b, l, e, hl.grow g⟩⟩
      · rintro loc' ⟨⟩
        refine ⟨⟨done, e1, outOk_found e2 hval, Nat.lt_succ_self _, fun hp => ⟨?_, (hval hp).2⟩⟩, found_ok hw (by simp [e1]) _⟩
        show Ref.upd s.d.mem.docCells ⟨id, s.d.mem.next⟩ fd ⟨id, s.d.mem.next⟩ = _
        simp [Ref.upd, (hval hp).1]
  | get todo out =>
    obtain ⟨done, e1, e2⟩ := hl
    cases todo with
    | nil =>
      cases he
      exact ⟨⟨⟨ht, hdoc, ha⟩, hs, hr, hdn⟩, ⟨Grown.refl _, rfl⟩, by rintro loc' ⟨⟩⟩
    | cons id todo =>
      simp only [BDisk.rexec, CDisk.rexec] at he
      have hg := LRU.get_spec hr.cacheOk id
      obtain ⟨x, hx, he⟩ := Option.map_eq_some_iff.1 he
      split at hx
      · rename_i c r hc
        cases hx; cases he
        have hv : s.d.cache.val id = some r := by unfold LRU.val; rw [hc]
        rw [hc] at hg
        refine ⟨⟨⟨ht, hdoc, ha⟩, hs.of rfl rfl rfl rfl rfl rfl rfl rfl rfl, ⟨hg.1, fun j x hj => hr.cache j x (by rw [← hg.2.1 j]; exact hj), hr.clients, hr.answers⟩, hdn⟩, ⟨Grown.refl _, rfl⟩, ?_⟩
        rintro loc' ⟨⟩
        exact ⟨⟨done, e1, e2, hr.cache id r hv⟩, hw⟩
      · rename_i c hc
        cases hx; cases he
        rw [hc] at hg
        refine ⟨⟨⟨ht, hdoc, ha⟩, hs.of rfl rfl rfl rfl rfl rfl rfl rfl rfl, ⟨hg.1, fun j x hj => hr.cache j x (by rw [← hg.2.1 j]; exact hj), hr.clients, hr.answers⟩, hdn⟩, ⟨Grown.refl _, rfl⟩, ?_⟩
        rintro loc' ⟨⟩
        exact ⟨⟨done, e1, e2⟩, hw⟩
  | field id r todo out =>
    obtain ⟨done, e1, e2, e3⟩ := hl
    simp only [BDisk.rexec, CDisk.rexec] at he
    cases he
    refine ⟨⟨⟨ht, hdoc, ha⟩, hs, hr, hdn⟩, ⟨Grown.refl _, rfl⟩, ?_⟩
    rintro loc' ⟨⟩
    exact ⟨⟨done ++ [id], by simp [e1], outOk_found e2 e3.2⟩, found_ok hw (by simp [e1]) _⟩
  | put id r todo out =>
    obtain ⟨done, e1, e2, e3⟩ := hl
    simp only [BDisk.rexec, CDisk.rexec] at he
    cases hp : s.d.cache.put id r with
    | none => rw [hp] at he; cases he
    | some c =>
      rw [hp] at he
      cases he
      refine ⟨⟨⟨ht, hdoc, ha⟩, hs.of rfl rfl rfl rfl rfl rfl rfl rfl rfl, ⟨(LRU.put_spec hr.cacheOk hp).1, fun j x hj => ?_, hr.clients, hr.answers⟩, hdn⟩, ⟨Grown.refl _, rfl⟩, ?_⟩
      · rcases CDisk.val_put hr.cacheOk hp hj with ⟨rfl, rfl⟩ | hj
        · exact e3
        · exact hr.cache j x hj
      · rintro loc' ⟨⟩
        exact ⟨⟨done ++ [id], by simp [e1], e2⟩, hw⟩

/-- GetFields panics only at a file that is damaged, or at one that is none of the folder's documents. -/
theorem rexec_panics {s s' : BDisk} {ids : List String} {f : String} {loc : RLoc} (h : Calm fs0 root s) (hl : Reading fs0 root s.d.mem ids f loc) (he : s.rexec root f loc = some (s', none)) :
    ∃ id ∈ ids, PlainName id → loadDoc fs0 root id = none := by
  cases loc with
  | load id todo out =>
    obtain ⟨done, e1, e2⟩ := hl
    refine ⟨id, by simp [e1], fun hp => ?_⟩
    simp only [BDisk.rexec] at he
    split at he
    · rename_i hl
      rw [← loadDoc_eq h.folder.docs hp]; exact hl
    · cases he
    · cases he
  | get todo out => obtain ⟨x, hx, he⟩ := Option.map_eq_some_iff.1 he; cases he
  | field id r todo out => cases he
  | put id r todo out => obtain ⟨x, hx, he⟩ := Option.map_eq_some_iff.1 he; cases he

/-! ### what the store does meanwhile -/

theorem kill_down (s : BDisk) : s.kill.d.up = false := rfl

theorem loadError_kept {s : BDisk} (hup : s.loadError.d.up = true) : Grown s.d.mem s.loadError.d.mem := by
  unfold BDisk.loadError at hup ⊢
  split
  · rename_i h; rw [if_pos h, kill_down] at hup; cases hup
  · exact Grown.refl _

theorem merge_grown {s s' : BDisk} (he : s.mergeStep z root = some s') (hup : s'.d.up = true) : Grown s.d.mem s'.d.mem := by
  unfold BDisk.mergeStep at he
  repeat' split at he
  all_goals first
    | cases he; exact Grown.refl _
    | (cases he; exact absurd hup (by rw [kill_down]; simp))
    | (cases he; exact loadError_kept hup)
    | cases he

theorem client_grown {s : CDisk} {i k : Nat} {d' : CDisk} (h : ∀ cl ∈ s.clients, (∀ op ∈ cl.todo, ∃ ids name, op = .getFields ids name) ∧ ∀ c, cl.cur = some c → ∃ ids name loc, c = .read ids name loc)
    (hn : ∀ ids name id todo out, s.curOf i ≠ some (.read ids name (.load id todo out))) (he : s.client i k = some d') : Grown s.mem d'.mem := by
  unfold CDisk.client at he
  split at he
  · cases he
  · rename_i cl hcl
    have hcm := h cl (List.mem_of_getElem? hcl)
    split at he
    · split at he
      · cases he
      · rename_i op rest htodo
        obtain ⟨_, _, e⟩ := hcm.1 (.write op) (by rw [htodo]; simp)
        cases e
      · cases he; exact Grown.refl _
    · rename_i op loc hcur
      obtain ⟨_, _, _, e⟩ := hcm.2 _ hcur
      cases e
    · rename_i ids name loc hcur
      have hcof : s.curOf i = some (.read ids name loc) := by unfold CDisk.curOf; rw [hcl]; exact hcur
      cases loc with
      | load id todo out => exact absurd hcof (hn _ _ _ _ _)
      | get todo out =>
        cases todo with
        | nil => simp only [CDisk.rexec] at he; cases he; exact Grown.refl _
        | cons id todo =>
          simp only [CDisk.rexec] at he
          split at he
          · cases he
          · rename_i s1 loc1 hx
            split at hx <;> (cases hx; cases he; exact Grown.refl _)
          · rename_i s1 out1 hx
            split at hx <;> cases hx
      | field id r todo out => simp only [CDisk.rexec] at he; cases he; exact Grown.refl _
      | put id r todo out =>
        simp only [CDisk.rexec] at he
        cases hp : s.cache.put id r with
        | none => rw [hp] at he; cases he
        | some c => rw [hp] at he; cases he; exact Grown.refl _

/-- while the process runs, memory only grows. -/
theorem exec_grown {s s' : BDisk} {act : CDisk.Act} (h : Calm fs0 root s) (hu : s.d.up = true) (he : s.exec z root act = some s') (hup : s'.d.up = true) : Grown s.d.mem s'.d.mem := by
  have hcl : ∀ cl ∈ s.d.clients, (∀ op ∈ cl.todo, ∃ ids name, op = DOp.getFields ids name) ∧ ∀ c, cl.cur = some c → ∃ ids name loc, c = DCur.read ids name loc := fun cl hm =>
    ⟨(h.readers.clients cl hm).todo, fun c hc => by obtain ⟨a, b, l, e, -⟩ := (h.readers.clients cl hm).cur c hc; exact ⟨a, b, l, e⟩⟩
  have hcur : ∀ i c, s.d.curOf i = some c → ∃ ids name loc, c = .read ids name loc := fun i c hc => by
    unfold CDisk.curOf at hc
    obtain ⟨cl, hcl', hcur⟩ := Option.bind_eq_some_iff.1 hc
    exact (hcl cl (List.mem_of_getElem? hcl')).2 _ hcur
  cases act with
  | client i k =>
    simp only [BDisk.exec] at he
    split at he
    · rename_i ids name id todo out hc
      rw [if_pos hu] at he
      cases he
      unfold BDisk.readDoc at hup ⊢
      split
      · rename_i hl; rw [hl] at hup; rw [kill_down] at hup; cases hup
      · exact Grown.refl _
      · exact Grown.upd _ _ _
    · rename_i hn
      obtain ⟨d', h1, rfl⟩ := Option.map_eq_some_iff.1 he
      simp only [CDisk.exec] at h1
      rw [if_pos hu] at h1
      exact client_grown hcl (fun ids name id todo out hc => hn ids name id todo out hc) h1
  | recvM i =>
    obtain ⟨d', h1, -⟩ := Option.map_eq_some_iff.1 he
    simp only [CDisk.exec] at h1
    split at h1
    · rename_i hc; obtain ⟨_, _, _, e⟩ := hcur _ _ hc; cases e
    · cases h1
  | recvN i =>
    obtain ⟨d', h1, -⟩ := Option.map_eq_some_iff.1 he
    simp only [CDisk.exec] at h1
    split at h1
    · rename_i hc; obtain ⟨_, _, _, e⟩ := hcur _ _ hc; cases e
    · cases h1
  | recvD i =>
    obtain ⟨d', h1, -⟩ := Option.map_eq_some_iff.1 he
    simp only [CDisk.exec] at h1
    split at h1
    · rename_i hc; obtain ⟨_, _, _, e⟩ := hcur _ _ hc; cases e
    · cases h1
  | tickM o =>
    obtain ⟨d', h1, rfl⟩ := Option.map_eq_some_iff.1 he
    simp only [CDisk.exec] at h1
    rw [if_pos hu] at h1
    obtain ⟨mx, h2, rfl⟩ := Option.map_eq_some_iff.1 h1; exact Grown.refl _
  | tickN o =>
    obtain ⟨d', h1, rfl⟩ := Option.map_eq_some_iff.1 he
    simp only [CDisk.exec] at h1
    rw [if_pos hu] at h1
    obtain ⟨mx, h2, rfl⟩ := Option.map_eq_some_iff.1 h1; exact Grown.refl _
  | tickD o =>
    obtain ⟨d', h1, rfl⟩ := Option.map_eq_some_iff.1 he
    simp only [CDisk.exec] at h1
    rw [if_pos hu] at h1
    obtain ⟨mx, h2, rfl⟩ := Option.map_eq_some_iff.1 h1; exact Grown.refl _
  | stepM =>
    simp only [BDisk.exec] at he
    obtain ⟨x, h1, h2⟩ := Option.map_eq_some_iff.1 he
    obtain rfl := flush_still h.still.mp h.still.ms h1
    cases h2; exact Grown.refl _
  | stepN =>
    simp only [BDisk.exec] at he
    obtain ⟨x, h1, h2⟩ := Option.map_eq_some_iff.1 he
    obtain rfl := flush_still h.still.np h.still.ns h1
    cases h2; exact Grown.refl _
  | stepD =>
    simp only [BDisk.exec] at he
    obtain ⟨x, h1, h2⟩ := Option.map_eq_some_iff.1 he
    obtain rfl := flush_still h.still.dp h.still.ds h1
    cases h2; exact Grown.refl _
  | ix a =>
    simp only [BDisk.exec] at he
    split at he
    · cases a with
      | merge => exact merge_grown he hup
      | create name => rcases h.still.iw with hw | hw <;> simp [BDisk.ixExec, BDisk.create, hw] at he
      | write => rcases h.still.iw with hw | hw <;> simp [BDisk.ixExec, BDisk.write, hw] at he
      | startMerge =>
        simp only [BDisk.ixExec] at he
        split at he
        · cases he; exact Grown.refl _
        · cases he
      | recv =>
        obtain ⟨d', h1, rfl⟩ := Option.map_eq_some_iff.1 he
        simp only [CDisk.exec] at h1
        split at h1
        · obtain ⟨ix, h2, -⟩ := Option.map_eq_some_iff.1 h1
          simp [IxState.exec, h.still.chan] at h2
        · cases h1
      | tick o =>
        obtain ⟨d', h1, rfl⟩ := Option.map_eq_some_iff.1 he
        simp only [CDisk.exec] at h1
        split at h1
        · obtain ⟨ix, h2, h3⟩ := Option.map_eq_some_iff.1 h1
          split at h3
          · subst h3; simp [CDisk.stop] at hup
          · subst h3; exact Grown.refl _
        · cases h1
      | flushed =>
        obtain ⟨d', h1, rfl⟩ := Option.map_eq_some_iff.1 he
        simp only [CDisk.exec] at h1
        split at h1
        · obtain ⟨ix, h2, h3⟩ := Option.map_eq_some_iff.1 h1
          split at h3
          · subst h3; simp [CDisk.stop] at hup
          · subst h3; exact Grown.refl _
        · cases h1
      | _ => cases he
    · cases he
  | crash =>
    simp only [BDisk.exec] at he
    split at he
    · cases he
    · cases he; rw [kill_down] at hup; cases hup
  | open_ =>
    simp only [BDisk.exec] at he
    split at he
    · cases he; exact Grown.refl _
    · cases he
  | openRest n progs =>
    simp only [BDisk.exec] at he
    split at he
    · rename_i hc; rw [hu] at hc; cases hc.2
    · cases he

/-! ### searches -/

/-- the field of a document whose id is the name of a file is what its file holds, and the file can be read. -/
def FieldOk (fs0 : FS) (root : Path) (f : String) (e : String × Field) : Prop := PlainName e.1 → (doc0 fs0 root e.1).get? f = some e.2

/-- the goroutine of a batch. -/
def GKnown (fs0 : FS) (root : Path) (m : CMem) (terms : List String) (f : String) : DBatchG → Prop
  | .waiting ids => ∀ id ∈ ids, LSearch.Listed m terms f id
  | .reading ids loc => (∀ id ∈ ids, LSearch.Listed m terms f id) ∧ Reading fs0 root m ids f loc ∧ MapOk ids (outOf loc)
  | .sending rem => ∀ e ∈ rem, LSearch.Listed m terms f e.1 ∧ FieldOk fs0 root f e
  | .done => True

/-- a search. -/
def SKnown (fs0 : FS) (root : Path) (m : CMem) (terms : List String) (f : String) : DSearch → Prop
  | .first (.phase1 _ fan) => (∀ g ∈ fan.gs, LSearch.TermRest m terms f g) ∧ ∀ x ∈ fan.chan ++ fan.out, LSearch.Listed m terms f x
  | .first _ => True
  | .phase2 _ fan => (∀ g ∈ fan.gs, GKnown fs0 root m terms f g) ∧ ∀ e ∈ fan.chan ++ fan.out, LSearch.Listed m terms f e.1 ∧ FieldOk fs0 root f e
  | .done _ docs => docs.WF ∧ ∀ d fl, docs.get? d = some fl → LSearch.Listed m terms f d ∧ FieldOk fs0 root f (d, fl)

theorem SKnown.grow {m m' : CMem} (g : Grown m m') {terms : List String} {f : String} {x : DSearch} (h : SKnown fs0 root m terms f x) : SKnown fs0 root m' terms f x := by
  have g0 := g
  obtain ⟨⟨dc, n, rfl⟩, -, -⟩ := g
  cases x with
  | first y =>
    cases y with
    | phase1 st fan =>
      refine ⟨fun y hy => ?_, h.2⟩
      have := h.1 y hy
      cases y <;> exact this
    | _ => trivial
  | phase2 st fan =>
    refine ⟨fun y hy => ?_, h.2⟩
    have := h.1 y hy
    cases y with
    | reading ids loc => exact ⟨this.1, this.2.1.grow g0, this.2.2⟩
    | _ => exact this
  | done st docs => exact h

theorem act_gknown {m : CMem} {terms : List String} {f : String} (g : DBatchG) (a : GAct (String × Field)) (g' : DBatchG) (hg : GKnown fs0 root m terms f g) (ha : DBatchG.Act g a g') :
    GKnown fs0 root m terms f g' ∧ ∀ x, a = .emit x → LSearch.Listed m terms f x.1 ∧ FieldOk fs0 root f x := by
  cases ha with
  | acquire ids => exact ⟨⟨hg, ⟨[], rfl, fun id _ => ⟨by simp, by simp⟩⟩, ⟨by simp [outOf], fun d fl e => by cases e⟩⟩, by rintro x ⟨⟩⟩
  | send e rem => exact ⟨fun e' he => hg e' (List.mem_cons_of_mem _ he), by rintro x ⟨⟩; exact hg _ List.mem_cons_self⟩
  | release => exact ⟨trivial, by rintro x ⟨⟩⟩

/-- what is known of the goroutine of a query; `will`: it is on its way to each document that it must find, and to each that it will trip over. -/
structure Known {F : Type} (fs0 : FS) (root : Path) (m : CMem) (q : Query F) (x : DSearch) : Prop where
  known : SKnown fs0 root m q.terms q.fieldName x
  stats : Server.Stats m q.terms q.fieldName x
  will : ∀ t ∈ q.terms, ∀ d r sr, m.index.get? q.fieldName = some r → (m.idxCells r).get? t = some sr → GoSet.contains (m.setCells sr) d = true → PlainName d →
    ((doc0 fs0 root d).get? q.fieldName ≠ none ∨ loadDoc fs0 root d = none) → DLive.Will t d r sr x

theorem Known.grow {F : Type} {m m' : CMem} (g : Grown m m') {q : Query F} {x : DSearch} (h : Known fs0 root m q x) : Known fs0 root m' q x := by
  have g0 := g
  obtain ⟨⟨dc, n, rfl⟩, -, -⟩ := g
  refine ⟨h.known.grow g0, ?_, h.will⟩
  have := h.stats
  cases x with
  | first y => cases y <;> exact this
  | _ => exact this

/-- a step of a search is one of the search of `DLive`, or it reads the file of a document. -/
theorem bmove_cases {terms : List String} {f : String} {cpus : Nat} {s s' : BDisk} {x x' : DSearch} (h : BMove root terms f cpus s x s' (some x')) :
    DLive.Move terms f cpus ⟨s.d, x⟩ ⟨s'.d, x'⟩ ∨ ∃ st fan i ids loc loc', x = .phase2 st fan ∧ fan.gs[i]? = some (DBatchG.reading ids loc) ∧ x' = .phase2 st { fan with gs := fan.gs.set i (.reading ids loc') } := by
  cases h with
  | first q q' h he => exact .inl (.first _ _ _ h he)
  | begin2 st fan h => exact .inl (.begin2 _ st fan h)
  | p2 st fan fan' h => exact .inl (.p2 _ st fan fan' h)
  | fetch _ st fan i ids loc loc' hg h => exact .inr ⟨_, _, _, _, _, _, rfl, hg, rfl⟩
  | fetched _ st fan i ids loc out rem hg h hp =>
    left
    cases loc with
    | load id todo o => simp only [BDisk.rexec] at h; split at h <;> cases h
    | get todo o => obtain ⟨y, hy, e⟩ := Option.map_eq_some_iff.1 h; obtain ⟨y1, y2⟩ := y; cases e; exact .fetched _ _ st fan i ids _ out rem hg hy hp
    | field id r todo o => cases h
    | put id r todo o => obtain ⟨y, hy, e⟩ := Option.map_eq_some_iff.1 h; obtain ⟨y1, y2⟩ := y; cases e; exact .fetched _ _ st fan i ids _ out rem hg hy hp
  | finish st fan h => exact .inl (.finish _ st fan h)

theorem brexec_inr {s s' : BDisk} {name : String} {loc : RLoc} {out : GoMap String Field} (h : s.rexec root name loc = some (s', some (.inr out))) : loc = .get [] out ∧ s' = s := by
  cases loc with
  | load id todo o => simp only [BDisk.rexec] at h; split at h <;> cases h
  | get todo o => obtain ⟨y, hy, e⟩ := Option.map_eq_some_iff.1 h; obtain ⟨y1, y2⟩ := y; cases e; obtain ⟨h1, rfl⟩ := DLive.rexec_inr hy; exact ⟨h1, rfl⟩
  | field id r todo o => cases h
  | put id r todo o => obtain ⟨y, hy, e⟩ := Option.map_eq_some_iff.1 h; obtain ⟨y1, y2⟩ := y; cases e; obtain ⟨h1, rfl⟩ := DLive.rexec_inr hy; exact ⟨h1, rfl⟩

/-- one step of a search. -/
theorem bmove_known {terms : List String} {f : String} {cpus : Nat} {s s' : BDisk} {x x' : DSearch} (h : Calm fs0 root s) (hk : SKnown fs0 root s.d.mem terms f x) (hm : BMove root terms f cpus s x s' (some x')) :
    Calm fs0 root s' ∧ Kept s s' ∧ SKnown fs0 root s'.d.mem terms f x' := by
  cases hm with
  | first q q' hx he =>
    refine ⟨h, ⟨Grown.refl _, rfl⟩, ?_⟩
    cases hx with
    | begin1 st =>
      refine ⟨?_, by simp⟩
      intro g hg
      obtain ⟨t, ht, rfl⟩ := List.mem_map.1 hg
      exact ht
    | p1 st a b hx => exact LFan.step_all LSearch.term_rest hx hk
    | begin2 => cases he
    | p2 => cases he
    | finish => cases he
    | _ => trivial
  | begin2 st fan hf =>
    refine ⟨h, ⟨Grown.refl _, rfl⟩, ?_, by simp⟩
    intro g hg
    obtain ⟨ids, hb, rfl⟩ := List.mem_map.1 hg
    intro id hid
    exact hk.2 id (List.mem_append_right _ ((mem_makeBatches _ _).1 ⟨ids, hb, hid⟩))
  | p2 st fan fan' hx => exact ⟨h, ⟨Grown.refl _, rfl⟩, LFan.step_all act_gknown hx hk⟩
  | fetch _ st fan i ids loc loc' hg hx =>
    obtain ⟨k1, k2, k3⟩ := hk.1 _ (List.mem_of_getElem? hg)
    obtain ⟨h1, h2, h3⟩ := rexec_calm h k2 k3 hx
    refine ⟨h1, h2, ?_⟩
    have hk' : SKnown fs0 root s'.d.mem terms f (.phase2 st fan) := SKnown.grow h2.grown (x := .phase2 st fan) hk
    refine ⟨fun g hm => ?_, hk'.2⟩
    rcases LFan.mem_set' hm with rfl | hm
    · exact ⟨(hk'.1 _ (List.mem_of_getElem? hg)).1, h3 _ rfl⟩
    · exact hk'.1 g hm
  | fetched _ st fan i ids loc out rem hg hx hp =>
    obtain ⟨k1, k2, k3⟩ := hk.1 _ (List.mem_of_getElem? hg)
    obtain ⟨rfl, rfl⟩ := brexec_inr hx
    refine ⟨h, ⟨Grown.refl _, rfl⟩, fun g hm => ?_, hk.2⟩
    rcases LFan.mem_set' hm with rfl | hm
    · intro e he
      obtain ⟨done, e1, ho⟩ := k2
      rw [List.append_nil] at e1
      subst e1
      have hge : GoMap.get? out e.1 = some e.2 := GoMap.get?_of_mem k3.1 (hp.mem_iff.1 he)
      refine ⟨k1 _ (k3.2 _ _ hge), fun hpl => ?_⟩
      rw [(ho e.1 hpl).1] at hge
      split at hge
      · exact hge
      · cases hge
    · exact hk.1 g hm
  | finish st fan hf => exact ⟨h, ⟨Grown.refl _, rfl⟩, collect_wf _, fun d' fl e => hk.2 (d', fl) (List.mem_append_right _ (collect_sound e))⟩

theorem Known.move {F : Type} {cpus : Nat} {s s' : BDisk} {q : Query F} {x x' : DSearch} (h : Calm fs0 root s) (hk : Known fs0 root s.d.mem q x) (hm : BMove root q.terms q.fieldName cpus s x s' (some x')) :
    Known fs0 root s'.d.mem q x' := by
  obtain ⟨-, h2, h3⟩ := bmove_known h hk.known hm
  have stay : Known fs0 root s'.d.mem q x := hk.grow h2.grown
  refine ⟨h3, ?_, ?_⟩
  · rcases bmove_cases hm with hd | ⟨st, fan, i, ids, loc, loc', rfl, hg, rfl⟩
    · have : Known fs0 root s.d.mem q x' → True := fun _ => trivial
      have hs := Server.stats_move (s := ⟨s.d, x⟩) hk.stats hd
      obtain ⟨⟨dc, n, e⟩, -, -⟩ := h2.grown
      rw [e]
      cases x' with
      | first y => cases y <;> exact hs
      | _ => exact hs
    · exact stay.stats
  · intro t ht d r sr a1 a2 a3 hpl hor
    have w := stay.will t ht d r sr a1 a2 a3 hpl hor
    rcases bmove_cases hm with hd | ⟨st, fan, i, ids, loc, loc', rfl, hg, rfl⟩
    · obtain ⟨⟨dc, n, e⟩, -, -⟩ := h2.grown
      rw [e] at a1 a2 a3
      refine DLive.will_move_of (s := ⟨s.d, x⟩) (s' := ⟨s'.d, x'⟩) ht a1 a2 a3 ?_ w hd
      intro st fan i ids out hs hg hdi
      have hk1 := hk.known
      have hs : x = .phase2 st fan := hs
      rw [hs] at hk1
      obtain ⟨-, ⟨done, e1, ho⟩, -⟩ := hk1.1 _ (List.mem_of_getElem? hg)
      rw [List.append_nil] at e1
      subst e1
      obtain ⟨o1, o2⟩ := ho d hpl
      rcases hor with hor | hor
      · rw [o1, if_pos hdi]
        exact Option.ne_none_iff_exists'.1 hor
      · exact absurd hor (o2 hdi)
    · exact DLive.due_set hg (fun h => h) w

end Opening
end Goir
