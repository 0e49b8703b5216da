import Verif.Props.LiveDiskEnds
/-!
# C99: what a search of a live Disk store finds
-/
namespace Goir
open GoMap Spec

namespace DLive
open CDisk

/-- the document stays listed: nobody is about to replace the map of the field or the set of the term. -/
structure Listed (f t d : String) (r : Ref String) (sr : Ref (String × String)) (s : CDisk) : Prop where
  lt : sr.n < s.mem.next
  idx : s.mem.index.get? f = some r
  set : (s.mem.idxCells r).get? t = some sr
  mem : GoSet.contains (s.mem.setCells sr) d = true
  idxNew : ∀ cl ∈ s.clients, ∀ op, cl.cur = some (.write op (.acc .idxNew)) → op.field.name ≠ f
  postNew : ∀ cl ∈ s.clients, ∀ op r' key ts, cl.cur = some (.write op (.acc (.postNew r' key ts))) → ¬ (r' = r ∧ key = t)

theorem cont_acc {l l' : CMem.Loc} {o : Option CMem.Loc} (h : cont l o = some (.acc l')) : o = some l' := by
  cases l <;> simp [cont] at h <;> exact h

theorem listed_step {f t d : String} {r : Ref String} {sr : Ref (String × String)} {s s' : CDisk} {a : CDisk.Act} (hk : Ok s) (h : Listed f t d r sr s) (hs : CDisk.Step s a s')
    (hno : noOpen a = true) (hup : s'.up = true) : Listed f t d r sr s' := by
  have set_ : ∀ {i : Nat} {cl : DClient} (c : DClient), s.clients[i]? = some cl → (∀ op, c.cur = some (.write op (.acc .idxNew)) → op.field.name ≠ f) →
      (∀ op r' key ts, c.cur = some (.write op (.acc (.postNew r' key ts))) → ¬ (r' = r ∧ key = t)) →
      (∀ cl ∈ s.clients.set i c, ∀ op, cl.cur = some (.write op (.acc .idxNew)) → op.field.name ≠ f) ∧
      (∀ cl ∈ s.clients.set i c, ∀ op r' key ts, cl.cur = some (.write op (.acc (.postNew r' key ts))) → ¬ (r' = r ∧ key = t)) := by
    intro i cl c hi h1 h2
    constructor
    · intro x hx
      rcases LFan.mem_set' hx with rfl | hx
      · exact h1
      · exact h.idxNew x hx
    · intro x hx
      rcases LFan.mem_set' hx with rfl | hx
      · exact h2
      · exact h.postNew x hx
  have plain : ∀ {i : Nat} {cl : DClient} (c : DClient) {s'' : CDisk}, s.clients[i]? = some cl → (∀ op l, c.cur = some (.write op (.acc l)) → (l ≠ .idxNew ∧ ∀ r' key ts, l ≠ .postNew r' key ts)) →
      s''.clients = s.clients.set i c → s.mem.next ≤ s''.mem.next → s''.mem.index = s.mem.index → s''.mem.idxCells = s.mem.idxCells → s''.mem.setCells = s.mem.setCells → Listed f t d r sr s'' := by
    intro i cl c s'' hi hc e1 e2 e3 e4 e5
    obtain ⟨g1, g2⟩ := set_ c hi (fun op e => absurd rfl (hc op _ e).1) (fun op r' key ts e => absurd rfl ((hc op _ e).2 r' key ts))
    exact ⟨Nat.lt_of_lt_of_le h.lt e2, e3 ▸ h.idx, e4 ▸ h.set, e5 ▸ h.mem, e1 ▸ g1, e1 ▸ g2⟩
  cases hs with
  | @acc i k cl op l m o loc' hu hi hc he hn =>
    have hm := List.mem_of_getElem? hi
    obtain ⟨a0, a1, a2, a3, a4, a5⟩ := Conc.keepPost_exec hk.tags h.lt h.idx h.set h.mem (fun e => h.idxNew cl hm op (by rw [hc, e])) (fun r' key ts e => h.postNew cl hm op r' key ts (by rw [hc, e])) he
    obtain ⟨g1, g2⟩ := set_ { cl with cur := some (.write op loc') } hi (by rintro op' ⟨⟩; exact a4 (cont_acc hn)) (by rintro op' r' key ts ⟨⟩; exact a5 _ _ _ (cont_acc hn))
    exact ⟨a0, a1, a2, a3, g1, g2⟩
  | @accReturn i k cl op l m o hu hi hc he hn =>
    have hm := List.mem_of_getElem? hi
    obtain ⟨a0, a1, a2, a3, a4, a5⟩ := Conc.keepPost_exec hk.tags h.lt h.idx h.set h.mem (fun e => h.idxNew cl hm op (by rw [hc, e])) (fun r' key ts e => h.postNew cl hm op r' key ts (by rw [hc, e])) he
    obtain ⟨g1, g2⟩ := set_ { cl with cur := none } hi (by rintro op' ⟨⟩) (by rintro op' r' key ts ⟨⟩)
    exact ⟨a0, a1, a2, a3, g1, g2⟩
  | @beginWrite i k cl op rest hu hi hc ht => exact plain _ hi (by rintro op' l e; cases op <;> cases e <;> exact ⟨by simp, by simp⟩) rfl (Nat.le_refl _) rfl rfl rfl
  | beginRead hu hi hc ht => exact plain _ hi (by rintro op l ⟨⟩) rfl (Nat.le_refl _) rfl rfl rfl
  | msgLen hu hi hc => exact plain _ hi (by rintro op l ⟨⟩) rfl (Nat.le_refl _) rfl rfl rfl
  | msgSize hu hi hc => exact plain _ hi (by rintro op l ⟨⟩) rfl (Nat.le_refl _) rfl rfl rfl
  | sendI hu hi hc he => exact plain _ hi (by rintro op l ⟨⟩; exact ⟨by simp, by simp⟩) rfl (Nat.le_refl _) rfl rfl rfl
  | msgN hu hi hc => exact plain _ hi (by rintro op l ⟨⟩) rfl (Nat.le_refl _) rfl rfl rfl
  | docHit hu hi hc hr => exact plain _ hi (by rintro op l ⟨⟩) rfl (Nat.le_refl _) rfl rfl rfl
  | docMiss hu hi hc hr => exact plain _ hi (by rintro op l ⟨⟩) rfl (Nat.le_succ _) rfl rfl rfl
  | docSet hu hi hc => exact plain _ hi (by rintro op l ⟨⟩) rfl (Nat.le_refl _) rfl rfl rfl
  | docPut hu hi hc he => exact plain _ hi (by rintro op l ⟨⟩) rfl (Nat.le_refl _) rfl rfl rfl
  | readEnd hu hi hc => exact plain _ hi (by rintro op l ⟨⟩) rfl (Nat.le_refl _) rfl rfl rfl
  | readHit hu hi hc hr => exact plain _ hi (by rintro op l ⟨⟩) rfl (Nat.le_refl _) rfl rfl rfl
  | readMiss hu hi hc hr => exact plain _ hi (by rintro op l ⟨⟩) rfl (Nat.le_refl _) rfl rfl rfl
  | readField hu hi hc => exact plain _ hi (by rintro op l ⟨⟩) rfl (Nat.le_refl _) rfl rfl rfl
  | readAbsent hu hi hc hl => exact plain _ hi (by rintro op l ⟨⟩) rfl (Nat.le_refl _) rfl rfl rfl
  | readLoad hu hi hc hl hb => exact plain _ hi (by rintro op l ⟨⟩) rfl (Nat.le_succ _) rfl rfl rfl
  | readPut hu hi hc he => exact plain _ hi (by rintro op l ⟨⟩) rfl (Nat.le_refl _) rfl rfl rfl
  | recvM hi hc he => exact plain _ hi (by rintro op l ⟨⟩; exact ⟨by simp, by simp⟩) rfl (Nat.le_refl _) rfl rfl rfl
  | recvN hi hc he => exact plain _ hi (by rintro op l ⟨⟩; exact ⟨by simp, by simp⟩) rfl (Nat.le_refl _) rfl rfl rfl
  | recvD hi hc he => exact plain _ hi (by rintro op l ⟨⟩) rfl (Nat.le_refl _) rfl rfl rfl
  | ixDown => simp [stop] at hup
  | crash => simp [stop] at hup
  | openRest => cases hno
  | _ => exact ⟨h.lt, h.idx, h.set, h.mem, h.idxNew, h.postNew⟩

/-- a document that is listed, and that nobody saves. -/
structure Settled (f t d : String) (r : Ref String) (sr : Ref (String × String)) (m : GoMap String Field) (s : CDisk) : Prop where
  good : Good s
  gv : GoValues s.hist
  todo : ∀ cl ∈ s.clients, ∀ op ∈ writes cl.todo, op.field.tf.WF
  listed : Listed f t d r sr s
  ro : ReadOnly d m s

theorem Settled.robust {f t d : String} {r : Ref String} {sr : Ref (String × String)} {m : GoMap String Field} : Robust (Settled f t d r sr m) where
  step s a s' h hs hno hup := by
    have hgt : GoValues s'.hist ∧ ∀ cl ∈ s'.clients, ∀ op ∈ writes cl.todo, op.field.tf.WF := by
      have set_ : ∀ {i : Nat} {cl : DClient} (c : DClient), s.clients[i]? = some cl → (∀ op ∈ writes c.todo, op ∈ writes cl.todo) → ∀ cl ∈ s.clients.set i c, ∀ op ∈ writes cl.todo, op.field.tf.WF := by
        intro i cl c hi hc x hx op ho
        rcases LFan.mem_set' hx with rfl | hx
        · exact h.todo cl (List.mem_of_getElem? hi) op (hc op ho)
        · exact h.todo x hx op ho
      cases hs with
      | @beginWrite i k cl op rest hu hi hc ht =>
        refine ⟨?_, set_ _ hi (by intro op' ho; rw [ht]; exact List.mem_cons_of_mem _ ho)⟩
        intro op' ho
        have : op' ∈ s.hist ++ [op] := by simpa [hist] using ho
        rcases List.mem_append.1 this with ho | ho
        · exact h.gv op' ho
        · cases List.mem_singleton.1 ho
          exact h.todo cl (List.mem_of_getElem? hi) _ (by rw [ht]; exact List.mem_cons_self)
      | @beginRead i k cl ids name rest hu hi hc ht => exact ⟨h.gv, set_ _ hi (by intro op' ho; rw [ht]; exact ho)⟩
      | acc hu hi hc he hn => exact ⟨h.gv, set_ _ hi fun _ ho => ho⟩
      | accReturn hu hi hc he hn => exact ⟨h.gv, set_ _ hi fun _ ho => ho⟩
      | msgLen hu hi hc => exact ⟨h.gv, set_ _ hi fun _ ho => ho⟩
      | msgSize hu hi hc => exact ⟨h.gv, set_ _ hi fun _ ho => ho⟩
      | sendI hu hi hc he => exact ⟨h.gv, set_ _ hi fun _ ho => ho⟩
      | msgN hu hi hc => exact ⟨h.gv, set_ _ hi fun _ ho => ho⟩
      | docHit hu hi hc hr => exact ⟨h.gv, set_ _ hi fun _ ho => ho⟩
      | docMiss hu hi hc hr => exact ⟨h.gv, set_ _ hi fun _ ho => ho⟩
      | docSet hu hi hc => exact ⟨h.gv, set_ _ hi fun _ ho => ho⟩
      | docPut hu hi hc he => exact ⟨h.gv, set_ _ hi fun _ ho => ho⟩
      | readEnd hu hi hc => exact ⟨h.gv, set_ _ hi fun _ ho => ho⟩
      | readHit hu hi hc hr => exact ⟨h.gv, set_ _ hi fun _ ho => ho⟩
      | readMiss hu hi hc hr => exact ⟨h.gv, set_ _ hi fun _ ho => ho⟩
      | readField hu hi hc => exact ⟨h.gv, set_ _ hi fun _ ho => ho⟩
      | readAbsent hu hi hc hl => exact ⟨h.gv, set_ _ hi fun _ ho => ho⟩
      | readLoad hu hi hc hl hb => exact ⟨h.gv, set_ _ hi fun _ ho => ho⟩
      | readPut hu hi hc he => exact ⟨h.gv, set_ _ hi fun _ ho => ho⟩
      | recvM hi hc he => exact ⟨h.gv, set_ _ hi fun _ ho => ho⟩
      | recvN hi hc he => exact ⟨h.gv, set_ _ hi fun _ ho => ho⟩
      | recvD hi hc he => exact ⟨h.gv, set_ _ hi fun _ ho => ho⟩
      | ixDown => simp [stop] at hup
      | crash => simp [stop] at hup
      | openRest => cases hno
      | _ => exact ⟨h.gv, h.todo⟩
    refine ⟨Good.robust.step _ _ _ h.good hs hno hup, hgt.1, hgt.2, listed_step h.good.ok h.listed hs hno hup, readOnly_step h.good.ok (h.good.docs h.gv) hs ?_ h.ro⟩
    cases a with
    | openRest => cases hno
    | _ => trivial
  idle s cs h hcs := by
    have hcur : ∀ cl ∈ cs, ∀ c, cl.cur = some c → cl ∈ s.clients := by
      intro cl hcl c hc
      rcases hcs cl hcl with h | ⟨h, -⟩
      · exact h
      · rw [h] at hc; cases hc
    have htodo : ∀ cl ∈ cs, ∀ op ∈ writes cl.todo, cl ∈ s.clients := by
      intro cl hcl op ho
      rcases hcs cl hcl with h | ⟨-, h⟩
      · exact h
      · rw [h] at ho; cases ho
    refine ⟨Good.robust.idle _ _ h.good hcs, h.gv, fun cl hcl op ho => h.todo cl (htodo cl hcl op ho) op ho, ?_, ?_⟩
    · exact ⟨h.listed.lt, h.listed.idx, h.listed.set, h.listed.mem, fun cl hcl op e => h.listed.idxNew cl (hcur cl hcl _ e) op e,
        fun cl hcl op r' key ts e => h.listed.postNew cl (hcur cl hcl _ e) op r' key ts e⟩
    · exact ⟨h.ro.buf, h.ro.file, h.ro.val, fun cl hcl op ho => h.ro.todo cl (htodo cl hcl op ho) op ho, fun cl hcl op loc e => h.ro.cur cl (hcur cl hcl _ e) op loc e,
        fun cl hcl ids name loc e => h.ro.pos cl (hcur cl hcl _ e) ids name loc e, h.ro.ans⟩

/-- the goroutine of a batch that has yet to send the field of `d`. -/
def GDue (d : String) : DBatchG → Prop
  | .waiting ids => d ∈ ids
  | .reading ids _ => d ∈ ids
  | .sending rem => ∃ fl, (d, fl) ∈ rem
  | .done => False

theorem act_due {d : String} (g : DBatchG) (a : GAct (String × Field)) (g' : DBatchG) (h : GDue d g) (ha : DBatchG.Act g a g') : GDue d g' ∨ ∃ x, a = .emit x ∧ x.1 = d := by
  cases ha with
  | acquire ids => exact .inl h
  | send e rem =>
    obtain ⟨fl, h⟩ := h
    rcases List.mem_cons.1 h with h | h
    · exact .inr ⟨e, rfl, by rw [← h]⟩
    · exact .inl ⟨fl, h⟩
  | release => obtain ⟨fl, h⟩ := h; cases h

/-- the search is on its way to `d`. -/
def Will (t d : String) (r : Ref String) (sr : Ref (String × String)) : DSearch → Prop
  | .first (.phase1 _ fan) => LFan.Due (LSearch.TermDue t d r sr) (· = d) TermG.fin fan
  | .first _ => True
  | .phase2 _ fan => LFan.Due (GDue d) (fun e => e.1 = d) DBatchG.fin fan
  | .done _ docs => ∃ fl, docs.get? d = some fl

theorem due_set {d : String} {fan : LFan DBatchG (String × Field)} {i : Nat} {ids : List String} {loc : RLoc} {g : DBatchG} (hg : fan.gs[i]? = some (.reading ids loc)) (hw : d ∈ ids → GDue d g)
    (h : LFan.Due (GDue d) (fun e => e.1 = d) DBatchG.fin fan) : LFan.Due (GDue d) (fun e => e.1 = d) DBatchG.fin { fan with gs := fan.gs.set i g } := by
  obtain ⟨h1, h2⟩ := h
  have hlt : i < fan.gs.length := (List.getElem?_eq_some_iff.1 hg).1
  refine ⟨?_, fun hc => ?_⟩
  · rcases h1 with ⟨g0, hm, hg0⟩ | h1
    · obtain ⟨j, hj⟩ := List.mem_iff_getElem?.1 hm
      by_cases e : i = j
      · subst e
        rw [hg] at hj; cases hj
        exact .inl ⟨g, List.mem_iff_getElem?.2 ⟨i, by simp [hlt]⟩, hw hg0⟩
      · exact .inl ⟨g0, List.mem_iff_getElem?.2 ⟨j, by rw [List.getElem?_set_ne e]; exact hj⟩, hg0⟩
    · exact .inr h1
  · have := h2 hc _ (List.mem_of_getElem? hg)
    cases this

theorem will_move_of {terms : List String} {f t d : String} {cpus : Nat} {r : Ref String} {sr : Ref (String × String)} (ht : t ∈ terms)
    {s s' : DLive} (h1 : s.disk.mem.index.get? f = some r) (h2 : (s.disk.mem.idxCells r).get? t = some sr) (h3 : GoSet.contains (s.disk.mem.setCells sr) d = true)
    (hpos : ∀ st fan (i : Nat) ids out, s.search = .phase2 st fan → fan.gs[i]? = some (.reading ids (.get [] out)) → d ∈ ids → ∃ fl, GoMap.get? out d = some fl)
    (h : Will t d r sr s.search) (hmv : Move terms f cpus s s') : Will t d r sr s'.search := by
  cases hmv with
  | first dk q q' hx he =>
    have fin1 : ∀ (g : TermG) (a : GAct String) (g' : TermG), TermG.fin g = true → ¬ TermG.Act dk.mem f g a g' := by intro g a g' hf ha; cases ha <;> cases hf
    cases hx with
    | begin1 st => exact ⟨.inl ⟨_, List.mem_map.2 ⟨t, ht, rfl⟩, rfl⟩, by rintro ⟨⟩⟩
    | p1 st a b hx => exact LFan.step_due (LSearch.term_due h1 h2 h3) fin1 hx h
    | begin2 => cases he
    | p2 => cases he
    | finish => cases he
    | _ => trivial
  | begin2 dk st fan hf =>
    obtain ⟨x, hx, rfl⟩ := LFan.due_finished (by intro g hg hw; cases g <;> first | exact hw | cases hg) h hf
    obtain ⟨ids, hb, hd⟩ := (mem_makeBatches _ _).2 hx
    exact ⟨.inl ⟨_, List.mem_map.2 ⟨ids, hb, rfl⟩, hd⟩, by rintro ⟨⟩⟩
  | p2 dk st fan fan' hx => exact LFan.step_due act_due (by intro g a g' hf ha; cases ha <;> cases hf) hx h
  | fetch dk dk' st fan i ids loc loc' hg hx => exact due_set hg (fun h => h) h
  | fetched dk dk' st fan i ids loc out rem hg hx hperm =>
    obtain ⟨rfl, rfl⟩ := rexec_inr hx
    refine due_set hg (fun hd => ?_) h
    obtain ⟨fl, e⟩ := hpos st fan i ids out rfl hg hd
    exact ⟨fl, hperm.mem_iff.2 (GoMap.mem_of_get? e)⟩
  | finish dk st fan hf =>
    obtain ⟨x, hx, e⟩ := LFan.due_finished (by intro g hg hw; cases g <;> first | exact hw | cases hg) h hf
    exact collect_complete (d := d) (fl := x.2) (l := fan.out) (by rw [← e]; exact hx)

theorem will_move {terms : List String} {f t d : String} {cpus : Nat} {r : Ref String} {sr : Ref (String × String)} {m : GoMap String Field} {old : Field} (ht : t ∈ terms) (hm : m.get? f = some old)
    {s s' : DLive} {A : List (List String × String × GoMap String Field)} (hp : Settled f t d r sr m (embed f s A)) (h : Will t d r sr s.search) (hmv : Move terms f cpus s s') : Will t d r sr s'.search := by
  refine will_move_of ht hp.listed.idx hp.listed.set hp.listed.mem (fun st fan i ids out hs hg hd => ?_) h hmv
  have hpos := hp.ro.pos ((DBatchG.reading ids (.get [] out)).toClient f) (List.mem_append_right _ (by rw [hs]; exact List.mem_map.2 ⟨_, List.mem_of_getElem? hg, rfl⟩)) ids f _ rfl
  have := hpos.2 hd (by simp)
  rw [Right, hm] at this
  exact ⟨old, this⟩

theorem will_step {terms : List String} {f t d : String} {cpus : Nat} {r : Ref String} {sr : Ref (String × String)} {m : GoMap String Field} {old : Field} (ht : t ∈ terms) (hm : m.get? f = some old)
    {s s' : DLive} (hs : Sim (Settled f t d r sr m) f s) (h : Will t d r sr s.search) (hst : Step terms f cpus s s') : Will t d r sr s'.search := by
  obtain ⟨hu, A, hp, -⟩ := hs
  cases hst with
  | store a d hx hd => exact h
  | search _ hmv => exact will_move ht hm hp h hmv


end DLive
open CDisk

/-- **C99 A search of a Disk store finds what nobody is saving, also while clients use the store.** At a moment when no process runs, the file of document `d` holds the fields `m`. Later processes, of which the last is running when the search begins, save
other documents, and read any. When the search begins, GetDocuments lists `d` under one of its terms in the field, and no call that writes the field is in progress (other calls may be, and any call
may begin later). Then, if the search returns, it returns `d`, with the very field that the file held. -/
theorem c99_live_disk_search_finds {as bs : List CDisk.Act} {s s₀ : CDisk} {d f t : String} {m : GoMap String Field} {old : Field} (h : CDisk.run {} as = some s) (hu : s.up = false)
    (gv : GoValues (written (as ++ bs))) (hfile : (s.load d).map (fun o => o.getD []) = some m) (hno : ∀ op ∈ written bs, op.isSave = true → op.doc ≠ d) (hr : s.run bs = some s₀)
    (hup : s₀.up = true) (stored : m.get? f = some old) (listed : GoSet.contains (s₀.getDocuments f t).1 d = true)
    (quiet : ∀ cl ∈ s₀.clients, ∀ op loc, cl.cur = some (.write op loc) → op.field.name ≠ f) {terms : List String} (ht : t ∈ terms) {cpus : Nat}
    {l : DLive} (hl : Reaches (DLive.Step terms f cpus) ⟨s₀, .first .readLen⟩ l) {st : LStats} {docs : GoMap String Field} (hd : l.search = .done st docs) : docs.get? d = some old := by
  have hrun : CDisk.run {} (as ++ bs) = some s₀ := by rw [CDisk.run_append, h]; exact hr
  have hw := hist_written hrun
  obtain ⟨sr, h1, h2⟩ := (CMem.view_contains _ _ _ _).1 listed
  obtain ⟨r, h3, h4⟩ := Option.bind_eq_some_iff.1 h1
  have hok := ok_run hrun
  have hrt : r.tag = f := hok.tags.idx _ _ h3
  have hset : DLive.Settled f t d r sr m s₀ := by
    refine ⟨DLive.good_run hrun hup, fun op ho => gv op (hw.1 op ho), fun cl hcl op ho => gv op (hw.2 cl hcl op ho), ?_, readOnly_run h hu gv hfile hno hr⟩
    refine ⟨alloc_run hrun _ _ _ h4, h3, h4, h2, fun cl hcl op e => quiet cl hcl op _ e, ?_⟩
    rintro cl hcl op r' key ts e ⟨rfl, rfl⟩
    exact quiet cl hcl op _ e ((hok.cur cl hcl _ e).2.1.1.symm.trans hrt)
  have key := Reaches.invariant (P := fun l => DLive.Sim (DLive.Settled f t d r sr m) f l ∧ DLive.Will t d r sr l.search) hl ⟨DLive.sim_start hup hset, trivial⟩
    (fun l l' hx hst => ⟨DLive.sim_step DLive.Settled.robust hx.1 hst, DLive.will_step ht stored hx.1 hx.2 hst⟩)
  obtain ⟨⟨-, A, hp, hr⟩, hw⟩ := key
  rw [hd] at hw hr
  obtain ⟨fl, he⟩ := hw
  obtain ⟨ids, out, h5, h6⟩ := hr d fl he
  have h7 := GoMap.get?_of_mem (hp.good.out.ans _ h5) h6
  have h8 := hp.ro.ans _ h5 ((hp.good.docs hp.gv).ans _ h5 d fl h7).1
  rw [show GoMap.get? out d = m.get? f from h8, stored] at h7
  rw [he, h7]

/-- **C99, for a document saved before a restart.** In a process with any number of clients, only client `c` used document `d`, in a cache with room for all documents. When the process ended, a save of the field `g` had
returned and was the last one of its name, the index writer was done (`hix`), and so was the writer of documents with `d`. In the next process, whatever its clients do (except saving `d`) and at whatever
moment the search begins, a search of the field for one of the terms of `g` returns `d`, with the field `g` cut to 32 bits. -/
theorem c99_after_restart {as bs : List CDisk.Act} {n n' : Int} {progs progs' : List (List DOp)} {s₁ s s₀ : CDisk} {c k : Nat} {d t : String} {cl : DClient} {g : Field}
    (h1 : CDisk.run {} (as ++ [.openRest n progs]) = some s₁) (gv : GoValues (written (as ++ [.openRest n progs]) ++ progs'.flatMap writes))
    (ho : OneUser c d progs) (hroom : ((progs.flatMap touched).toFinset.card : Int) ≤ n) (hb : ∀ b ∈ bs, noOpen b = true) (h : s₁.run bs = some s) (hu : s.up = true)
    (hcl : s.clients[c]? = some cl) (hq : ∀ op loc, cl.cur = some (.write op loc) → op.doc ≠ d) (hsaved : lastSaved s.returned d g.name = some g) (hix : IxSettled s) (hbuf : s.fl.buf.get? d = none)
    (hr : s.run (CDisk.reopen k n' progs') = some s₀) (hno : ∀ op ∈ progs'.flatMap writes, op.isSave = true → op.doc ≠ d) (hg : t ∈ g.tf.keys)
    {terms : List String} (ht : t ∈ terms) {cpus : Nat} {l : DLive} (hl : Reaches (DLive.Step terms g.name cpus) ⟨s₀, .first .readLen⟩ l) {st : LStats} {docs : GoMap String Field}
    (hd : l.search = .done st docs) : docs.get? d = some (cutField g) := by
  have gv1 : GoValues (written (as ++ [.openRest n progs])) := fun op hop => gv op (List.mem_append_left _ hop)
  have hrun : CDisk.run {} (as ++ [.openRest n progs] ++ bs) = some s := by rw [CDisk.run_append, h1]; exact h
  obtain ⟨o, ho1, ho2, ho3, ho4, ho5⟩ := lastSaved_some_mem _ _ _ _ hsaved
  have hlisted := (c90_complete hrun hu hix hr).1 o ho1 t (by rw [ho5]; exact hg)
  rw [ho4, ho3] at hlisted
  obtain ⟨x, h3, h4⟩ := CDisk.run_cons.1 hr
  obtain ⟨hdown, m, hload, hm⟩ := own_file h1 gv1 ho hroom hb h hu hcl hq hsaved hbuf h3
  have hw : written (.open_ :: (List.replicate k (.ix .merge) ++ [.openRest n' progs'])) = progs'.flatMap writes := by
    have : written (List.replicate k (CDisk.Act.ix .merge)) = [] := written_noOpen (by intro b hb; rw [(List.mem_replicate.1 hb).2]; rfl)
    rw [show CDisk.Act.open_ :: (List.replicate k (.ix .merge) ++ [.openRest n' progs']) = [.open_] ++ (List.replicate k (.ix .merge) ++ [.openRest n' progs']) from rfl, written_append, written_append, this]
    simp [written]
  have hopen : s₀.up = true ∧ ∀ cl ∈ s₀.clients, cl.cur = none := by
    obtain ⟨ix, size, length, nft, -, -, -, -, rfl⟩ := reopen_spec hr
    refine ⟨rfl, fun cl hcl => ?_⟩
    obtain ⟨p, -, rfl⟩ := List.mem_map.1 hcl
    rfl
  refine c99_live_disk_search_finds (CDisk.run_snoc.2 ⟨s, hrun, h3⟩) hdown (fun op hop => gv op ?_) hload (fun op hop => hno op (by rw [← hw]; exact hop)) h4 hopen.1 hm hlisted
    (fun cl hcl op loc e => by rw [hopen.2 cl hcl] at e; cases e) ht hl hd
  rw [written_append (as ++ _ ++ _ ++ _), written_append (as ++ _ ++ _), written_append (as ++ _), written_noOpen hb, show written [CDisk.Act.crash] = [] from rfl, List.append_nil, List.append_nil, hw] at hop
  exact hop

/-! ### a concrete case -/

namespace DLive

/-- the clients work, and the search has not begun. -/
theorem reaches_clients {terms : List String} {f : String} {cpus : Nat} {q : DSearch} {as : List CDisk.Act} : ∀ {as₀ : List CDisk.Act} {s s' : CDisk}, CDisk.run {} as₀ = some s → s.up = true →
    s.run as = some s' → (∀ a ∈ as, prompt a = true) → Reaches (Step terms f cpus) ⟨s, q⟩ ⟨s', q⟩ := by
  induction as with
  | nil => intro as₀ s s' _ _ h _; cases h; exact .refl _
  | cons a as ih =>
    intro as₀ s s' h0 hu h ha
    obtain ⟨t, h1, h2⟩ := CDisk.run_cons.1 h
    have ht : t.up = true := (c91_bounded h0 hu (bs := [a]) (by simpa using ha a (by simp)) (CDisk.run_cons.2 ⟨t, h1, rfl⟩)).2
    exact Reaches.trans (.single (.store ⟨s, q⟩ a t h1 ht)) (ih (CDisk.run_snoc.2 ⟨s, h0, h1⟩) ht h2 fun b hb => ha b (by simp [hb]))

end DLive

/-- both clients save, in turns; the index and document "a" are written, document "b" is not. -/
def firstProcess : List CDisk.Act :=
  turns 7 ++ [.recvM 0, .recvM 1] ++ turns 10 ++ [.recvN 0, .recvN 1] ++ turns 5 ++ [.recvD 0, .recvD 1] ++
  [.ix .recv, .ix .recv, .ix (.tick [("title", [("x", [("a", true), ("b", true)])])]), .ix (.create "u"), .ix .write, .ix .flushed] ++ [.tickD ["a", "b"]] ++ List.replicate 7 .stepD

/-- the clients of the second process. -/
def secondClients : List (List DOp) := [[.write (.save "c" ⟨"title", 3, [("x", 3)]⟩)], [.getFields ["a", "c"] "title"]]

theorem firstProcess_ok : ∃ s, CDisk.run {} (openEmpty 5 [[.write (.save "a" ⟨"title", 1, [("x", 1)]⟩)], [.write (.save "b" ⟨"title", 1, [("x", 1)]⟩)]] ++ firstProcess) = some s ∧
    (s.up = true ∧ lastSaved s.returned "a" "title" = some ⟨"title", 1, [("x", 1)]⟩ ∧ IxSettled s ∧ s.fl.buf.get? "a" = none ∧ (s.clients.map fun cl => cl.cur.isNone) = [true, true] ∧
      (s.getDocuments "title" "x").1 = [("b", true)]) ∧
    ((s.run (CDisk.reopen 12 5 secondClients ++ (List.replicate 6 (.client 0 0) ++ [.client 1 0]))).map fun s => (s.hist, s.clients.map fun cl => cl.cur.isSome)) =
      some ([.save "a" ⟨"title", 1, [("x", 1)]⟩, .save "b" ⟨"title", 1, [("x", 1)]⟩, .save "c" ⟨"title", 3, [("x", 3)]⟩], [true, true]) := by
  obtain ⟨s, h1, h2⟩ := exists_of_run (o := CDisk.run {} (openEmpty 5 [[.write (.save "a" ⟨"title", 1, [("x", 1)]⟩)], [.write (.save "b" ⟨"title", 1, [("x", 1)]⟩)]] ++ firstProcess)) (P := fun s =>
    (s.up = true ∧ lastSaved s.returned "a" "title" = some ⟨"title", 1, [("x", 1)]⟩ ∧ IxSettled s ∧ s.fl.buf.get? "a" = none ∧ (s.clients.map fun cl => cl.cur.isNone) = [true, true] ∧
      (s.getDocuments "title" "x").1 = [("b", true)]) ∧
    ((s.run (CDisk.reopen 12 5 secondClients ++ (List.replicate 6 (.client 0 0) ++ [.client 1 0]))).map fun s => (s.hist, s.clients.map fun cl => cl.cur.isSome)) =
      some ([.save "a" ⟨"title", 1, [("x", 1)]⟩, .save "b" ⟨"title", 1, [("x", 1)]⟩, .save "c" ⟨"title", 3, [("x", 3)]⟩], [true, true])) (by decide +kernel)
  exact ⟨s, h1, h2⟩

theorem DLive.clients_moves {terms : List String} {f : String} {cpus : Nat} {s s' : DLive} (h : Reaches (DLive.Move terms f cpus) s s') : s'.disk.hist = s.disk.hist ∧ s'.disk.clients = s.disk.clients :=
  h.invariant (P := fun s' => s'.disk.hist = s.disk.hist ∧ s'.disk.clients = s.disk.clients) ⟨rfl, rfl⟩ fun a b ih hm => by
    cases hm with
    | fetch d d' st fan i ids loc loc' hg hx => exact ⟨(rexec_clients hx).2.1.trans ih.1, (rexec_clients hx).1.trans ih.2⟩
    | fetched d d' st fan i ids loc out rem hg hx hp => exact ⟨(rexec_clients hx).2.1.trans ih.1, (rexec_clients hx).1.trans ih.2⟩
    | _ => exact ih

/-- the hypotheses of C98 and C99 are met, and they say something: the posting of "a" was lost in memory by two clients saving at once, and came back with the restart. A search of the second process that begins while one
client is saving "c" and another is reading returns while they are still in their calls, and it returns "a". -/
example : ∃ (s₀ : CDisk) (l : DLive) (st : LStats) (docs : GoMap String Field), Reaches (DLive.Step ["x"] "title" 4) ⟨s₀, .first .readLen⟩ l ∧ l.search = .done st docs ∧
    docs.get? "a" = some ⟨"title", 1, [("x", 1)]⟩ ∧ StoreOp.save "c" ⟨"title", 3, [("x", 3)]⟩ ∈ l.disk.hist ∧ (l.disk.clients.map fun cl => cl.cur.isSome) = [true, true] := by
  obtain ⟨s, h, ⟨hu, hsv, hix, hbuf, hcl, -⟩, hsome⟩ := firstProcess_ok
  obtain ⟨s₃, h3, h4⟩ := Option.map_eq_some_iff.1 hsome
  rw [Prod.mk.injEq] at h4
  rw [CDisk.run_append] at h3
  obtain ⟨s₀, h5, h6⟩ := Option.bind_eq_some_iff.1 h3
  have h' := h
  rw [CDisk.run_append] at h'
  obtain ⟨s₁, h1, h2⟩ := Option.bind_eq_some_iff.1 h'
  have hrun0 : CDisk.run {} (openEmpty 5 [[.write (.save "a" ⟨"title", 1, [("x", 1)]⟩)], [.write (.save "b" ⟨"title", 1, [("x", 1)]⟩)]] ++ firstProcess ++ CDisk.reopen 12 5 secondClients) = some s₀ := by
    rw [CDisk.run_append, h]; exact h5
  have hup0 : s₀.up = true := by obtain ⟨ix, size, length, nft, -, -, -, -, rfl⟩ := reopen_spec h5; rfl
  have hreach := DLive.reaches_clients (terms := ["x"]) (f := "title") (cpus := 4) (q := .first .readLen) hrun0 hup0 h6 (by decide)
  have roomy : Roomy (openEmpty 5 [[.write (.save "a" ⟨"title", 1, [("x", 1)]⟩)], [.write (.save "b" ⟨"title", 1, [("x", 1)]⟩)]] ++ firstProcess ++ CDisk.reopen 12 5 secondClients) := by
    intro n progs hm
    simp [openEmpty, firstProcess, CDisk.reopen, turns] at hm
    omega
  have gvh : GoValues s₃.hist := by
    rw [h4.1]; unfold GoValues; decide
  obtain ⟨l, st, docs, hm, hd⟩ := ((c98_live_disk_search_ends hrun0 hup0 roomy (terms := ["x"]) (f := "title") (cpus := 4) (by decide)).1 _ hreach gvh).2
  obtain ⟨e1, e2⟩ := DLive.clients_moves hm
  have hl := hreach.trans (DLive.moves hm)
  obtain ⟨cl, hcl0⟩ : ∃ cl, s.clients[0]? = some cl ∧ cl.cur = none := by
    cases hc : s.clients with
    | nil => rw [hc] at hcl; cases hcl
    | cons x xs =>
      rw [hc] at hcl
      simp only [List.map_cons, List.cons.injEq, Option.isNone_iff_eq_none] at hcl
      exact ⟨x, rfl, hcl.1⟩
  refine ⟨s₀, l, st, docs, hl, hd, ?_, by rw [e1]; show _ ∈ s₃.hist; rw [h4.1]; decide, by rw [e2]; exact h4.2⟩
  refine c99_after_restart (as := [.open_, .ix .merge]) (n := 5) (progs := [[.write (.save "a" ⟨"title", 1, [("x", 1)]⟩)], [.write (.save "b" ⟨"title", 1, [("x", 1)]⟩)]]) (c := 0) (t := "x") (g := ⟨"title", 1, [("x", 1)]⟩) h1 ?_ ?_ (by decide) (by decide)
    h2 hu hcl0.1 (fun op loc e => by rw [hcl0.2] at e; cases e) hsv hix hbuf h5 (by decide) (by decide) (by decide) hl hd
  · unfold GoValues; decide
  · intro j p hj hne
    match j with
    | 0 => exact absurd rfl hne
    | 1 => cases hj; decide
    | j + 2 => cases hj

end Goir
