import Verif.Props.ServerFinds
import Verif.Props.LiveSearchRest
/-!
# C103: the searches of a server that nobody writes to
-/
namespace Goir
open GoMap Spec

namespace CDisk

/-- no client writes or will. -/
def NoWrites (s : CDisk) : Prop := ∀ cl ∈ s.clients, writes cl.todo = [] ∧ ∀ op loc, cl.cur ≠ some (.write op loc)

theorem noWrites_step {s s' : CDisk} {a : Act} (h : NoWrites s) (hs : Step s a s') (ha : ∀ n progs, a = .openRest n progs → progs.flatMap writes = []) : NoWrites s' := by
  have set_ : ∀ {i : Nat} {cl : DClient} (c : DClient), s.clients[i]? = some cl → (∀ op ∈ writes c.todo, op ∈ writes cl.todo) → (∀ op loc, c.cur ≠ some (.write op loc)) →
      ∀ cl ∈ s.clients.set i c, writes cl.todo = [] ∧ ∀ op loc, cl.cur ≠ some (.write op loc) := by
    intro i cl c hi hc hw x hx
    rcases LFan.mem_set' hx with rfl | hx
    · refine ⟨List.eq_nil_iff_forall_not_mem.2 fun op ho => ?_, hw⟩
      have := hc op ho
      rw [(h cl (List.mem_of_getElem? hi)).1] at this
      cases this
    · exact h x hx
  have no : ∀ {i : Nat} {cl : DClient} {op : StoreOp} {loc : WLoc}, s.clients[i]? = some cl → cl.cur = some (.write op loc) → False := fun hi hc => (h _ (List.mem_of_getElem? hi)).2 _ _ hc
  cases hs with
  | beginWrite hu hi hc ht =>
    have := (h _ (List.mem_of_getElem? hi)).1
    rw [ht] at this; cases this
  | beginRead hu hi hc ht => exact set_ _ hi (by intro op' ho; rw [ht]; exact ho) (by intro op loc e; cases e)
  | acc hu hi hc he hn => exact (no hi hc).elim
  | accReturn hu hi hc he hn => exact (no hi hc).elim
  | msgLen hu hi hc => exact (no hi hc).elim
  | msgSize hu hi hc => exact (no hi hc).elim
  | sendI hu hi hc he => exact (no hi hc).elim
  | msgN hu hi hc => exact (no hi hc).elim
  | docHit hu hi hc hr => exact (no hi hc).elim
  | docMiss hu hi hc hr => exact (no hi hc).elim
  | docSet hu hi hc => exact (no hi hc).elim
  | docPut hu hi hc he => exact (no hi hc).elim
  | readEnd hu hi hc => exact set_ _ hi (fun _ h => h) (by intro op loc e; cases e)
  | readHit hu hi hc hr => exact set_ _ hi (fun _ h => h) (by intro op loc e; cases e)
  | readMiss hu hi hc hr => exact set_ _ hi (fun _ h => h) (by intro op loc e; cases e)
  | readField hu hi hc => exact set_ _ hi (fun _ h => h) (by intro op loc e; cases e)
  | readAbsent hu hi hc hl => exact set_ _ hi (fun _ h => h) (by intro op loc e; cases e)
  | readLoad hu hi hc hl hb => exact set_ _ hi (fun _ h => h) (by intro op loc e; cases e)
  | readPut hu hi hc he => exact set_ _ hi (fun _ h => h) (by intro op loc e; cases e)
  | recvM hi hc he => exact (no hi hc).elim
  | recvN hi hc he => exact (no hi hc).elim
  | recvD hi hc he => exact (no hi hc).elim
  | ixDown hb hu he hp => intro cl hcl; simp [stop] at hcl
  | crash he => intro cl hcl; simp [stop] at hcl
  | @openRest n progs hp hu hm hn =>
    intro cl hcl
    obtain ⟨p, hp, rfl⟩ := List.mem_map.1 hcl
    refine ⟨List.eq_nil_iff_forall_not_mem.2 fun op ho => ?_, by intro op loc e; cases e⟩
    have : op ∈ progs.flatMap writes := List.mem_flatMap.2 ⟨p, hp, ho⟩
    rw [ha n progs rfl] at this; cases this
  | _ => exact h

/-- the store in memory, apart from the documents, stays as it is. -/
theorem noWrites_mem {s s' : CDisk} {a : Act} (h : NoWrites s) (hs : Step s a s') (hu : s.up = true) (hup : s'.up = true) : ∃ dc n, s'.mem = { s.mem with docCells := dc, next := n } := by
  have no : ∀ {i : Nat} {cl : DClient} {op : StoreOp} {loc : WLoc}, s.clients[i]? = some cl → cl.cur = some (.write op loc) → False := fun hi hc => (h _ (List.mem_of_getElem? hi)).2 _ _ hc
  cases hs with
  | acc hu hi hc he hn => exact (no hi hc).elim
  | accReturn hu hi hc he hn => exact (no hi hc).elim
  | openRest hp hu' hm hn => rw [hu] at hu'; cases hu'
  | ixDown => simp [stop] at hup
  | crash => simp [stop] at hup
  | _ => exact ⟨_, _, rfl⟩

end CDisk

namespace Server
open CDisk DLive
variable {F : Type} [GoFloat F]

/-- the clients only read. -/
def OnlyReads (a : CDisk.Act) : Prop := ∀ n progs, a = .openRest n progs → progs.flatMap writes = []

theorem onlyReads_noOpen (a : CDisk.Act) (h : noOpen a = true) : OnlyReads a := by rintro n progs rfl; cases h

theorem OnlyReads.spares {a : CDisk.Act} (h : OnlyReads a) (d : String) : Spares d a := by
  intro n progs e op ho
  rw [h n progs e] at ho; cases ho

structure Still (files : String → GoMap String Field) (s : CDisk) : Prop where
  quiet : NoWrites s
  kept : ∀ d, Kept d (files d) s

theorem still_steady (files : String → GoMap String Field) : Steady OnlyReads (Still files) where
  step s a s' h hs ha := ⟨noWrites_step h.quiet hs ha, fun d => (kept_steady d (files d)).step s a s' (h.kept d) hs (OnlyReads.spares ha d)⟩
  idle s cs h hu hcs := by
    refine ⟨fun cl hcl => ?_, fun d => (kept_steady d (files d)).idle s cs (h.kept d) hu hcs⟩
    rcases hcs cl hcl with hc | ⟨h1, h2⟩
    · exact h.quiet cl hc
    · exact ⟨h2, fun op loc e => (by rw [h1] at e; cases e)⟩

/-- the goroutine of a batch has listed documents. -/
def GRest (m : CMem) (terms : List String) (f : String) : DBatchG → Prop
  | .waiting ids => ∀ id ∈ ids, LSearch.Listed m terms f id
  | .reading ids _ => ∀ id ∈ ids, LSearch.Listed m terms f id
  | .sending rem => ∀ e ∈ rem, LSearch.Listed m terms f e.1
  | .done => True

/-- a search has listed documents. -/
def Rest (m : CMem) (terms : List String) (f : String) : DSearch → Prop
  | .first (.phase1 _ fan) => (∀ g ∈ fan.gs, LSearch.TermRest m terms f g) ∧ ∀ x ∈ fan.chan ++ fan.out, LSearch.Listed m terms f x
  | .first _ => True
  | .phase2 _ fan => (∀ g ∈ fan.gs, GRest m terms f g) ∧ ∀ e ∈ fan.chan ++ fan.out, LSearch.Listed m terms f e.1
  | .done _ docs => ∀ d fl, docs.get? d = some fl → LSearch.Listed m terms f d

/-- … and the numbers of the store. -/
def Stats (m : CMem) (terms : List String) (f : String) : DSearch → Prop
  | .first q => LSearch.StatsRest m terms f (m.fieldLength.getD f 0) (m.fieldSize.getD f 0) q
  | .phase2 st _ => st.len = m.fieldLength.getD f 0 ∧ st.size = m.fieldSize.getD f 0 ∧ ∀ t, st.nft.get? t = if t ∈ terms then some (m.df f t) else none
  | .done st _ => st.len = m.fieldLength.getD f 0 ∧ st.size = m.fieldSize.getD f 0 ∧ ∀ t, st.nft.get? t = if t ∈ terms then some (m.df f t) else none

theorem act_rest {m : CMem} {terms : List String} {f : String} (g : DBatchG) (a : GAct (String × Field)) (g' : DBatchG) (hg : GRest m terms f g) (ha : DBatchG.Act g a g') :
    GRest m terms f g' ∧ ∀ x, a = .emit x → LSearch.Listed m terms f x.1 := by
  cases ha with
  | acquire ids => exact ⟨hg, by rintro x ⟨⟩⟩
  | send e rem => exact ⟨fun e' he => hg e' (List.mem_cons_of_mem _ he), by rintro x ⟨⟩; exact hg _ List.mem_cons_self⟩
  | release => exact ⟨trivial, by rintro x ⟨⟩⟩

theorem rest_move {terms : List String} {f : String} {cpus : Nat} {s s' : DLive} (hsim : Sim DLive.Good f s) (gv : GoValues s.disk.hist) (hh : Rest s.disk.mem terms f s.search) (hm : DLive.Move terms f cpus s s') :
    Rest s.disk.mem terms f s'.search := by
  cases hm with
  | first d q q' hx he =>
    cases hx with
    | begin1 st =>
      refine ⟨?_, by simp⟩
      intro g hg
      obtain ⟨t, ht, rfl⟩ := List.mem_map.1 hg
      exact ht
    | p1 st a b hx => exact LFan.step_all LSearch.term_rest hx hh
    | begin2 => cases he
    | p2 => cases he
    | finish => cases he
    | _ => trivial
  | begin2 d st fan hf =>
    refine ⟨?_, by simp⟩
    intro g hg
    obtain ⟨ids, hb, rfl⟩ := List.mem_map.1 hg
    intro id hid
    exact hh.2 id (List.mem_append_right _ ((mem_makeBatches _ _).1 ⟨ids, hb, hid⟩))
  | p2 d st fan fan' hx => exact LFan.step_all act_rest hx hh
  | fetch d d' st fan i ids loc loc' hg hx =>
    refine ⟨fun g hm => ?_, hh.2⟩
    rcases LFan.mem_set' hm with rfl | hm
    · exact (hh.1 _ (List.mem_of_getElem? hg) :)
    · exact hh.1 g hm
  | fetched d d' st fan i ids loc out rem hg hx hp =>
    obtain ⟨hl, rfl⟩ := rexec_inr hx
    refine ⟨fun g hm => ?_, hh.2⟩
    rcases LFan.mem_set' hm with rfl | hm
    · intro e he
      have hids : ∀ id ∈ ids, LSearch.Listed d'.mem terms f id := hh.1 _ (List.mem_of_getElem? hg)
      have ho := out_ids hsim gv rfl hg
      rw [hl] at ho
      obtain ⟨v, hv⟩ := (GoMap.mem_keys_iff out e.1).1 (List.mem_map.2 ⟨e, hp.mem_iff.1 he, rfl⟩)
      exact hids _ (ho e.1 v hv).1
    · exact hh.1 g hm
  | finish d st fan hf => exact fun d' fl e => hh.2 (d', fl) (List.mem_append_right _ (collect_sound e))

theorem stats_move {terms : List String} {f : String} {cpus : Nat} {s s' : DLive} (hh : Stats s.disk.mem terms f s.search) (hm : DLive.Move terms f cpus s s') : Stats s.disk.mem terms f s'.search := by
  cases hm with
  | first d q q' hx he => exact LSearch.statsRest_step hh hx
  | _ => exact hh

/-- what is known of the goroutine of a query. -/
structure Exact (files : String → GoMap String Field) (m : CMem) (q : Query F) (x : DSearch) : Prop where
  rest : Rest m q.terms q.fieldName x
  stats : Stats m q.terms q.fieldName x
  will : ∀ t ∈ q.terms, ∀ d r sr old, m.index.get? q.fieldName = some r → (m.idxCells r).get? t = some sr → GoSet.contains (m.setCells sr) d = true → (files d).get? q.fieldName = some old → Will t d r sr x

omit [GoFloat F] in
theorem Exact.static {files : String → GoMap String Field} {m : CMem} (dc : Ref String → GoMap String Field) (n : Nat) {q : Query F} {x : DSearch} (h : Exact files m q x) :
    Exact files { m with docCells := dc, next := n } q x := by
  refine ⟨?_, ?_, h.will⟩
  · have := h.rest
    cases x with
    | first y =>
      cases y with
      | phase1 st fan =>
        refine ⟨fun g hg => ?_, this.2⟩
        have := this.1 g hg
        cases g <;> exact this
      | _ => trivial
    | phase2 st fan =>
      refine ⟨fun g hg => ?_, this.2⟩
      have := this.1 g hg
      cases g <;> exact this
    | done st docs => exact this
  · have := h.stats
    cases x with
    | first y => cases y <;> exact this
    | _ => exact this

/-- what is known of an answer. -/
structure Right (files : String → GoMap String Field) (m : CMem) (q : Query F) (st : LStats) (docs : GoMap String Field) : Prop where
  docs : ∀ d fl, docs.get? d = some fl ↔ LSearch.Listed m q.terms q.fieldName d ∧ (files d).get? q.fieldName = some fl
  stats : st.len = m.fieldLength.getD q.fieldName 0 ∧ st.size = m.fieldSize.getD q.fieldName 0 ∧ ∀ t, st.nft.get? t = if t ∈ q.terms then some (m.df q.fieldName t) else none

omit [GoFloat F] in
theorem Right.static {files : String → GoMap String Field} {m : CMem} (dc : Ref String → GoMap String Field) (n : Nat) {q : Query F} {st : LStats} {docs : GoMap String Field} (h : Right files m q st docs) :
    Right files { m with docCells := dc, next := n } q st docs := ⟨h.docs, h.stats⟩

structure AtRest (files : String → GoMap String Field) (s : Server F) : Prop where
  sound : Sound s
  held : Held (Still files) s
  alloc : Conc.Alloc s.disk.mem
  exact : Threads (fun d q x => Exact files d.mem q x) s
  col : ∀ r ∈ s.reqs, DReq.Collects (Right files s.disk.mem) r

theorem AtRest.gv {files : String → GoMap String Field} {s : Server F} (h : AtRest files s) : GoValues s.disk.hist := by
  obtain ⟨-, A, hp, -⟩ := h.held
  exact (hp.kept "").gv

theorem AtRest.quiet {files : String → GoMap String Field} {s : Server F} (h : AtRest files s) : NoWrites s.disk := by
  obtain ⟨-, A, hp, -⟩ := h.held
  exact fun cl hcl => hp.quiet cl (List.mem_append_left _ hcl)

/-- the search of a query, seen alone, for a document that is listed. -/
theorem AtRest.settled {files : String → GoMap String Field} {s : Server F} (h : AtRest files s) {r : DReq F} (hr : r ∈ s.reqs) {q : Query F} {x : DSearch} (hx : (q, .running x) ∈ r.threads) :
    ∃ A, SRead q.fieldName A x ∧ (∀ d, Kept d (files d) (embed q.fieldName ⟨s.disk, x⟩ A)) ∧
      ∀ t d rf sr, s.disk.mem.index.get? q.fieldName = some rf → (s.disk.mem.idxCells rf).get? t = some sr → GoSet.contains (s.disk.mem.setCells sr) d = true →
        Settled q.fieldName t d rf sr (files d) (embed q.fieldName ⟨s.disk, x⟩ A) := by
  obtain ⟨hu, A, ⟨hp, -⟩, hread⟩ := h.held.sim (still_steady files) hr hx
  refine ⟨A, hread, hp.kept, fun t d rf sr h1 h2 h3 => ?_⟩
  refine settled_of ⟨⟨hp.kept d, fun _ => ⟨h.alloc _ _ _ h2, h1, h2, h3, fun cl hcl op e => absurd e ((hp.quiet cl hcl).2 _ _), fun cl hcl op r' key ts e => absurd e ((hp.quiet cl hcl).2 _ _)⟩⟩, hu⟩

/-- at the end of the search of a query. -/
theorem AtRest.done {files : String → GoMap String Field} {s : Server F} (h : AtRest files s) {r : DReq F} (hr : r ∈ s.reqs) {q : Query F} {st : LStats} {docs : GoMap String Field}
    (hx : (q, .running (.done st docs)) ∈ r.threads) : Right files s.disk.mem q st docs := by
  obtain ⟨A, hread, hk, -⟩ := h.settled hr hx
  have he := h.exact r hr q _ hx
  have right : ∀ d fl, docs.get? d = some fl → (files d).get? q.fieldName = some fl := by
    intro d fl e
    obtain ⟨ids, out, h5, h6⟩ := hread d fl e
    have hp := hk d
    have h7 := GoMap.get?_of_mem (hp.good.out.ans _ h5) h6
    have h8 := hp.ro.ans _ h5 ((hp.good.docs hp.gv).ans _ h5 d fl h7).1
    rw [← h7]
    exact h8.symm
  refine ⟨fun d fl => ⟨fun e => ⟨he.rest d fl e, right d fl e⟩, ?_⟩, he.stats⟩
  rintro ⟨⟨t, ht, hl⟩, hf⟩
  obtain ⟨sr, h1, h2⟩ := (CMem.view_contains _ _ _ _).1 hl
  obtain ⟨rf, h3, h4⟩ := Option.bind_eq_some_iff.1 h1
  obtain ⟨fl', e⟩ := he.will t ht d rf sr fl h3 h4 h2 hf
  have := right d fl' e
  rw [hf] at this
  cases this
  exact e

theorem atRest_step {files : String → GoMap String Field} {cpus : Nat} {s s' : Server F} (h : AtRest files s) (hs : Step OnlyReads cpus s s') : AtRest files s' := by
  refine ⟨sound_step h.sound hs, held_step (still_steady files) onlyReads_noOpen h.held hs, ?_, ?_, ?_⟩
  · cases hs with
    | store a d ha hx => exact CDisk.alloc_step h.alloc (exec_step hx)
    | arrive query hu => exact h.alloc
    | req i r r' d hi hm =>
      cases hm with
      | inner _ _ j q x x' ht hm => exact alloc_move h.alloc hm
      | _ => exact h.alloc
  · refine threads_step h.exact hs (fun q _ => ⟨trivial, ⟨rfl, rfl⟩, fun _ _ _ _ _ _ _ _ _ _ => trivial⟩) (fun a d q x hne hx hd he => ?_) fun d r q x x' hr hx hm he => ?_
    · obtain ⟨r, hr⟩ := List.exists_mem_of_ne_nil _ hne
      obtain ⟨dc, n, e⟩ := noWrites_mem h.quiet (exec_step hx) (h.held.up hr) hd
      show Exact files d.mem q x
      rw [e]; exact he.static dc n
    · obtain ⟨-, -, -, -, dc, n, -, e⟩ := move_frame hm
      have e : d.mem = { s.disk.mem with docCells := dc, next := n } := e
      refine ⟨?_, fun q' y hy => ?_⟩
      · show Exact files d.mem q x'
        rw [e]
        obtain ⟨A, -, -, hset⟩ := h.settled hr hx
        refine Exact.static dc n ⟨rest_move (s := ⟨s.disk, x⟩) (h.sound.sim hr hx) h.gv he.rest hm, stats_move (s := ⟨s.disk, x⟩) he.stats hm, fun t ht d' rf sr old h1 h2 h3 h4 => ?_⟩
        exact will_move ht h4 (hset t d' rf sr h1 h2 h3) (he.will t ht d' rf sr old h1 h2 h3 h4) hm
      · show Exact files d.mem q' y
        rw [e]; exact Exact.static dc n hy
  · have hold := h.col
    cases hs with
    | store a d ha hx =>
      intro r hr
      cases hd : d.up with
      | true =>
        have hr : r ∈ s.reqs := by simpa [hd] using hr
        obtain ⟨dc, n, e⟩ := noWrites_mem h.quiet (exec_step hx) (h.held.up hr) hd
        show DReq.Collects (Right files d.mem) r
        rw [e]
        exact (hold r hr).mono fun q st docs ht => ht.static dc n
      | false => simp [hd] at hr
    | arrive query hu =>
      intro r hr
      rcases List.mem_append.1 hr with hr | hr
      · exact hold r hr
      · cases List.mem_singleton.1 hr
        exact DReq.collects_start _ query
    | req i r r' d hi hm =>
      have hmem := List.mem_of_getElem? hi
      have e : ∃ dc n, d.mem = { s.disk.mem with docCells := dc, next := n } := by
        cases hm with
        | inner _ _ j q x x' ht hm =>
          obtain ⟨-, -, -, -, dc, n, -, e⟩ := move_frame hm
          exact ⟨dc, n, e⟩
        | _ => exact ⟨_, _, rfl⟩
      obtain ⟨dc, n, e⟩ := e
      intro r0 hr0
      show DReq.Collects (Right files d.mem) r0
      rw [e]
      refine DReq.Collects.mono (fun q st docs ht => Right.static dc n ht) ?_
      rcases LFan.mem_set' hr0 with rfl | hr0
      · exact DReq.collects_move (hold r hmem) hm fun q st docs hx => ⟨h.done hmem hx, h.sound.wf r hmem q _ hx⟩
      · exact hold r0 hr0

/-- the file of a document can be read. -/
theorem load_onDisk {s : Server F} (h : Sound s) (gv : GoValues s.disk.hist) (d : String) : (s.disk.load d).map (fun o => o.getD []) = some (s.disk.onDisk d) := by
  obtain ⟨-, A, hp, -⟩ := h.held
  have hd : DocsOk (s.disk.re (s.disk.clients ++ readers s.reqs) A) := hp.docs gv
  have hl : ∃ o, s.disk.load d = some o := by
    unfold load
    cases hcur : (s.disk.fl.file d).cur with
    | none => exact ⟨_, rfl⟩
    | some c =>
      obtain ⟨b, rfl, m, hm, -⟩ := hd.file d c hcur
      exact ⟨some m, by simp [hm]⟩
  obtain ⟨o, hl⟩ := hl
  unfold onDisk
  rw [hl]; rfl

theorem atRest_down {s : Server F} (h : Sound s) (hal : Conc.Alloc s.disk.mem) (hu : s.disk.up = false) (gv : GoValues s.disk.hist) : AtRest s.disk.onDisk s := by
  have hr : s.reqs = [] := h.held.1 hu
  have hk : ∀ d, Kept d (s.disk.onDisk d) (s.disk.re (s.disk.clients ++ readers s.reqs) []) := by
    intro d
    obtain ⟨-, A, hp, -⟩ := kept_down h hu gv (load_onDisk h gv d)
    have hA : A = [] := (hp.good.ok.off hu).answers
    exact hA ▸ hp
  refine ⟨h, ⟨h.held.1, [], ⟨?_, hk⟩, fun r hm => (by rw [hr] at hm; cases hm)⟩, hal, fun r hm => (by rw [hr] at hm; cases hm), fun r hm => (by rw [hr] at hm; cases hm)⟩
  intro cl hcl
  have : (s.disk.re (s.disk.clients ++ readers s.reqs) []).clients = [] := ((hk "").good.ok.off hu).clients
  rw [this] at hcl; cases hcl

theorem alloc_server {allow : CDisk.Act → Prop} {cpus : Nat} {s s' : Server F} (h : Conc.Alloc s.disk.mem) (hs : Step allow cpus s s') : Conc.Alloc s'.disk.mem := by
  cases hs with
  | store a d ha hx => exact CDisk.alloc_step h (exec_step hx)
  | arrive query hu => exact h
  | req i r r' d hi hm =>
    cases hm with
    | inner _ _ j q x x' ht hm => exact alloc_move h hm
    | _ => exact h

end Server

/-- GetFields from files, per document. -/
theorem readsOf_fields (s : CDisk) (files : String → GoMap String Field) (ids : List String) (f d : String) :
    ((s.readsOf files).getFields ids f).get? d = if d ∈ ids then (files d).get? f else none := by
  have key : ∀ (out : GoMap String Field), (ids.foldl (CDisk.addField files f) out).get? d =
      if d ∈ ids ∧ (files d).get? f ≠ none then (files d).get? f else out.get? d := by
    induction ids with
    | nil => intro out; simp
    | cons i ids ih =>
      intro out
      rw [List.foldl_cons, ih]
      by_cases hd : d ∈ ids ∧ (files d).get? f ≠ none
      · rw [if_pos hd, if_pos ⟨List.mem_cons_of_mem _ hd.1, hd.2⟩]
      · rw [if_neg hd]
        by_cases hi : d = i
        · subst hi
          unfold CDisk.addField
          cases hx : (files d).get? f with
          | none => simp
          | some fl => simp
        · have : ¬ (d ∈ i :: ids ∧ (files d).get? f ≠ none) := by
            rintro ⟨h1, h2⟩
            rcases List.mem_cons.1 h1 with h1 | h1
            · exact hi h1
            · exact hd ⟨h1, h2⟩
          rw [if_neg this]
          unfold CDisk.addField
          cases hx : (files i).get? f with
          | none => rfl
          | some fl => exact GoMap.get?_set_ne _ _ (Ne.symm hi)
  show GoMap.get? (ids.foldl (CDisk.addField files f) []) d = _
  rw [key []]
  by_cases hd : d ∈ ids
  · cases hx : (files d).get? f with
    | none => simp
    | some fl => simp [hd]
  · simp [hd]

theorem bm25_congr {F : Type} [GoFloat F] {terms : List String} {k1 b boost avg total : F} {nft nft' : GoMap String Int} {field : Field} (h : ∀ t, nft.get? t = nft'.get? t) :
    bm25 terms k1 b boost avg total nft field = bm25 terms k1 b boost avg total nft' field := by
  have hs : ∀ boost : F, bm25Step k1 b boost avg total nft field = bm25Step k1 b boost avg total nft' field := by
    intro boost
    funext score term
    unfold bm25Step
    have : nft.getD term 0 = nft'.getD term 0 := by unfold GoMap.getD; rw [h]
    rw [this]
  unfold bm25
  simp only [hs]

/-- an answer that is right gives the scores of the store. -/
theorem Server.Right.score {F : Type} [GoFloat F] {files : String → GoMap String Field} {s : CDisk} {a : Answer F} (h : Server.Right files s.mem a.query a.stats a.docs) (d : String) :
    a.score d = queryScore (s.readsOf files) a.query d := by
  obtain ⟨hd, h1, h2, h3⟩ := h
  have hl : (s.readsOf files).matches a.query.fieldName a.query.terms d = true ↔ LSearch.Listed s.mem a.query.terms a.query.fieldName d := by
    unfold Reads.matches LSearch.Listed Reads.has
    rw [List.any_eq_true]
    constructor
    · rintro ⟨t, ht, hx⟩
      exact ⟨t, ht, (Bool.and_eq_true_iff.1 hx).2⟩
    · rintro ⟨t, ht, hx⟩
      refine ⟨t, ht, Bool.and_eq_true_iff.2 ⟨?_, hx⟩⟩
      obtain ⟨sr, h4, -⟩ := (CMem.view_contains _ _ _ _).1 hx
      exact (CMem.view_ok _ _ _).2 ⟨sr, h4⟩
  have hf : (s.readsOf files).fieldOf d a.query.fieldName = (files d).get? a.query.fieldName := by
    unfold Reads.fieldOf
    rw [readsOf_fields]; simp
  have e : a.docs.get? d = if (s.readsOf files).matches a.query.fieldName a.query.terms d = true then (s.readsOf files).fieldOf d a.query.fieldName else none := by
    rw [hf]
    by_cases hm : (s.readsOf files).matches a.query.fieldName a.query.terms d = true
    · rw [if_pos hm]
      cases hx : (files d).get? a.query.fieldName with
      | some fl => exact (hd d fl).2 ⟨hl.1 hm, hx⟩
      | none =>
        cases hy : a.docs.get? d with
        | none => rfl
        | some fl => have := ((hd d fl).1 hy).2; rw [hx] at this; cases this
    · rw [if_neg hm]
      cases hy : a.docs.get? d with
      | none => rfl
      | some fl => exact absurd (hl.2 ((hd d fl).1 hy).1) hm
  unfold Answer.score queryScore
  rw [e]
  split
  · congr 1
    funext field
    rw [h1, h2]
    exact bm25_congr fun t => by rw [h3]; exact (CMem.view_nft _ _ _ _).symm
  · rfl

/-- **C103 Searches do not disturb each other.** Since a moment when no process ran, nobody saved anything: the clients only read, and any number of searches run at the same time, in any number of processes one after the other. Every
search returns what Standard.Search returns on a store that stands still (C59): each document that is listed for a term of a query and whose file has the field, once, with the sum of its BM25 scores by the numbers of the store. -/
theorem c103_searches_do_not_interfere {F : Type} [GoFloat F] {allow : CDisk.Act → Prop} {cpus : Nat} {s₁ s : Server F} (h1 : Reaches (Server.Step allow cpus) ({} : Server F) s₁) (hd : s₁.disk.up = false)
    (gv : GoValues s₁.disk.hist) (h2 : Reaches (Server.Step Server.OnlyReads cpus) s₁ s) {r : DReq F} (hr : r ∈ s.reqs) {l : Scores F} (hl : r.result = some l) :
    (l.map Prod.fst).Nodup ∧ ∃ qs : List (Query F), qs.Perm (r.threads.map Prod.fst) ∧
      ∀ d x, (d, x) ∈ l ↔ docScores (s.disk.readsOf s₁.disk.onDisk) qs d ≠ [] ∧ x = (docScores (s.disk.readsOf s₁.disk.onDisk) qs d).foldl GoFloat.add (GoFloat.lit 0) := by
  have ha : Conc.Alloc s₁.disk.mem := h1.invariant (P := fun s => Conc.Alloc s.disk.mem) (CDisk.alloc_run (as := []) rfl) fun _ _ => Server.alloc_server
  have hi : Server.AtRest s₁.disk.onDisk s := h2.invariant (Server.atRest_down (Server.sound_reach h1) ha hd gv) fun _ _ => Server.atRest_step
  obtain ⟨as, a1, a2, a3, -⟩ := DReq.collects_result (hi.col r hr) hl
  refine ⟨a3.1, as.map Answer.query, a1, fun d x => ?_⟩
  have e : as.filterMap (·.score d) = docScores (s.disk.readsOf s₁.disk.onDisk) (as.map Answer.query) d := by
    unfold docScores
    rw [List.filterMap_map]
    refine List.filterMap_congr fun a ha' => ?_
    exact (a2 a ha').score d
  rw [a3.2, e]

/-- **C103, over the reals.** Two searches with the same queries that have returned in the same process, in whatever way they and other searches came in each other's way, give every document the same score. -/
theorem c103_agree {allow : CDisk.Act → Prop} {cpus : Nat} {s₁ s : Server ℝ} (h1 : Reaches (Server.Step allow cpus) ({} : Server ℝ) s₁) (hd : s₁.disk.up = false)
    (gv : GoValues s₁.disk.hist) (h2 : Reaches (Server.Step Server.OnlyReads cpus) s₁ s) {r r' : DReq ℝ} (hr : r ∈ s.reqs) (hr' : r' ∈ s.reqs) (hq : (r.threads.map Prod.fst).Perm (r'.threads.map Prod.fst))
    {l l' : Scores ℝ} (hl : r.result = some l) (hl' : r'.result = some l') (d : String) (x : ℝ) : (d, x) ∈ l ↔ (d, x) ∈ l' := by
  obtain ⟨-, qs, p1, e1⟩ := c103_searches_do_not_interfere h1 hd gv h2 hr hl
  obtain ⟨-, qs', p2, e2⟩ := c103_searches_do_not_interfere h1 hd gv h2 hr' hl'
  rw [e1, e2, foldl_add_real, foldl_add_real]
  have hp := docScores_perm (st := s.disk.readsOf s₁.disk.onDisk) (p1.trans (hq.trans p2.symm)) d
  rw [hp.sum_eq, ne_eq, ne_eq, perm_nil_iff hp]

end Goir
