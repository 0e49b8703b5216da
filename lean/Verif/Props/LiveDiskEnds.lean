import Verif.Props.LiveDisk
import Verif.Props.ConcurrentDiskLive
import Verif.Props.LiveSearch
/-!
# C98: a search of a Disk store ends, also while clients use the store
-/
namespace Goir
open Spec CMem CDisk

namespace CDisk

theorem alloc_step {s s' : CDisk} {a : Act} (h : Conc.Alloc s.mem) (hs : Step s a s') : Conc.Alloc s'.mem := by
  have next : ∀ (dc : Ref String → GoMap String Field), Conc.Alloc { s.mem with docCells := dc, next := s.mem.next + 1 } := fun dc r t sr e => Nat.lt_succ_of_lt (h r t sr e)
  cases hs with
  | acc hu hi hc he hn => exact Conc.alloc_exec h he
  | accReturn hu hi hc he hn => exact Conc.alloc_exec h he
  | docMiss hu hi hc hr => exact next _
  | readLoad hu hi hc hl hb => exact next _
  | ixDown => intro r t sr e; cases e
  | crash => intro r t sr e; cases e
  | @openRest n progs size length nft hp hu hm hn =>
    intro r t sr e
    simp only [CMem.loaded] at e ⊢
    split at e
    · obtain ⟨x, -, hx⟩ := List.mem_map.1 (GoMap.mem_of_get? e)
      cases hx
      exact Nat.one_pos
    · cases e
  | _ => exact h

theorem alloc_run {as : List Act} {s : CDisk} (h : run {} as = some s) : Conc.Alloc s.mem :=
  run_inv (P := fun s => Conc.Alloc s.mem) (fun _ _ _ => alloc_step) (fun _ _ _ e => by cases e) h

/-- the sets of the store only grow. -/
theorem sets_step {s s' : CDisk} {a : Act} (hs : Step s a s') (hu : s.up = true) (hup : s'.up = true) :
    s.mem.next ≤ s'.mem.next ∧ ∀ sr : Ref (String × String), sr.n < s.mem.next → ∀ d, d ∈ GoMap.keys (s.mem.setCells sr) → d ∈ GoMap.keys (s'.mem.setCells sr) := by
  cases hs with
  | acc hu hi hc he hn => exact Conc.exec_sets he
  | accReturn hu hi hc he hn => exact Conc.exec_sets he
  | docMiss hu hi hc hr => exact ⟨Nat.le_succ _, fun _ _ _ h => h⟩
  | readLoad hu hi hc hl hb => exact ⟨Nat.le_succ _, fun _ _ _ h => h⟩
  | ixDown => simp [stop] at hup
  | crash => simp [stop] at hup
  | openRest hp hu' => rw [hu] at hu'; cases hu'
  | _ => exact ⟨Nat.le_refl _, fun _ _ _ h => h⟩

/-- what the clients still have to do. -/
def clientWork (s : CDisk) : Nat := (s.clients.map cost).sum

/-- a step of a client uses up its work; the other steps leave the maps and the clients alone. -/
theorem clientWork_step {s s' : CDisk} {a : Act} (hk : Ok s) (hu : s.up = true) (hup : s'.up = true) (hs : Step s a s') :
    clientWork s' < clientWork s ∨ (s'.clients = s.clients ∧ s'.mem = s.mem) := by
  have old : ∀ {i : Nat} {cl : DClient} {c : DCur}, s.clients[i]? = some cl → cl.cur = some c → CurOk s.begun c :=
    fun hi hc => hk.cur _ (List.mem_of_getElem? hi) _ hc
  have move : ∀ {i : Nat} {cl cl' : DClient}, s.clients[i]? = some cl → s'.clients = s.clients.set i cl' → cost cl' + 1 ≤ cost cl →
      clientWork s' < clientWork s ∨ (s'.clients = s.clients ∧ s'.mem = s.mem) := by
    intro i cl cl' hi e1 hc
    left
    unfold clientWork
    rw [e1]
    have := cost_set (b := cl') hi
    omega
  have cur : ∀ {i : Nat} {cl : DClient} {c : DCur} {c' : Option DCur}, s.clients[i]? = some cl → cl.cur = some c → s'.clients = s.clients.set i { cl with cur := c' } →
      curCost c' + 1 ≤ curCost (some c) → clientWork s' < clientWork s ∨ (s'.clients = s.clients ∧ s'.mem = s.mem) := by
    intro i cl c c' hi hc e1 hcc
    exact move hi e1 (by simp only [cost, hc]; omega)
  cases hs with
  | beginWrite hu hi hc ht =>
    refine move hi rfl ?_
    rename_i op rest
    simp only [cost, ht, hc, List.map_cons, List.sum_cons, opCost, curCost]
    cases op <;> simp only [start, wcost] <;> omega
  | beginRead hu hi hc ht =>
    refine move hi rfl ?_
    simp only [cost, ht, hc, List.map_cons, List.sum_cons, opCost, curCost, rcost]; omega
  | acc hu hi hc he hn =>
    refine cur hi hc rfl ?_
    have := cost_acc (old hi hc).2.2 he
    rw [hn] at this; exact this
  | accReturn hu hi hc he hn =>
    refine cur hi hc rfl ?_
    have := cost_acc (old hi hc).2.2 he
    rw [hn] at this; exact this
  | msgLen hu hi hc => exact cur hi hc rfl (by simp only [curCost, wcost]; omega)
  | msgSize hu hi hc => exact cur hi hc rfl (by simp only [curCost, wcost]; omega)
  | sendI hu hi hc he => exact cur hi hc rfl (by simp only [curCost, wcost]; omega)
  | msgN hu hi hc => exact cur hi hc rfl (by simp only [curCost, wcost]; omega)
  | docHit hu hi hc hr => exact cur hi hc rfl (by simp only [curCost, wcost]; omega)
  | docMiss hu hi hc hr => exact cur hi hc rfl (by simp only [curCost, wcost]; omega)
  | docSet hu hi hc => exact cur hi hc rfl (by simp only [curCost, wcost]; omega)
  | docPut hu hi hc he => exact cur hi hc rfl (by simp only [curCost, wcost]; omega)
  | readEnd hu hi hc => exact cur hi hc rfl (by simp only [curCost, rcost]; omega)
  | readHit hu hi hc hr => exact cur hi hc rfl (by simp only [curCost, rcost, List.length_cons]; omega)
  | readMiss hu hi hc hr => exact cur hi hc rfl (by simp only [curCost, rcost, List.length_cons]; omega)
  | readField hu hi hc => exact cur hi hc rfl (by simp only [curCost, rcost]; omega)
  | readAbsent hu hi hc hl => exact cur hi hc rfl (by simp only [curCost, rcost]; omega)
  | readLoad hu hi hc hl hb => exact cur hi hc rfl (by simp only [curCost, rcost]; omega)
  | readPut hu hi hc he => exact cur hi hc rfl (by simp only [curCost, rcost]; omega)
  | recvM hi hc he => exact cur hi hc rfl (by simp only [curCost, wcost]; omega)
  | recvN hi hc he => exact cur hi hc rfl (by simp only [curCost, wcost]; omega)
  | recvD hi hc he => exact cur hi hc rfl (by simp only [curCost, wcost]; omega)
  | ixDown => simp [stop] at hup
  | crash => simp [stop] at hup
  | openRest hp hu' => rw [hu] at hu'; cases hu'
  | _ => exact .inr ⟨rfl, rfl⟩

end CDisk

namespace DLive

/-- the store has room for a document. -/
def GoodRoom (s : CDisk) : Prop := Good s ∧ 1 ≤ s.cache.capacity

theorem GoodRoom.robust : Robust GoodRoom where
  step s a s' h hs hno hup := by
    refine ⟨Good.robust.step s a s' h.1 hs hno hup, ?_⟩
    have same : s'.cache.capacity = s.cache.capacity → 1 ≤ s'.cache.capacity := fun e => e ▸ h.2
    have hk := h.1.ok
    cases hs with
    | docHit hu hi hc hr => exact same (LRU.get_spec hk.lok _).2.2.1
    | docMiss hu hi hc hr => exact same (LRU.get_spec hk.lok _).2.2.1
    | readHit hu hi hc hr => exact same (LRU.get_spec hk.lok _).2.2.1
    | readMiss hu hi hc hr => exact same (LRU.get_spec hk.lok _).2.2.1
    | docPut hu hi hc he => exact same (LRU.put_spec hk.lok he).2.1
    | readPut hu hi hc he => exact same (LRU.put_spec hk.lok he).2.1
    | ixDown => simp [stop] at hup
    | crash => simp [stop] at hup
    | openRest => cases hno
    | _ => exact same rfl
  idle s cs h hcs := ⟨Good.robust.idle s cs h.1 hcs, h.2⟩

/-- the steps that the goroutine of a batch still has to make. -/
def batchCost : DBatchG → Nat
  | .waiting ids => 6 * ids.length + 4
  | .reading _ (.get todo out) => 6 * todo.length + 2 * out.length + 3
  | .reading _ (.field _ _ todo out) => 6 * todo.length + 2 * out.length + 6
  | .reading _ (.load _ todo out) => 6 * todo.length + 2 * out.length + 8
  | .reading _ (.put _ _ todo out) => 6 * todo.length + 2 * out.length + 4
  | .sending rem => 2 * rem.length + 1
  | .done => 0

theorem found_length (out : GoMap String Field) (id : String) (o : Option Field) : (found out id o).length ≤ out.length + 1 := by
  cases o with
  | none => exact Nat.le_succ _
  | some f => exact LSearch.set_length_le _ _ _

theorem rexec_cost {s s' : CDisk} {name : String} {loc loc' : RLoc} (ids : List String) (h : s.rexec name loc = some (s', .inl loc')) : batchCost (.reading ids loc') < batchCost (.reading ids loc) := by
  cases loc with
  | get todo out =>
    cases todo with
    | nil => cases h
    | cons id todo => simp only [rexec] at h; split at h <;> (cases h; simp only [batchCost, List.length_cons]; omega)
  | field id r todo out =>
    cases h
    have := found_length out id ((s.mem.docCells r).get? name)
    simp only [batchCost]; omega
  | load id todo out =>
    simp only [rexec] at h
    split at h
    · cases h
    · cases h; simp only [batchCost]; omega
    · rename_i fd hx
      cases h
      have := found_length out id (fd.get? name)
      simp only [batchCost]; omega
  | put id r todo out =>
    simp only [rexec] at h
    cases hp : s.cache.put id r with
    | none => rw [hp] at h; cases h
    | some c => rw [hp] at h; cases h; simp only [batchCost]; omega

theorem act_cost (g : DBatchG) (a : GAct (String × Field)) (g' : DBatchG) (_ : True) (ha : DBatchG.Act g a g') :
    batchCost g' < batchCost g ∧ ∀ x, a = .emit x → batchCost g' + 1 < batchCost g := by
  cases ha with
  | acquire ids => exact ⟨by simp only [batchCost, List.length_nil]; omega, by rintro x ⟨⟩⟩
  | send e rem => exact ⟨by simp only [batchCost, List.length_cons]; omega, by rintro x ⟨⟩; simp only [batchCost, List.length_cons]; omega⟩
  | release => exact ⟨by simp only [batchCost, List.length_nil]; omega, by rintro x ⟨⟩⟩

/-- where the search is, and the work that is left there. -/
def searchRank (m : CMem) (f : String) : DSearch → Nat × Nat
  | .first q => LSearch.rank m f q
  | .phase2 _ fan => (1, fan.μ batchCost)
  | .done _ _ => (0, 0)

/-- the loops are in order, the semaphore has room and the phases come in order. -/
def Ready (m : CMem) : DSearch → Prop
  | .first q => LSearch.Ready m q ∧ q.early = true
  | .phase2 _ fan => 0 < fan.sem
  | .done _ _ => True

/-- what holds during a search. -/
structure Lively (f : String) (s : DLive) : Prop where
  alloc : Conc.Alloc s.disk.mem
  sim : Sim GoodRoom f s
  ready : Ready s.disk.mem s.search

theorem lively_start {as : List CDisk.Act} {s : CDisk} (h : CDisk.run {} as = some s) (hu : s.up = true) (hn : Roomy as) (f : String) : Lively f ⟨s, .first .readLen⟩ :=
  ⟨CDisk.alloc_run h, sim_start hu ⟨good_run h hu, capacity h hn hu⟩, trivial, rfl⟩

theorem Ready.mono {m m' : CMem} (h1 : m.next ≤ m'.next) (h2 : ∀ sr : Ref (String × String), sr.n < m.next → ∀ d, d ∈ GoMap.keys (m.setCells sr) → d ∈ GoMap.keys (m'.setCells sr)) {q : DSearch}
    (hr : Ready m q) : Ready m' q := by
  cases q with
  | first q =>
    refine ⟨?_, hr.2⟩
    have hr := hr.1
    cases q with
    | phase1 st fan =>
      refine ⟨hr.1, fun g hg => ?_⟩
      have := hr.2 g hg
      cases g with
      | iter t sr must seen => exact ⟨Nat.lt_of_lt_of_le this.1 h1, fun x hx => h2 sr this.1 x (this.2 hx)⟩
      | sending t sr must seen id => exact ⟨Nat.lt_of_lt_of_le this.1 h1, fun x hx => h2 sr this.1 x (this.2.1 hx), h2 sr this.1 _ this.2.2.1, this.2.2.2⟩
      | _ => trivial
    | _ => exact hr
  | phase2 st fan => exact hr
  | done st docs => trivial

theorem ready_move {terms : List String} {f : String} {cpus : Nat} (hc : 0 < cpus) {s s' : DLive} (ha : Conc.Alloc s.disk.mem) (hr : Ready s.disk.mem s.search) (hm : Move terms f cpus s s') :
    Ready s'.disk.mem s'.search := by
  cases hm with
  | first d q q' hx he => exact ⟨LSearch.ready_step hc ha hr.1 hx, he⟩
  | begin2 d st fan hf => exact Nat.mul_pos hc (by decide)
  | p2 d st fan fan' hx => show 0 < fan'.sem; rw [LSearch.fan_sem hx]; exact hr
  | fetch d d' st fan i ids loc loc' hg hx => exact hr
  | fetched d d' st fan i ids loc out rem hg hx hp => exact hr
  | finish d st fan hf => trivial

theorem alloc_move {terms : List String} {f : String} {cpus : Nat} {s s' : DLive} (ha : Conc.Alloc s.disk.mem) (hm : Move terms f cpus s s') : Conc.Alloc s'.disk.mem := by
  obtain ⟨-, -, -, -, dc, n, hn, h5⟩ := move_frame hm
  rw [h5]
  exact fun r t sr e => Nat.lt_of_lt_of_le (ha r t sr e) hn

theorem lively_step {terms : List String} {f : String} {cpus : Nat} (hc : 0 < cpus) {s s' : DLive} (h : Lively f s) (hs : Step terms f cpus s s') : Lively f s' := by
  refine ⟨?_, sim_step GoodRoom.robust h.sim hs, ?_⟩
  · cases hs with
    | store a d hx hd => exact CDisk.alloc_step h.alloc (exec_step hx)
    | search _ hm => exact alloc_move h.alloc hm
  · cases hs with
    | store a d hx hd =>
      obtain ⟨h1, h2⟩ := sets_step (exec_step hx) h.sim.1 hd
      exact h.ready.mono h1 h2
    | search _ hm => exact ready_move hc h.alloc h.ready hm

/-- GetFields does not panic. -/
theorem rexec_total {f : String} {s : DLive} (h : Lively f s) (gv : GoValues s.disk.hist) (loc : RLoc) : ∃ d x, s.disk.rexec f loc = some (d, x) := by
  obtain ⟨-, A, hp, -⟩ := h.sim
  have hd : DocsOk (embed f s A) := hp.1.docs gv
  cases loc with
  | get todo out =>
    cases todo with
    | nil => exact ⟨_, _, rfl⟩
    | cons id todo =>
      simp only [rexec]
      cases s.disk.cache.get id with
      | mk c x => cases x <;> exact ⟨_, _, rfl⟩
  | field id r todo out => exact ⟨_, _, rfl⟩
  | load id todo out =>
    have hl : ∃ o, s.disk.load id = some o := by
      unfold load
      cases hcur : (s.disk.fl.file id).cur with
      | none => exact ⟨_, rfl⟩
      | some c =>
        obtain ⟨b, rfl, m, hm, -⟩ := hd.file id c hcur
        exact ⟨some m, by simp [hm]⟩
    obtain ⟨o, hl⟩ := hl
    simp only [rexec, hl]
    cases o <;> exact ⟨_, _, rfl⟩
  | put id r todo out =>
    obtain ⟨c, hc⟩ := LRU.put_some (l := s.disk.cache) hp.1.ok.lok hp.2 id r
    simp only [rexec, hc, Option.map_some]
    exact ⟨_, _, rfl⟩

/-- the search can go on by itself. -/
theorem progress {terms : List String} {f : String} {cpus : Nat} {s : DLive} (h : Lively f s) (gv : GoValues s.disk.hist) (hd : ∀ st docs, s.search ≠ .done st docs) : ∃ s', Move terms f cpus s s' := by
  obtain ⟨d, q⟩ := s
  cases q with
  | first q =>
    obtain ⟨hr, he⟩ := h.ready
    obtain ⟨q', hq⟩ := LSearch.progress (terms := terms) (f := f) (cpus := cpus) hr (by rintro st docs rfl; cases he)
    by_cases he' : q'.early = true
    · exact ⟨_, .first d q q' hq he'⟩
    · cases hq with
      | begin2 st fan hf => exact ⟨_, .begin2 d st fan hf⟩
      | p2 => cases he
      | finish => cases he
      | _ => exact absurd rfl he'
  | phase2 st fan =>
    by_cases hf : fan.Finished
    · exact ⟨_, .finish d st fan hf⟩
    · obtain ⟨fan', hx⟩ := LFan.progress (act := fun g a g' => DBatchG.Act g a g' ∨ (a = .look ∧ ∃ ids loc, g = .reading ids loc)) (holds := DBatchG.holds) (fin := DBatchG.fin)
        (by intro g; cases g <;> simp [DBatchG.fin, DBatchG.holds]) h.ready (by
          intro g hg
          cases g with
          | waiting ids => exact .inr (.inl ⟨rfl, _, .inl (.acquire ids)⟩)
          | reading ids loc => exact .inr (.inr ⟨rfl, .done, .inl (.inr ⟨rfl, ids, loc, rfl⟩)⟩)
          | sending rem =>
            refine .inr (.inr ⟨rfl, ?_⟩)
            cases rem with
            | nil => exact ⟨_, .inr (.inl (.inl .release))⟩
            | cons e rem => exact ⟨_, .inr (.inr ⟨e, .inl (.send e rem)⟩)⟩
          | done => exact .inl rfl) hf
      have p2 : ∀ {fan'}, LFan.Step DBatchG.Act DBatchG.holds DBatchG.fin fan fan' → ∃ s', Move terms f cpus ⟨d, .phase2 st fan⟩ s' := fun h => ⟨_, .p2 d st fan _ h⟩
      cases hx with
      | acquire i g g' hi ha hs =>
        rcases ha with ha | ⟨ha, -⟩
        · exact p2 (.acquire fan i g g' hi ha hs)
        · cases ha
      | look i g g' hi ha =>
        rcases ha with ha | ⟨-, ids, loc, rfl⟩
        · cases ha
        · obtain ⟨d', x, hx⟩ := rexec_total h gv loc
          cases x with
          | inl loc' => exact ⟨_, .fetch d d' st fan i ids loc loc' hi hx⟩
          | inr out => exact ⟨_, .fetched d d' st fan i ids loc out out hi hx (.refl _)⟩
      | send i g g' x hi ha hc =>
        rcases ha with ha | ⟨ha, -⟩
        · exact p2 (.send fan i g g' x hi ha hc)
        · cases ha
      | handoff i g g' x hi ha hc =>
        rcases ha with ha | ⟨ha, -⟩
        · exact p2 (.handoff fan i g g' x hi ha hc)
        · cases ha
      | release i g g' hi ha =>
        rcases ha with ha | ⟨ha, -⟩
        · exact p2 (.release fan i g g' hi ha)
        · cases ha
      | close ha hc => exact p2 (.close fan ha hc)
      | recv x q hq => exact p2 (.recv fan x q hq)
  | done st docs => exact absurd rfl (hd st docs)

/-- the clients' work first, then that of the search. -/
def rank (f : String) (s : DLive) : Nat × (Nat × Nat) := (clientWork s.disk, searchRank s.disk.mem f s.search)

theorem move_rank {terms : List String} {f : String} {cpus : Nat} {s s' : DLive} (h : Ready s.disk.mem s.search) (hm : Move terms f cpus s s') : Live.Less (rank f s') (rank f s) := by
  have set : ∀ (st : LStats) (fan : LFan DBatchG (String × Field)) {i : Nat} {g g' : DBatchG}, fan.gs[i]? = some g → batchCost g' < batchCost g →
      Prod.Lex (· < ·) (· < ·) (1, LFan.μ batchCost { fan with gs := fan.gs.set i g' }) (1, fan.μ batchCost) := by
    intro st fan i g g' hg hlt
    refine .right _ ?_
    have := LFan.sum_set_w batchCost (b := g') hg
    unfold LFan.μ; simp only; omega
  cases hm with
  | first d q q' hx he => exact .right _ (LSearch.rank_step h.1 hx)
  | begin2 d st fan hf => exact .right _ (.left _ _ (by decide))
  | p2 d st fan fan' hx => exact .right _ (.right _ (LFan.step_μ (G := fun _ => True) act_cost (fun _ _ => trivial) hx))
  | fetch d d' st fan i ids loc loc' hg hx =>
    have e : clientWork d' = clientWork d := by unfold clientWork; rw [(rexec_clients hx).1]
    unfold rank
    simp only [e, searchRank]
    exact .right _ (set st fan hg (rexec_cost ids hx))
  | fetched d d' st fan i ids loc out rem hg hx hp =>
    obtain ⟨rfl, rfl⟩ := rexec_inr hx
    exact .right _ (set st fan hg (by have := hp.length_eq; simp only [batchCost, List.length_nil]; omega))
  | finish d st fan hf => exact .right _ (.left _ _ (by decide))

theorem step_rank {terms : List String} {f : String} {cpus : Nat} {s s' : DLive} (h : Lively f s) (hs : Step terms f cpus s s') : Live.Less (rank f s') (rank f s) ∨ rank f s' = rank f s := by
  cases hs with
  | store a d hx hd =>
    obtain ⟨as, hp, -⟩ := h.sim.2
    have hst := exec_step hx
    have hk := hp.1.ok
    have hk' : Ok s.disk := ⟨hk.tags, hk.lok, hk.ctag, hk.btag, hk.ix, hk.ix2, hk.proc, fun hu => (by have := h.sim.1; rw [hu] at this; cases this), fun cl hcl => hk.cur cl (List.mem_append_left _ hcl), hk.ret⟩
    rcases clientWork_step hk' h.sim.1 hd hst with h1 | ⟨h1, h2⟩
    · exact .inl (.left _ _ h1)
    · right; unfold rank clientWork; simp only [h1, h2]
  | search _ hm => exact .inl (move_rank h.ready hm)

theorem moves {terms : List String} {f : String} {cpus : Nat} {s s' : DLive} (h : Reaches (Move terms f cpus) s s') : Reaches (Step terms f cpus) s s' :=
  h.invariant (P := fun s' => Reaches (Step terms f cpus) s s') (.refl _) fun _ _ ih hs => ih.tail (.search _ _ hs)

theorem alone {terms : List String} {f : String} {cpus : Nat} (hc : 0 < cpus) {s : DLive} (h : Lively f s) (gv : GoValues s.disk.hist) :
    ∃ s' st docs, Reaches (Move terms f cpus) s s' ∧ s'.search = .done st docs := by
  generalize hm : rank f s = m
  induction m using Live.less_wf.induction generalizing s with
  | _ m ih =>
    by_cases hd : ∀ st docs, s.search ≠ .done st docs
    · obtain ⟨t, ht⟩ := progress (cpus := cpus) h gv hd
      obtain ⟨s', st, docs, h1, h2⟩ := ih _ (by rw [← hm]; exact move_rank h.ready ht) (lively_step hc h (.search _ _ ht)) (by rw [hist_move ht]; exact gv) rfl
      exact ⟨s', st, docs, (Reaches.single ht).trans h1, h2⟩
    · have ⟨st, docs, e⟩ : ∃ st docs, s.search = .done st docs := Classical.byContradiction fun hn => hd fun st docs e => hn ⟨st, docs, e⟩
      exact ⟨s, st, docs, .refl _, e⟩

end DLive

/-- **C98 A search of a Disk store ends, also while clients use the store.** The stores were opened with room for at least one document in the cache. In every state that a run can come to in which the search has not returned, one of
its goroutines can make a step, whatever the clients and the writers are doing: nothing panics and the search waits for nobody. From every such state the search by itself returns. And in no run
does it make infinitely many steps, however the steps of the others, of which there can be infinitely many (the tickers), come in between. -/
theorem c98_live_disk_search_ends {as : List CDisk.Act} {s₀ : CDisk} (h₀ : CDisk.run {} as = some s₀) (hu : s₀.up = true) (hn : Roomy as) {terms : List String} {f : String} {cpus : Nat} (hc : 0 < cpus) :
    (∀ s, Reaches (DLive.Step terms f cpus) ⟨s₀, .first .readLen⟩ s → GoValues s.disk.hist →
      ((∀ st docs, s.search ≠ .done st docs) → ∃ s', DLive.Move terms f cpus s s') ∧
      ∃ s' st docs, Reaches (DLive.Move terms f cpus) s s' ∧ s'.search = .done st docs) ∧
    ∀ run : Nat → DLive, run 0 = ⟨s₀, .first .readLen⟩ → (∀ n, DLive.Step terms f cpus (run n) (run (n + 1))) → ∃ N, ∀ n, N ≤ n → ¬ DLive.Move terms f cpus (run n) (run (n + 1)) := by
  have inv : ∀ s, Reaches (DLive.Step terms f cpus) ⟨s₀, .first .readLen⟩ s → DLive.Lively f s := fun s h =>
    h.invariant (DLive.lively_start h₀ hu hn f) fun _ _ => DLive.lively_step hc
  refine ⟨fun s hs gv => ⟨DLive.progress (inv s hs) gv, DLive.alone hc (inv s hs) gv⟩, ?_⟩
  intro run h0 hr
  have hreach : ∀ n, Reaches (DLive.Step terms f cpus) ⟨s₀, .first .readLen⟩ (run n) := by
    intro n
    induction n with
    | zero => rw [h0]; exact .refl _
    | succ n ih => exact ih.tail (hr n)
  have key : ∀ m k, DLive.rank f (run k) = m → ∃ N, ∀ n, N ≤ n → ¬ DLive.Move terms f cpus (run n) (run (n + 1)) := by
    intro m
    induction m using Live.less_wf.induction with
    | _ m ih =>
      intro k hk
      by_cases hx : ∃ n, k ≤ n ∧ Live.Less (DLive.rank f (run n)) m
      · obtain ⟨n, -, hlt⟩ := hx
        exact ih _ hlt n rfl
      · have stay : ∀ j, DLive.rank f (run (k + j)) = m := by
          intro j
          induction j with
          | zero => exact hk
          | succ j ihj =>
            rcases DLive.step_rank (inv _ (hreach (k + j))) (hr (k + j)) with h | h
            · exact absurd ⟨k + j + 1, by omega, by rw [← ihj]; exact h⟩ hx
            · exact h.trans ihj
        refine ⟨k, fun n hkn hm => hx ⟨n + 1, by omega, ?_⟩⟩
        have e := stay (n - k)
        rw [show k + (n - k) = n by omega] at e
        rw [← e]
        exact DLive.move_rank (inv _ (hreach n)).ready hm
  exact key _ 0 rfl

end Goir
