import Verif.Props.ServerRest
import Verif.Props.SearchOrder
/-!
# C127: the searches of a server whose documents are all in the cache

When the clients are done and every document that is listed is in the cache, a search never opens a file and never puts anything into the cache: any number of searches at the same time return what Standard.Search
returns on a store that stands still.
-/
namespace Goir
open GoMap Spec

/-! ### which slices a search can return -/

/-- whatever sort.Slice makes of the scores can be returned. -/
theorem SState.returns_sorted {F : Type} [GoFloat F] {st : Reads} {query : List (Query F)} {cpus : Nat} {l l' order : Scores F} (h : SState.Returns st query cpus l') (hp : l.Perm l') (hs : SortSlice order l) :
    SState.Returns st query cpus l := by
  obtain ⟨s, hr, hl⟩ := h
  have key := hr.invariant (P := fun s => Reaches (SState.Step st query cpus) (SState.start st query cpus) s ∧
      ∀ l', s.result = some l' → ∃ s0, Reaches (SState.Step st query cpus) (SState.start st query cpus) s0 ∧ (s0.closed = true ∧ s0.chan = []) ∧ s0.result = none ∧ l'.Perm s0.temp)
    ⟨.refl _, fun l' e => (by cases e)⟩ (fun a b ih hst => by
      refine ⟨ih.1.tail hst, fun l' e => ?_⟩
      cases hst with
      | return_ order l h hr ho hl => cases e; exact ⟨a, ih.1, h, hr, hl.1.trans ho⟩
      | _ => exact ih.2 l' e)
  obtain ⟨s0, h1, h2, h3, h4⟩ := key.2 l' hl
  exact ⟨_, h1.tail (.return_ s0 order l h2 h3 (hs.1.symm.trans (hp.trans h4)) hs), rfl⟩

/-- answers that are right make a result that Standard.Search can have. -/
theorem Server.returns {F : Type} [GoFloat F] {files : String → GoMap String Field} {s : CDisk} {r : DReq F} (h : DReq.Collects (Server.Right files s.mem) r) {l : Scores F} (hl : r.result = some l)
    {cpus : Nat} (hc : 0 < cpus) (hst : (s.readsOf files).Consistent) : SState.Returns (s.readsOf files) r.query cpus l := by
  obtain ⟨as, a1, a2, a3, order, a4⟩ := DReq.collects_result h hl
  obtain ⟨l', h1, h2⟩ := c59_every_order hst r.query hc a1
  obtain ⟨hn', -⟩ := c59_result hst r.query cpus h1
  refine SState.returns_sorted h1 ((List.perm_ext_iff_of_nodup (List.Nodup.of_map _ a3.1) (List.Nodup.of_map _ hn')).2 fun e => ?_) a4
  obtain ⟨d, x⟩ := e
  have e : as.filterMap (·.score d) = docScores (s.readsOf files) (as.map Answer.query) d := by
    unfold docScores
    rw [List.filterMap_map]
    exact List.filterMap_congr fun a ha' => (a2 a ha').score d
  rw [a3.2, h2, e]

theorem readsOf_consistent (s : CDisk) (files : String → GoMap String Field) : (s.readsOf files).Consistent := by
  have wf : ∀ (ids : List String) (f : String) (out : GoMap String Field), out.WF → (ids.foldl (CDisk.addField files f) out).WF := by
    intro ids f
    induction ids with
    | nil => exact fun out h => h
    | cons i ids ih =>
      intro out h
      refine ih _ ?_
      unfold CDisk.addField
      split
      · exact h.set _ _
      · exact h
  refine ⟨fun ids f => wf ids f [] (by simp), fun ids f d => ?_⟩
  show ((s.readsOf files).getFields ids f).get? d = _
  unfold Reads.fieldOf
  rw [readsOf_fields, readsOf_fields]
  simp

/-- **C103, as results of Standard.Search.** While nobody saves, whatever a search on the server returns is, sorting included, what Standard.Search can return on a store that stands still. -/
theorem c103_returns {F : Type} [GoFloat F] {allow : CDisk.Act → Prop} {cpus : Nat} {s₁ s : Server F} (h1 : Reaches (Server.Step allow cpus) ({} : Server F) s₁) (hd : s₁.disk.up = false)
    (gv : GoValues s₁.disk.hist) (h2 : Reaches (Server.Step Server.OnlyReads cpus) s₁ s) {r : DReq F} (hr : r ∈ s.reqs) {l : Scores F} (hl : r.result = some l) {cpus' : Nat} (hc : 0 < cpus') :
    SState.Returns (s.disk.readsOf s₁.disk.onDisk) r.query cpus' l := by
  have ha : Conc.Alloc s₁.disk.mem := h1.invariant (P := fun s => Conc.Alloc s.disk.mem) (CDisk.alloc_run (as := []) rfl) fun _ _ => Server.alloc_server
  have hi : Server.AtRest s₁.disk.onDisk s := h2.invariant (Server.atRest_down (Server.sound_reach h1) ha hd gv) fun _ _ => Server.atRest_step
  exact Server.returns (hi.col r hr) hl hc (readsOf_consistent _ _)


/-! ### a server whose documents are in the cache -/

namespace CDisk

/-- the clients are done. -/
def Done (s : CDisk) : Prop := ∀ cl ∈ s.clients, cl.todo = [] ∧ cl.cur = none

/-- what the other goroutines of the store do changes neither what it has in memory nor its cache. -/
theorem done_step {s s' : CDisk} {a : Act} (h : Done s) (hs : Step s a s') (hu : s.up = true) (hup : s'.up = true) : s'.mem = s.mem ∧ s'.cache = s.cache ∧ s'.clients = s.clients := by
  have no : ∀ {i : Nat} {cl : DClient} {x : DCur}, s.clients[i]? = some cl → cl.cur = some x → False := fun hi hc => by
    rw [(h _ (List.mem_of_getElem? hi)).2] at hc; cases hc
  have no' : ∀ {i : Nat} {cl : DClient} {x : DOp} {l : List DOp}, s.clients[i]? = some cl → cl.todo = x :: l → False := fun hi hc => by
    rw [(h _ (List.mem_of_getElem? hi)).1] at hc; cases hc
  cases hs with
  | beginWrite hu hi hc ht => exact (no' hi ht).elim
  | beginRead hu hi hc ht => exact (no' hi ht).elim
  | acc hu hi hc he hn => exact (no hi hc).elim
  | accReturn hu hi hc he hn => exact (no hi hc).elim
  | msgLen hu hi hc => exact (no hi hc).elim
  | msgSize hu hi hc => exact (no hi hc).elim
  | sendI hu hi hc he => exact (no hi hc).elim
  | msgN hu hi hc => exact (no hi hc).elim
  | docHit hu hi hc hr => exact (no hi hc).elim
  | docMiss hu hi hc hr => exact (no hi hc).elim
  | docSet hu hi hc => exact (no hi hc).elim
  | docPut hu hi hc he => exact (no hi hc).elim
  | readEnd hu hi hc => exact (no hi hc).elim
  | readHit hu hi hc hr => exact (no hi hc).elim
  | readMiss hu hi hc hr => exact (no hi hc).elim
  | readField hu hi hc => exact (no hi hc).elim
  | readAbsent hu hi hc hl => exact (no hi hc).elim
  | readLoad hu hi hc hl hb => exact (no hi hc).elim
  | readPut hu hi hc he => exact (no hi hc).elim
  | recvM hi hc he => exact (no hi hc).elim
  | recvN hi hc he => exact (no hi hc).elim
  | recvD hi hc he => exact (no hi hc).elim
  | openRest hp hu' hm hn => rw [hu] at hu'; cases hu'
  | ixDown => simp [stop] at hup
  | crash => simp [stop] at hup
  | _ => exact ⟨rfl, rfl, rfl⟩

end CDisk

namespace Server
open CDisk DLive
variable {F : Type} [GoFloat F]

/-- inside GetFields, so far without a miss. -/
def Reading (files : String → GoMap String Field) (m : CMem) (f : String) (ids : List String) : RLoc → Prop
  | .get todo out => ∃ did, ids = did ++ todo ∧ out.WF ∧ ∀ d, out.get? d = if d ∈ did then (files d).get? f else none
  | .field id r todo out => m.docCells r = files id ∧ ∃ did, ids = did ++ id :: todo ∧ out.WF ∧ ∀ d, out.get? d = if d ∈ did then (files d).get? f else none
  | .load .. => False
  | .put .. => False

/-- the goroutine of a batch. -/
def GKnown (files : String → GoMap String Field) (m : CMem) (terms : List String) (f : String) : DBatchG → Prop
  | .waiting ids => ∀ id ∈ ids, LSearch.Listed m terms f id
  | .reading ids loc => (∀ id ∈ ids, LSearch.Listed m terms f id) ∧ Reading files m f ids loc
  | .sending rem => ∀ e ∈ rem, LSearch.Listed m terms f e.1 ∧ (files e.1).get? f = some e.2
  | .done => True

/-- a search. -/
def SKnown (files : String → GoMap String Field) (m : CMem) (terms : List String) (f : String) : DSearch → Prop
  | .first (.phase1 _ fan) => (∀ g ∈ fan.gs, LSearch.TermRest m terms f g) ∧ ∀ x ∈ fan.chan ++ fan.out, LSearch.Listed m terms f x
  | .first _ => True
  | .phase2 _ fan => (∀ g ∈ fan.gs, GKnown files m terms f g) ∧ ∀ e ∈ fan.chan ++ fan.out, LSearch.Listed m terms f e.1 ∧ (files e.1).get? f = some e.2
  | .done _ docs => docs.WF ∧ ∀ d fl, docs.get? d = some fl → LSearch.Listed m terms f d ∧ (files d).get? f = some fl

/-- every document that is listed under some field and term is in the cache. -/
def InCache (files : String → GoMap String Field) (m : CMem) (c : LRU (Ref String)) : Prop :=
  ∀ f t d, GoSet.contains (m.view.getDocuments f t).1 d = true → ∃ r, c.val d = some r ∧ m.docCells r = files d

theorem act_known {files : String → GoMap String Field} {m : CMem} {terms : List String} {f : String} (g : DBatchG) (a : GAct (String × Field)) (g' : DBatchG) (hg : GKnown files m terms f g) (ha : DBatchG.Act g a g') :
    GKnown files m terms f g' ∧ ∀ x, a = .emit x → LSearch.Listed m terms f x.1 ∧ (files x.1).get? f = some x.2 := by
  cases ha with
  | acquire ids => exact ⟨⟨hg, [], rfl, by simp, fun d => rfl⟩, by rintro x ⟨⟩⟩
  | send e rem => exact ⟨fun e' he => hg e' (List.mem_cons_of_mem _ he), by rintro x ⟨⟩; exact hg _ List.mem_cons_self⟩
  | release => exact ⟨trivial, by rintro x ⟨⟩⟩

/-- a step inside GetFields. -/
theorem reading_step {files : String → GoMap String Field} {s s' : CDisk} {terms ids : List String} {f : String} {loc : RLoc} {x : RLoc ⊕ GoMap String Field} (hok : s.cache.Ok) (hin : InCache files s.mem s.cache)
    (hl : ∀ id ∈ ids, LSearch.Listed s.mem terms f id) (h : Reading files s.mem f ids loc) (hx : s.rexec f loc = some (s', x)) :
    s'.mem = s.mem ∧ s'.clients = s.clients ∧ s'.up = s.up ∧ s'.cache.Ok ∧ (∀ d, s'.cache.val d = s.cache.val d) ∧ ∀ loc', x = .inl loc' → Reading files s.mem f ids loc' := by
  cases loc with
  | get todo out =>
    cases todo with
    | nil => cases hx; exact ⟨rfl, rfl, rfl, hok, fun _ => rfl, by rintro loc' ⟨⟩⟩
    | cons id todo =>
      obtain ⟨did, e, hw, ho⟩ := h
      obtain ⟨t, ht, hc⟩ := hl id (by rw [e]; simp)
      obtain ⟨r, hr, hf⟩ := hin f t id hc
      obtain ⟨g1, g2, -, -⟩ := LRU.get_spec hok id
      simp only [rexec] at hx
      have hg : (s.cache.get id).2 = some r := hr
      split at hx
      · rename_i c r' hcr
        rw [hcr] at hg g1 g2
        cases hg
        cases hx
        exact ⟨rfl, rfl, rfl, g1, g2, by rintro loc' ⟨⟩; exact ⟨hf, did, e, hw, ho⟩⟩
      · rename_i c hcr
        rw [hcr] at hg; cases hg
  | field id r todo out =>
    cases hx
    obtain ⟨hf, did, e, hw, ho⟩ := h
    refine ⟨rfl, rfl, rfl, hok, fun _ => rfl, ?_⟩
    rintro loc' ⟨⟩
    refine ⟨did ++ [id], by simp [e], ?_, fun d => ?_⟩
    · unfold found; split
      · exact hw.set _ _
      · exact hw
    · rw [hf]
      by_cases hd : d = id
      · subst hd
        unfold found
        cases hg : (files d).get? f with
        | none => simp [ho, hg]
        | some fl => simp
      · rw [found_ne _ _ (Ne.symm hd), ho]
        simp [hd]
  | load => exact h.elim
  | put => exact h.elim

/-- what one step of a search does to the store and to what is known of it. -/
theorem known_move {files : String → GoMap String Field} {terms : List String} {f : String} {cpus : Nat} {s s' : DLive} (hok : s.disk.cache.Ok) (hin : InCache files s.disk.mem s.disk.cache)
    (h : SKnown files s.disk.mem terms f s.search) (hm : DLive.Move terms f cpus s s') :
    s'.disk.mem = s.disk.mem ∧ s'.disk.clients = s.disk.clients ∧ s'.disk.up = s.disk.up ∧ s'.disk.cache.Ok ∧ (∀ d, s'.disk.cache.val d = s.disk.cache.val d) ∧ SKnown files s.disk.mem terms f s'.search := by
  cases hm with
  | first d q q' hx he =>
    refine ⟨rfl, rfl, rfl, hok, fun _ => rfl, ?_⟩
    cases hx with
    | begin1 st =>
      refine ⟨?_, by simp⟩
      intro g hg
      obtain ⟨t, ht, rfl⟩ := List.mem_map.1 hg
      exact ht
    | p1 st a b hx => exact LFan.step_all LSearch.term_rest hx h
    | begin2 => cases he
    | p2 => cases he
    | finish => cases he
    | _ => trivial
  | begin2 d st fan hf =>
    refine ⟨rfl, rfl, rfl, hok, fun _ => rfl, ?_, by simp⟩
    intro g hg
    obtain ⟨ids, hb, rfl⟩ := List.mem_map.1 hg
    intro id hid
    exact h.2 id (List.mem_append_right _ ((mem_makeBatches _ _).1 ⟨ids, hb, hid⟩))
  | p2 d st fan fan' hx => exact ⟨rfl, rfl, rfl, hok, fun _ => rfl, LFan.step_all act_known hx h⟩
  | fetch d d' st fan i ids loc loc' hg hx =>
    have hk := h.1 _ (List.mem_of_getElem? hg)
    obtain ⟨h1, h2, h3, h4, h5, h6⟩ := reading_step hok hin hk.1 hk.2 hx
    refine ⟨h1, h2, h3, h4, h5, fun g hm => ?_, h.2⟩
    rcases LFan.mem_set' hm with rfl | hm
    · exact ⟨hk.1, h6 _ rfl⟩
    · exact h.1 g hm
  | fetched d d' st fan i ids loc out rem hg hx hp =>
    have hk := h.1 _ (List.mem_of_getElem? hg)
    obtain ⟨h1, h2, h3, h4, h5, -⟩ := reading_step hok hin hk.1 hk.2 hx
    obtain ⟨rfl, rfl⟩ := rexec_inr hx
    refine ⟨h1, h2, h3, h4, h5, fun g hm => ?_, h.2⟩
    rcases LFan.mem_set' hm with rfl | hm
    · intro e he
      obtain ⟨did, hids, hw, ho⟩ := hk.2
      rw [List.append_nil] at hids
      subst hids
      have hge := GoMap.get?_of_mem hw (hp.mem_iff.1 he)
      rw [ho] at hge
      split at hge
      · exact ⟨hk.1 _ (by assumption), hge⟩
      · cases hge
    · exact h.1 g hm
  | finish d st fan hf =>
    refine ⟨rfl, rfl, rfl, hok, fun _ => rfl, ?_, fun d' fl e => h.2 (d', fl) (List.mem_append_right _ (collect_sound e))⟩
    exact collect_wf _

/-- what is known of the goroutine of a query. -/
structure Known (files : String → GoMap String Field) (m : CMem) (q : Query F) (x : DSearch) : Prop where
  known : SKnown files m q.terms q.fieldName x
  stats : Stats m q.terms q.fieldName x
  will : ∀ t ∈ q.terms, ∀ d r sr old, m.index.get? q.fieldName = some r → (m.idxCells r).get? t = some sr → GoSet.contains (m.setCells sr) d = true → (files d).get? q.fieldName = some old → Will t d r sr x

theorem Known.move {files : String → GoMap String Field} {cpus : Nat} {s s' : DLive} {q : Query F} (hok : s.disk.cache.Ok) (hin : InCache files s.disk.mem s.disk.cache) (h : Known files s.disk.mem q s.search)
    (hm : DLive.Move q.terms q.fieldName cpus s s') : Known files s.disk.mem q s'.search := by
  refine ⟨(known_move hok hin h.known hm).2.2.2.2.2, stats_move h.stats hm, fun t ht d r sr old h1 h2 h3 h4 => will_move_of ht h1 h2 h3 ?_ (h.will t ht d r sr old h1 h2 h3 h4) hm⟩
  intro st fan i ids out hs hg hd
  have hk := h.known
  rw [hs] at hk
  obtain ⟨-, did, e, -, ho⟩ := hk.1 _ (List.mem_of_getElem? hg)
  rw [List.append_nil] at e
  subst e
  exact ⟨old, by rw [ho, if_pos hd, h4]⟩

/-- the clients are done, and all that is listed is in the cache. -/
structure Loaded (files : String → GoMap String Field) (m : CMem) (s : Server F) : Prop where
  up : s.disk.up = true
  idle : Done s.disk
  mem : s.disk.mem = m
  ok : s.disk.cache.Ok
  cached : InCache files m s.disk.cache
  known : ∀ r ∈ s.reqs, ∀ q x, (q, DQ.running x) ∈ r.threads → Known files m q x
  col : ∀ r ∈ s.reqs, DReq.Collects (Right files m) r

theorem Known.right {files : String → GoMap String Field} {m : CMem} {q : Query F} {st : LStats} {docs : GoMap String Field} (h : Known files m q (.done st docs)) : Right files m q st docs := by
  refine ⟨fun d fl => ⟨h.known.2 d fl, ?_⟩, h.stats⟩
  rintro ⟨⟨t, ht, hl⟩, hf⟩
  obtain ⟨sr, h1, h2⟩ := (CMem.view_contains _ _ _ _).1 hl
  obtain ⟨rf, h3, h4⟩ := Option.bind_eq_some_iff.1 h1
  obtain ⟨fl', e⟩ := h.will t ht d rf sr fl h3 h4 h2 hf
  have := (h.known.2 d fl' e).2
  rw [hf] at this
  cases this
  exact e

theorem loaded_step {files : String → GoMap String Field} {m : CMem} {allow : CDisk.Act → Prop} {cpus : Nat} {s s' : Server F} (h : Loaded files m s) (hs : UpStep allow cpus s s') : Loaded files m s' := by
  obtain ⟨hs, hup⟩ := hs
  cases hs with
  | store a d ha hx =>
    have hup : d.up = true := hup
    obtain ⟨h1, h2, h3⟩ := done_step h.idle (exec_step hx) h.up hup
    have hreq : (if d.up then s.reqs else []) = s.reqs := by rw [hup]; rfl
    refine ⟨hup, ?_, h1.trans h.mem, ?_, ?_, ?_, ?_⟩
    · intro cl hcl; rw [h3] at hcl; exact h.idle cl hcl
    · rw [h2]; exact h.ok
    · rw [h2]; exact h.cached
    · rw [hreq]; exact h.known
    · rw [hreq]; exact h.col
  | arrive query hu =>
    refine ⟨h.up, h.idle, h.mem, h.ok, h.cached, fun r hr q x hx => ?_, fun r hr => ?_⟩
    · rcases List.mem_append.1 hr with hr | hr
      · exact h.known r hr q x hx
      · cases List.mem_singleton.1 hr
        obtain ⟨q', -, e⟩ := List.mem_map.1 hx
        cases e
        exact ⟨trivial, ⟨rfl, rfl⟩, fun _ _ _ _ _ _ _ _ _ _ => trivial⟩
    · rcases List.mem_append.1 hr with hr | hr
      · exact h.col r hr
      · cases List.mem_singleton.1 hr
        exact DReq.collects_start _ query
  | req i r r' d hi hm =>
    have hmem := List.mem_of_getElem? hi
    have hcol : DReq.Collects (Right files m) r' := DReq.collects_move (h.col r hmem) hm fun q st docs hx => ⟨(h.known r hmem q _ hx).right, (h.known r hmem q _ hx).known.1⟩
    have hmm := h.mem
    have cols : ∀ r0 ∈ s.reqs.set i r', DReq.Collects (Right files m) r0 := fun r0 hr0 => by
      rcases LFan.mem_set' hr0 with rfl | hr0
      · exact hcol
      · exact h.col r0 hr0
    cases hm with
    | inner _ _ j q x x' ht hm =>
      have hk := h.known r hmem q x (List.mem_of_getElem? ht)
      have hok : (⟨s.disk, x⟩ : DLive).disk.cache.Ok := h.ok
      have hin : InCache files s.disk.mem s.disk.cache := hmm ▸ h.cached
      have hk' : Known files s.disk.mem q x := hmm ▸ hk
      obtain ⟨h1, h2, h3, h4, h5, -⟩ := known_move (s := ⟨s.disk, x⟩) hok hin hk'.known hm
      have hk2 : Known files s.disk.mem q x' := Known.move (s := ⟨s.disk, x⟩) hok hin hk' hm
      refine ⟨hup, ?_, h1.trans hmm, h4, ?_, fun r0 hr0 q0 x0 hx0 => ?_, cols⟩
      · intro cl hcl
        exact h.idle cl (by rw [← h2]; exact hcl)
      · intro f t d' hc
        obtain ⟨rf, e1, e2⟩ := h.cached f t d' hc
        exact ⟨rf, (h5 d').trans e1, e2⟩
      · rcases LFan.mem_set' hr0 with rfl | hr0
        · rcases LFan.mem_set' hx0 with e | hx0
          · cases e; exact hmm ▸ hk2
          · exact h.known r hmem q0 x0 hx0
        · exact h.known r0 hr0 q0 x0 hx0
    | send _ j q st docs order ht ho hc =>
      refine ⟨h.up, h.idle, h.mem, h.ok, h.cached, fun r0 hr0 q0 x0 hx0 => ?_, cols⟩
      rcases LFan.mem_set' hr0 with rfl | hr0
      · rcases LFan.mem_set' hx0 with e | hx0
        · cases e
        · exact h.known r hmem q0 x0 hx0
      · exact h.known r0 hr0 q0 x0 hx0
    | _ =>
      refine ⟨h.up, h.idle, h.mem, h.ok, h.cached, fun r0 hr0 q0 x0 hx0 => ?_, cols⟩
      rcases LFan.mem_set' hr0 with rfl | hr0
      · exact h.known r hmem q0 x0 hx0
      · exact h.known r0 hr0 q0 x0 hx0

end Server

/-- when the clients are done and all that is listed is in the cache, whatever a search returns is what Standard.Search can return on a store that stands still. -/
theorem Server.loaded_returns {F : Type} [GoFloat F] {files : String → GoMap String Field} {allow : CDisk.Act → Prop} {cpus : Nat} {s₀ : CDisk} {s : Server F} (hu : s₀.up = true) (hi : CDisk.Done s₀) (hok : s₀.cache.Ok)
    (hin : Server.InCache files s₀.mem s₀.cache) (h : Reaches (Server.UpStep allow cpus) ⟨s₀, []⟩ s) {r : DReq F} (hr : r ∈ s.reqs) {l : Scores F} (hl : r.result = some l) {cpus' : Nat} (hc : 0 < cpus') :
    SState.Returns (s₀.readsOf files) r.query cpus' l := by
  have hL : Server.Loaded files s₀.mem s := h.invariant ⟨hu, hi, rfl, hok, hin, fun r hr => (by cases hr), fun r hr => (by cases hr)⟩ fun _ _ => Server.loaded_step
  exact Server.returns (s := s₀) (hL.col r hr) hl hc (readsOf_consistent _ _)

end Goir
