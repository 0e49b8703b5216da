import Verif.Props.FolderServer
/-!
# C129: searches on any folder return
-/
namespace Goir
open GoMap Spec Spec.Opening

namespace Opening
open BDisk DLive

variable {root : Path} {z : Bytes → Bytes} {fs0 : FS} {F : Type}

/-! ### the cache keeps its room -/

theorem rexec_room {s : CDisk} {f : String} {loc : RLoc} {d : CDisk} {y : RLoc ⊕ GoMap String Field} (hk : s.cache.Ok) (h : s.rexec f loc = some (d, y)) : d.cache.capacity = s.cache.capacity := by
  cases loc with
  | get todo out =>
    cases todo with
    | nil => cases h; rfl
    | cons id todo =>
      simp only [CDisk.rexec] at h
      have hg := (LRU.get_spec hk id).2.2.1
      split at h
      · rename_i c r hc
        cases h
        rw [hc] at hg; exact hg
      · rename_i c hc
        cases h
        rw [hc] at hg; exact hg
  | field id r todo out => cases h; rfl
  | load id todo out =>
    simp only [CDisk.rexec] at h
    repeat' split at h
    all_goals first | (cases h; done) | (cases h; rfl)
  | put id r todo out =>
    simp only [CDisk.rexec] at h
    cases hp : s.cache.put id r with
    | none => rw [hp] at h; cases h
    | some c => rw [hp] at h; cases h; exact (LRU.put_spec hk hp).2.1

theorem brexec_room {s s' : BDisk} {f : String} {loc : RLoc} {y : RLoc ⊕ GoMap String Field} (hk : s.d.cache.Ok) (h : s.rexec root f loc = some (s', some y)) : s'.d.cache.capacity = s.d.cache.capacity := by
  cases loc with
  | load id todo out =>
    simp only [BDisk.rexec] at h
    split at h <;> (cases h; try rfl)
  | get todo o => obtain ⟨y, hy, e⟩ := Option.map_eq_some_iff.1 h; obtain ⟨y1, y2⟩ := y; cases e; exact rexec_room hk hy
  | field id r todo o => cases h; rfl
  | put id r todo o => obtain ⟨y, hy, e⟩ := Option.map_eq_some_iff.1 h; obtain ⟨y1, y2⟩ := y; cases e; exact rexec_room hk hy

theorem merge_room {s s' : BDisk} (he : s.mergeStep z root = some s') (hup : s'.d.up = true) : s'.d.cache = s.d.cache := by
  have err : ∀ {s : BDisk}, s.loadError.d.up = true → s.loadError.d.cache = s.d.cache := fun hup => by
    unfold BDisk.loadError at hup ⊢
    split
    · rename_i h; rw [if_pos h, kill_down] at hup; cases hup
    · rfl
  unfold BDisk.mergeStep at he
  repeat' split at he
  all_goals first
    | cases he; rfl
    | (cases he; exact absurd hup (by rw [kill_down]; simp))
    | (cases he; exact err hup)
    | cases he

theorem client_room {s : CDisk} {i k : Nat} {d' : CDisk} (hk : s.cache.Ok) (h : ∀ cl ∈ s.clients, (∀ op ∈ cl.todo, ∃ ids name, op = .getFields ids name) ∧ ∀ c, cl.cur = some c → ∃ ids name loc, c = .read ids name loc)
    (he : s.client i k = some d') : d'.cache.capacity = s.cache.capacity := by
  unfold CDisk.client at he
  split at he
  · cases he
  · rename_i cl hcl
    have hcm := h cl (List.mem_of_getElem? hcl)
    split at he
    · split at he
      · cases he
      · rename_i op rest htodo
        obtain ⟨_, _, e⟩ := hcm.1 (.write op) (by rw [htodo]; simp)
        cases e
      · cases he; rfl
    · rename_i op loc hcur
      obtain ⟨_, _, _, e⟩ := hcm.2 _ hcur
      cases e
    · split at he
      · cases he
      · rename_i s1 loc1 hx; cases he; exact (rexec_room hk hx :)
      · rename_i s1 loc1 hx; cases he; exact (rexec_room hk hx :)

theorem exec_room {s s' : BDisk} {act : CDisk.Act} (h : Calm fs0 root s) (hu : s.d.up = true) (he : s.exec z root act = some s') (hup : s'.d.up = true) : s'.d.cache.capacity = s.d.cache.capacity := by
  have hcl : ∀ cl ∈ s.d.clients, (∀ op ∈ cl.todo, ∃ ids name, op = DOp.getFields ids name) ∧ ∀ c, cl.cur = some c → ∃ ids name loc, c = DCur.read ids name loc := fun cl hm =>
    ⟨(h.readers.clients cl hm).todo, fun c hc => by obtain ⟨a, b, l, e, -⟩ := (h.readers.clients cl hm).cur c hc; exact ⟨a, b, l, e⟩⟩
  have hcur : ∀ i c, s.d.curOf i = some c → ∃ ids name loc, c = .read ids name loc := fun i c hc => by
    unfold CDisk.curOf at hc
    obtain ⟨cl, hcl', hcur⟩ := Option.bind_eq_some_iff.1 hc
    exact (hcl cl (List.mem_of_getElem? hcl')).2 _ hcur
  cases act with
  | client i k =>
    simp only [BDisk.exec] at he
    split at he
    · rename_i ids name id todo out hc
      rw [if_pos hu] at he
      cases he
      unfold BDisk.readDoc at hup ⊢
      split
      · rename_i hl; rw [hl] at hup; rw [kill_down] at hup; cases hup
      · rfl
      · rfl
    · obtain ⟨d', h1, rfl⟩ := Option.map_eq_some_iff.1 he
      simp only [CDisk.exec] at h1
      rw [if_pos hu] at h1
      exact client_room h.readers.cacheOk hcl h1
  | recvM i =>
    obtain ⟨d', h1, -⟩ := Option.map_eq_some_iff.1 he
    simp only [CDisk.exec] at h1
    split at h1
    · rename_i hc; obtain ⟨_, _, _, e⟩ := hcur _ _ hc; cases e
    · cases h1
  | recvN i =>
    obtain ⟨d', h1, -⟩ := Option.map_eq_some_iff.1 he
    simp only [CDisk.exec] at h1
    split at h1
    · rename_i hc; obtain ⟨_, _, _, e⟩ := hcur _ _ hc; cases e
    · cases h1
  | recvD i =>
    obtain ⟨d', h1, -⟩ := Option.map_eq_some_iff.1 he
    simp only [CDisk.exec] at h1
    split at h1
    · rename_i hc; obtain ⟨_, _, _, e⟩ := hcur _ _ hc; cases e
    · cases h1
  | tickM o =>
    obtain ⟨d', h1, rfl⟩ := Option.map_eq_some_iff.1 he
    simp only [CDisk.exec] at h1
    rw [if_pos hu] at h1
    obtain ⟨mx, h2, rfl⟩ := Option.map_eq_some_iff.1 h1; rfl
  | tickN o =>
    obtain ⟨d', h1, rfl⟩ := Option.map_eq_some_iff.1 he
    simp only [CDisk.exec] at h1
    rw [if_pos hu] at h1
    obtain ⟨mx, h2, rfl⟩ := Option.map_eq_some_iff.1 h1; rfl
  | tickD o =>
    obtain ⟨d', h1, rfl⟩ := Option.map_eq_some_iff.1 he
    simp only [CDisk.exec] at h1
    rw [if_pos hu] at h1
    obtain ⟨mx, h2, rfl⟩ := Option.map_eq_some_iff.1 h1; rfl
  | stepM =>
    simp only [BDisk.exec] at he
    obtain ⟨x, h1, h2⟩ := Option.map_eq_some_iff.1 he
    obtain rfl := flush_still h.still.mp h.still.ms h1
    cases h2; rfl
  | stepN =>
    simp only [BDisk.exec] at he
    obtain ⟨x, h1, h2⟩ := Option.map_eq_some_iff.1 he
    obtain rfl := flush_still h.still.np h.still.ns h1
    cases h2; rfl
  | stepD =>
    simp only [BDisk.exec] at he
    obtain ⟨x, h1, h2⟩ := Option.map_eq_some_iff.1 he
    obtain rfl := flush_still h.still.dp h.still.ds h1
    cases h2; rfl
  | ix a =>
    simp only [BDisk.exec] at he
    split at he
    · cases a with
      | merge => exact congrArg LRU.capacity (merge_room he hup)
      | create name => rcases h.still.iw with hw | hw <;> simp [BDisk.ixExec, BDisk.create, hw] at he
      | write => rcases h.still.iw with hw | hw <;> simp [BDisk.ixExec, BDisk.write, hw] at he
      | startMerge =>
        simp only [BDisk.ixExec] at he
        split at he
        · cases he; rfl
        · cases he
      | recv =>
        obtain ⟨d', h1, rfl⟩ := Option.map_eq_some_iff.1 he
        simp only [CDisk.exec] at h1
        split at h1
        · obtain ⟨ix, h2, -⟩ := Option.map_eq_some_iff.1 h1
          simp [IxState.exec, h.still.chan] at h2
        · cases h1
      | tick o =>
        obtain ⟨d', h1, rfl⟩ := Option.map_eq_some_iff.1 he
        simp only [CDisk.exec] at h1
        split at h1
        · obtain ⟨ix, h2, h3⟩ := Option.map_eq_some_iff.1 h1
          split at h3
          · subst h3; simp [CDisk.stop] at hup
          · subst h3; rfl
        · cases h1
      | flushed =>
        obtain ⟨d', h1, rfl⟩ := Option.map_eq_some_iff.1 he
        simp only [CDisk.exec] at h1
        split at h1
        · obtain ⟨ix, h2, h3⟩ := Option.map_eq_some_iff.1 h1
          split at h3
          · subst h3; simp [CDisk.stop] at hup
          · subst h3; rfl
        · cases h1
      | _ => cases he
    · cases he
  | crash =>
    simp only [BDisk.exec] at he
    split at he
    · cases he
    · cases he; rw [kill_down] at hup; cases hup
  | open_ =>
    simp only [BDisk.exec] at he
    split at he
    · cases he; rfl
    · cases he
  | openRest n progs =>
    simp only [BDisk.exec] at he
    split at he
    · rename_i hc; rw [hu] at hc; cases hc.2
    · cases he

/-! ### one search -/

theorem Grown.ready {m m' : CMem} (g : Grown m m') {x : DSearch} (h : DLive.Ready m x) : DLive.Ready m' x := by
  refine h.mono g.next fun sr _ d hd => ?_
  obtain ⟨⟨dc, n, rfl⟩, -, -⟩ := g
  exact hd

theorem Grown.alloc {m m' : CMem} (g : Grown m m') (h : Conc.Alloc m) : Conc.Alloc m' := by
  intro r t sr e
  refine Nat.lt_of_lt_of_le (h r t sr ?_) g.next
  obtain ⟨⟨dc, n, rfl⟩, -, -⟩ := g
  exact e

theorem Grown.rank {m m' : CMem} (g : Grown m m') (f : String) (x : DSearch) : searchRank m' f x = searchRank m f x := by
  obtain ⟨⟨dc, n, rfl⟩, -, -⟩ := g
  exact Server.searchRank_frame _ _ _ _ _

theorem bready_move {terms : List String} {f : String} {cpus : Nat} (hc : 0 < cpus) {s s' : BDisk} {x x' : DSearch} (ha : Conc.Alloc s.d.mem) (hr : DLive.Ready s.d.mem x) (hm : BMove root terms f cpus s x s' (some x')) :
    DLive.Ready s'.d.mem x' := by
  rcases bmove_cases hm with h | ⟨st, fan, i, ids, loc, loc', rfl, hg, rfl⟩
  · exact ready_move (s := ⟨s.d, x⟩) (s' := ⟨s'.d, x'⟩) hc ha hr h
  · exact hr

theorem brexec_cost {s s' : BDisk} {name : String} {loc loc' : RLoc} (ids : List String) (h : s.rexec root name loc = some (s', some (.inl loc'))) : batchCost (.reading ids loc') < batchCost (.reading ids loc) := by
  cases loc with
  | load id todo out =>
    simp only [BDisk.rexec] at h
    split at h
    · cases h
    · cases h; simp only [batchCost]; omega
    · rename_i fd hl
      cases h
      have := found_length out id (GoMap.get? fd name)
      simp only [batchCost]; omega
  | get todo o => obtain ⟨y, hy, e⟩ := Option.map_eq_some_iff.1 h; obtain ⟨y1, y2⟩ := y; cases e; exact rexec_cost ids hy
  | field id r todo o => cases h; exact rexec_cost (s := s.d) ids rfl
  | put id r todo o => obtain ⟨y, hy, e⟩ := Option.map_eq_some_iff.1 h; obtain ⟨y1, y2⟩ := y; cases e; exact rexec_cost ids hy

/-- two numbers, the first one first. -/
def Less2 : Nat × Nat → Nat × Nat → Prop := Prod.Lex (· < ·) (· < ·)

theorem less2_wf : WellFounded Less2 := (Prod.lex ⟨_, Nat.lt_wfRel.wf⟩ ⟨_, Nat.lt_wfRel.wf⟩).wf

/-- every step of a search brings it closer to its end. -/
theorem bmove_rank {terms : List String} {f : String} {cpus : Nat} {s s' : BDisk} {x x' : DSearch} (h : DLive.Ready s.d.mem x) (hm : BMove root terms f cpus s x s' (some x')) : Less2 (searchRank s'.d.mem f x') (searchRank s.d.mem f x) := by
  have move : DLive.Move terms f cpus ⟨s.d, x⟩ ⟨s'.d, x'⟩ → Less2 (searchRank s'.d.mem f x') (searchRank s.d.mem f x) := fun hd => by
    have e : CDisk.clientWork s'.d = CDisk.clientWork s.d := by unfold CDisk.clientWork; rw [show s'.d.clients = s.d.clients from (DLive.move_frame hd).1]
    have := move_rank (s := ⟨s.d, x⟩) h hd
    unfold DLive.rank at this
    simp only at this
    rw [e] at this
    cases this with
    | left _ _ hlt => exact absurd hlt (Nat.lt_irrefl _)
    | right _ hlt => exact hlt
  cases hm with
  | fetch _ st fan i ids loc loc' hg hx =>
    refine .right _ ?_
    have := LFan.sum_set_w batchCost (b := .reading ids loc') hg
    have := brexec_cost ids hx
    unfold LFan.μ; simp only; omega
  | first q q' hx he => exact move (.first _ _ _ hx he)
  | begin2 st fan hx => exact move (.begin2 _ st fan hx)
  | p2 st fan fan' hx => exact move (.p2 _ st fan fan' hx)
  | fetched _ st fan i ids loc out rem hg hx hp =>
    obtain ⟨rfl, rfl⟩ := brexec_inr hx
    refine .right _ ?_
    have h1 := LFan.sum_set_w batchCost (b := .sending rem) hg
    have h2 := hp.length_eq
    have h3 : batchCost (.sending rem) < batchCost (.reading ids (.get [] out)) := by simp only [batchCost, List.length_nil]; omega
    unfold LFan.μ; simp only; omega
  | finish st fan hx => exact move (.finish _ st fan hx)

/-- GetFields waits for nobody. -/
theorem brexec_total {s : BDisk} (hk : s.d.cache.Ok) (hc : 1 ≤ s.d.cache.capacity) (f : String) (loc : RLoc) : ∃ s' x, s.rexec root f loc = some (s', x) := by
  cases loc with
  | get todo out =>
    cases todo with
    | nil => exact ⟨_, _, rfl⟩
    | cons id todo =>
      simp only [BDisk.rexec, CDisk.rexec]
      cases s.d.cache.get id with
      | mk c x => cases x <;> exact ⟨_, _, rfl⟩
  | field id r todo out => exact ⟨_, _, rfl⟩
  | load id todo out =>
    simp only [BDisk.rexec]
    split <;> exact ⟨_, _, rfl⟩
  | put id r todo out =>
    obtain ⟨c, hc⟩ := LRU.put_some hk hc id r
    simp only [BDisk.rexec, CDisk.rexec, hc, Option.map_some]
    exact ⟨_, _, rfl⟩

/-- a search that has not returned can go on, if only to panic. -/
theorem bprogress {terms : List String} {f : String} {cpus : Nat} {s : BDisk} {x : DSearch} (hk : s.d.cache.Ok) (hcap : 1 ≤ s.d.cache.capacity) (h : DLive.Ready s.d.mem x) (hd : ∀ st docs, x ≠ .done st docs) :
    ∃ s' y, BMove root terms f cpus s x s' y := by
  cases x with
  | first q =>
    obtain ⟨hr, he⟩ := h
    obtain ⟨q', hq⟩ := LSearch.progress (terms := terms) (f := f) (cpus := cpus) hr (by rintro st docs rfl; cases he)
    by_cases he' : q'.early = true
    · exact ⟨_, _, .first _ q q' hq he'⟩
    · cases hq with
      | begin2 st fan hf => exact ⟨_, _, .begin2 _ st fan hf⟩
      | p2 => cases he
      | finish => cases he
      | _ => exact absurd rfl he'
  | phase2 st fan =>
    by_cases hf : fan.Finished
    · exact ⟨_, _, .finish _ st fan hf⟩
    · obtain ⟨fan', hx⟩ := LFan.progress (act := fun g a g' => DBatchG.Act g a g' ∨ (a = .look ∧ ∃ ids loc, g = .reading ids loc)) (holds := DBatchG.holds) (fin := DBatchG.fin)
        (by intro g; cases g <;> simp [DBatchG.fin, DBatchG.holds]) h (by
          intro g hg
          cases g with
          | waiting ids => exact .inr (.inl ⟨rfl, _, .inl (.acquire ids)⟩)
          | reading ids loc => exact .inr (.inr ⟨rfl, .done, .inl (.inr ⟨rfl, ids, loc, rfl⟩)⟩)
          | sending rem =>
            refine .inr (.inr ⟨rfl, ?_⟩)
            cases rem with
            | nil => exact ⟨_, .inr (.inl (.inl .release))⟩
            | cons e rem => exact ⟨_, .inr (.inr ⟨e, .inl (.send e rem)⟩)⟩
          | done => exact .inl rfl) hf
      have p2 : ∀ {fan'}, LFan.Step DBatchG.Act DBatchG.holds DBatchG.fin fan fan' → ∃ s' y, BMove root terms f cpus s (.phase2 st fan) s' y := fun h => ⟨_, _, .p2 _ st fan _ h⟩
      cases hx with
      | acquire i g g' hi ha hs =>
        rcases ha with ha | ⟨ha, -⟩
        · exact p2 (.acquire fan i g g' hi ha hs)
        · cases ha
      | look i g g' hi ha =>
        rcases ha with ha | ⟨-, ids, loc, rfl⟩
        · cases ha
        · obtain ⟨s', x, hx⟩ := brexec_total (root := root) hk hcap f loc
          cases x with
          | none => exact ⟨_, _, .panics _ s' st fan i ids loc hi hx⟩
          | some x =>
            cases x with
            | inl loc' => exact ⟨_, _, .fetch _ s' st fan i ids loc loc' hi hx⟩
            | inr out => exact ⟨_, _, .fetched _ s' st fan i ids loc out out hi hx (.refl _)⟩
      | send i g g' x hi ha hc =>
        rcases ha with ha | ⟨ha, -⟩
        · exact p2 (.send fan i g g' x hi ha hc)
        · cases ha
      | handoff i g g' x hi ha hc =>
        rcases ha with ha | ⟨ha, -⟩
        · exact p2 (.handoff fan i g g' x hi ha hc)
        · cases ha
      | release i g g' hi ha =>
        rcases ha with ha | ⟨ha, -⟩
        · exact p2 (.release fan i g g' hi ha)
        · cases ha
      | close ha hc => exact p2 (.close fan ha hc)
      | recv x q hq => exact p2 (.recv fan x q hq)
  | done st docs => exact absurd rfl (hd st docs)

/-! ### all the searches -/

variable [GoFloat F]

/-- `Serves`, and there is room for a document in the cache. -/
structure Lively (fs0 : FS) (root : Path) (m : CMem) (s : BServer F) : Prop where
  serves : Serves fs0 root m s
  room : 1 ≤ s.disk.d.cache.capacity
  alloc : Conc.Alloc s.disk.d.mem
  ready : ∀ r ∈ s.reqs, ∀ q x, (q, DQ.running x) ∈ r.threads → DLive.Ready s.disk.d.mem x

theorem panics_down {cpus : Nat} {d d' : BDisk} {r : DReq F} (hm : BReq.Move root cpus d r d' none) : d'.d.up = false := by
  cases hm with
  | panics _ _ i q x ht h =>
    cases h with
    | panics _ st fan i ids loc hg h =>
      cases loc with
      | load id todo out => simp only [BDisk.rexec] at h; split at h <;> cases h; rfl
      | get todo o => obtain ⟨y, hy, e⟩ := Option.map_eq_some_iff.1 h; cases e
      | field id r todo o => cases h
      | put id r todo o => obtain ⟨y, hy, e⟩ := Option.map_eq_some_iff.1 h; cases e

omit [GoFloat F] in
theorem bmove_room {terms : List String} {f : String} {cpus : Nat} {s s' : BDisk} {x x' : DSearch} (hk : s.d.cache.Ok) (hm : BMove root terms f cpus s x s' (some x')) : s'.d.cache.capacity = s.d.cache.capacity := by
  cases hm with
  | fetch _ st fan i ids loc loc' hg hx => exact brexec_room hk hx
  | fetched _ st fan i ids loc out rem hg hx hp => exact brexec_room hk hx
  | _ => rfl

theorem lively_step {m : CMem} {cpus : Nat} (hc : 0 < cpus) {s s' : BServer F} (h : Lively fs0 root m s) (hs : BServer.UpStep z root OnlyReads cpus s s') : Lively fs0 root m s' := by
  have hv := serves_step h.serves hs
  obtain ⟨hs, hup⟩ := hs
  cases hs with
  | store a d ha hx =>
    have hup : d.d.up = true := hup
    have g := exec_grown h.serves.calm h.serves.up hx hup
    have hreq : (if d.d.up then s.reqs else []) = s.reqs := by rw [hup]; rfl
    refine ⟨hv, ?_, g.alloc h.alloc, ?_⟩
    · show 1 ≤ d.d.cache.capacity
      rw [exec_room h.serves.calm h.serves.up hx hup]; exact h.room
    · rw [hreq]; exact fun r hr q x hq => g.ready (h.ready r hr q x hq)
  | arrive query hu =>
    refine ⟨hv, h.room, h.alloc, fun r hr q x hx => ?_⟩
    rcases List.mem_append.1 hr with hr | hr
    · exact h.ready r hr q x hx
    · cases List.mem_singleton.1 hr
      obtain ⟨q', -, e⟩ := List.mem_map.1 hx
      cases e
      exact ⟨trivial, rfl⟩
  | req i r r' d hi hm =>
    have hmem := List.mem_of_getElem? hi
    cases hm with
    | inner _ _ j q x x' ht hm =>
      obtain ⟨-, c2, -⟩ := bmove_known h.serves.calm (h.serves.known r hmem q x (List.mem_of_getElem? ht)).known hm
      refine ⟨hv, ?_, c2.grown.alloc h.alloc, fun r0 hr0 q0 x0 hx0 => ?_⟩
      · show 1 ≤ d.d.cache.capacity
        rw [bmove_room h.serves.calm.readers.cacheOk hm]; exact h.room
      rcases LFan.mem_set' hr0 with rfl | hr0
      · rcases LFan.mem_set' hx0 with e | hx0
        · cases e; exact bready_move hc h.alloc (h.ready r hmem q x (List.mem_of_getElem? ht)) hm
        · exact c2.grown.ready (h.ready r hmem q0 x0 hx0)
      · exact c2.grown.ready (h.ready r0 hr0 q0 x0 hx0)
    | send _ j q st docs order ht ho hc =>
      refine ⟨hv, h.room, h.alloc, fun r0 hr0 q0 x0 hx0 => ?_⟩
      rcases LFan.mem_set' hr0 with rfl | hr0
      · rcases LFan.mem_set' hx0 with e | hx0
        · cases e
        · exact h.ready r hmem q0 x0 hx0
      · exact h.ready r0 hr0 q0 x0 hx0
    | _ =>
      refine ⟨hv, h.room, h.alloc, fun r0 hr0 q0 x0 hx0 => ?_⟩
      rcases LFan.mem_set' hr0 with rfl | hr0
      · exact h.ready r hmem q0 x0 hx0
      · exact h.ready r0 hr0 q0 x0 hx0
  | panics i r d hi hm =>
    have := panics_down hm
    rw [show ({ disk := d } : BServer F).disk.d.up = d.d.up from rfl, this] at hup
    cases hup

/-- a request that has not returned can make a step. -/
theorem progress {m : CMem} {cpus : Nat} {s : BServer F} (h : Lively fs0 root m s) {r : DReq F} (hr : r ∈ s.reqs) (hn : r.result = none) : ∃ d r', BReq.Move root cpus s.disk r d r' := by
  by_cases hall : ∀ t ∈ r.threads, t.2 = .sent
  · cases hc : r.closed with
    | false => exact ⟨_, _, .close _ r hall hc⟩
    | true =>
      cases hch : r.chan with
      | cons l q => exact ⟨_, _, .recv _ r l q hch⟩
      | nil =>
        obtain ⟨l, hl⟩ := exists_sortSlice r.temp
        exact ⟨_, _, .return_ _ r r.temp l ⟨hc, hch⟩ hn (.refl _) hl⟩
  · have ⟨⟨q, t⟩, ht, hne⟩ : ∃ t ∈ r.threads, t.2 ≠ .sent := Classical.byContradiction fun hx => hall fun t ht => Classical.byContradiction fun hne => hx ⟨t, ht, hne⟩
    cases t with
    | sent => exact absurd rfl hne
    | running x =>
      obtain ⟨j, hj⟩ := List.getElem?_of_mem ht
      by_cases hd : ∀ st docs, x ≠ .done st docs
      · obtain ⟨d, y, hm⟩ := bprogress (root := root) (terms := q.terms) (f := q.fieldName) (cpus := cpus) h.serves.calm.readers.cacheOk h.room (h.ready r hr q x ht) hd
        cases y with
        | none => exact ⟨_, _, .panics _ d r j q x hj hm⟩
        | some x' => exact ⟨_, _, .inner _ d r j q x x' hj hm⟩
      · have ⟨st, docs, e⟩ : ∃ st docs, x = .done st docs := Classical.byContradiction fun hn => hd fun st docs e => hn ⟨st, docs, e⟩
        subst e
        exact ⟨_, _, .send _ r j q st docs docs hj (.refl _) (Server.chan_room (h.serves.col r hr) hj)⟩

/-- the rest of the work of query `j` of request `i`. -/
def trank (i j : Nat) (s : BServer F) : Nat × Nat :=
  match (s.reqs[i]?).bind (·.threads[j]?) with
  | some (q, .running x) => searchRank s.disk.d.mem q.fieldName x
  | _ => (0, 0)

/-- the rest of the work of request `i`. -/
def crank (i : Nat) (s : BServer F) : Nat :=
  match s.reqs[i]? with
  | some r => 2 * (r.threads.filter fun t => match t.2 with | .running _ => true | .sent => false).length + r.chan.length + (if r.closed then 0 else 1) + (if r.result.isSome then 0 else 1)
  | none => 0

/-- the queries of request `i`. -/
def queries (i : Nat) (s : BServer F) : Option (List (Query F)) := (s.reqs[i]?).map DReq.query

theorem bquery_move {cpus : Nat} {d d' : BDisk} {r r' : DReq F} (h : BReq.Move root cpus d r d' (some r')) : r'.query = r.query := by
  cases h with
  | inner _ _ i q x x' ht hm =>
    show (r.threads.set i (q, .running x')).map Prod.fst = r.threads.map Prod.fst
    rw [List.map_set]
    apply List.ext_getElem?
    intro j
    rw [List.getElem?_set]
    split
    · rename_i e
      subst e
      rw [List.getElem?_map, ht]
      have := (List.getElem?_eq_some_iff.1 ht).1
      simp [this]
    · rfl
  | send _ i q st docs order ht ho hc => exact DReq.query_move (cpus := cpus) (d := d.d) (d' := d.d) (.send _ _ i q st docs order ht ho hc)
  | close _ h1 hc => rfl
  | recv _ l q h1 => rfl
  | return_ _ order l h1 hr ho hl => rfl

theorem queries_step {allow : CDisk.Act → Prop} {cpus : Nat} {s s' : BServer F} {i : Nat} {qs : List (Query F)} (h : queries i s = some qs) (hs : BServer.UpStep z root allow cpus s s') : queries i s' = some qs := by
  obtain ⟨hs, hu⟩ := hs
  unfold queries at h ⊢
  cases hs with
  | store a d ha hx => rw [show d.d.up = true from hu, if_pos rfl]; exact h
  | arrive query hu' =>
    obtain ⟨r, hr, e⟩ := Option.map_eq_some_iff.1 h
    rw [List.getElem?_append_left (List.getElem?_eq_some_iff.1 hr).1]; exact h
  | req k r r' d hk hm =>
    show ((s.reqs.set k r')[i]?).map DReq.query = some qs
    rw [List.getElem?_set]
    split
    · rename_i e; subst e
      rw [hk] at h
      rw [if_pos (List.getElem?_eq_some_iff.1 hk).1, Option.map_some, bquery_move hm]; exact h
    · exact h
  | panics k r d hi hm =>
    have := panics_down hm
    rw [show ({ disk := d } : BServer F).disk.d.up = d.d.up from rfl, this] at hu
    cases hu

theorem trank_step {m : CMem} {cpus : Nat} {s s' : BServer F} (h : Lively fs0 root m s) {i : Nat} {qs : List (Query F)} (hq : queries i s = some qs) (hs : BServer.UpStep z root OnlyReads cpus s s') (j : Nat) :
    Less2 (trank i j s') (trank i j s) ∨ trank i j s' = trank i j s := by
  obtain ⟨hs, hup⟩ := hs
  obtain ⟨r0, hr0, -⟩ := Option.map_eq_some_iff.1 hq
  cases hs with
  | store a d ha hx =>
    right
    have hup : d.d.up = true := hup
    have g := exec_grown h.serves.calm h.serves.up hx hup
    unfold trank
    simp only [hup, if_true, g.rank]
  | arrive query hu' =>
    right
    unfold trank
    simp only
    rw [List.getElem?_append_left (List.getElem?_eq_some_iff.1 hr0).1]
  | req k r r' d hk hm =>
    have hkl := (List.getElem?_eq_some_iff.1 hk).1
    have hmem := List.mem_of_getElem? hk
    cases hm with
    | inner _ _ l q x x' ht hm =>
      have hl := (List.getElem?_eq_some_iff.1 ht).1
      obtain ⟨-, c2, -⟩ := bmove_known h.serves.calm (h.serves.known r hmem q x (List.mem_of_getElem? ht)).known hm
      by_cases hki : k = i
      · subst hki
        by_cases hlj : l = j
        · subst hlj
          left
          have := bmove_rank (h.ready r hmem q x (List.mem_of_getElem? ht)) hm
          unfold trank
          simp only [List.getElem?_set, if_true, hkl, hl, Option.bind_some, hk, ht]
          exact this
        · right
          unfold trank
          simp only [List.getElem?_set, if_true, hkl, Option.bind_some, hk, c2.grown.rank, if_neg hlj]
      · right
        unfold trank
        simp only [List.getElem?_set, if_neg hki, c2.grown.rank]
    | send _ l q st docs order ht ho hc =>
      right
      have hl := (List.getElem?_eq_some_iff.1 ht).1
      unfold trank
      by_cases hki : k = i
      · subst hki
        by_cases hlj : l = j
        · subst hlj
          simp only [List.getElem?_set, if_true, hkl, hl, Option.bind_some, hk, ht, searchRank]
        · simp only [List.getElem?_set, if_true, hkl, Option.bind_some, hk, if_neg hlj]
      · simp only [List.getElem?_set, if_neg hki]
    | close _ hd hc =>
      right
      unfold trank
      by_cases hki : k = i
      · subst hki; simp only [List.getElem?_set, if_true, hkl, Option.bind_some, hk]
      · simp only [List.getElem?_set, if_neg hki]
    | recv _ l q hc =>
      right
      unfold trank
      by_cases hki : k = i
      · subst hki; simp only [List.getElem?_set, if_true, hkl, Option.bind_some, hk]
      · simp only [List.getElem?_set, if_neg hki]
    | return_ _ order l hf hr' ho hl =>
      right
      unfold trank
      by_cases hki : k = i
      · subst hki; simp only [List.getElem?_set, if_true, hkl, Option.bind_some, hk]
      · simp only [List.getElem?_set, if_neg hki]
  | panics k r d hi hm =>
    have := panics_down hm
    rw [show ({ disk := d } : BServer F).disk.d.up = d.d.up from rfl, this] at hup
    cases hup

theorem move_drop {m : CMem} {cpus : Nat} {s : BServer F} (h : Lively fs0 root m s) {i : Nat} {r r' : DReq F} {d : BDisk} (hi : s.reqs[i]? = some r) (hm : BReq.Move root cpus s.disk r d (some r')) :
    (crank i { disk := d, reqs := s.reqs.set i r' } = crank i s ∧ ∃ j, j < r.query.length ∧ Less2 (trank i j { disk := d, reqs := s.reqs.set i r' }) (trank i j s)) ∨
      crank i { disk := d, reqs := s.reqs.set i r' } < crank i s := by
  have hil := (List.getElem?_eq_some_iff.1 hi).1
  have e1 : ∀ {d : BDisk} {r' : DReq F}, crank i { disk := d, reqs := s.reqs.set i r' } =
      2 * (r'.threads.filter fun t => match t.2 with | .running _ => true | .sent => false).length + r'.chan.length + (if r'.closed then 0 else 1) + (if r'.result.isSome then 0 else 1) := by
    intro d r'
    unfold crank
    simp only [List.getElem?_set, if_true, hil]
  have e2 : crank i s = 2 * (r.threads.filter fun t => match t.2 with | .running _ => true | .sent => false).length + r.chan.length + (if r.closed then 0 else 1) + (if r.result.isSome then 0 else 1) := by
    unfold crank
    simp only [hi]
  cases hm with
  | inner _ _ l q x x' ht hm =>
    left
    have hl := (List.getElem?_eq_some_iff.1 ht).1
    refine ⟨?_, l, by simpa [DReq.query] using hl, ?_⟩
    · rw [e1, e2]
      have := Server.filter_set (q' := q) (t' := .running x') ht fun t => match t with | .running _ => true | .sent => false
      simp only [if_true] at this ⊢
      omega
    · have := bmove_rank (h.ready r (List.mem_of_getElem? hi) q x (List.mem_of_getElem? ht)) hm
      unfold trank
      simp only [List.getElem?_set, if_true, hil, hl, Option.bind_some, hi, ht]
      exact this
  | send _ l q st docs order ht ho hc =>
    right
    rw [e1, e2]
    have := Server.filter_set (q' := q) (t' := .sent) ht fun t => match t with | .running _ => true | .sent => false
    simp only [if_true, Bool.false_eq_true, if_false] at this ⊢
    simp only [List.length_append, List.length_singleton]
    omega
  | close _ hd hc =>
    right
    rw [e1, e2]
    simp only [if_true, hc, Bool.false_eq_true, if_false]
    omega
  | recv _ l q hc =>
    right
    rw [e1, e2, hc]
    simp only [List.length_cons]
    omega
  | return_ _ order l hf hr' ho hl =>
    right
    rw [e1, e2, hr']
    simp only [Option.isSome_some, if_true, Option.isSome_none, Bool.false_eq_true, if_false]
    omega

theorem crank_step {m : CMem} {cpus : Nat} {s s' : BServer F} (h : Lively fs0 root m s) {i : Nat} {qs : List (Query F)} (hq : queries i s = some qs) (hs : BServer.UpStep z root OnlyReads cpus s s') :
    crank i s' < crank i s ∨ crank i s' = crank i s := by
  obtain ⟨hs, hup⟩ := hs
  obtain ⟨r0, hr0, -⟩ := Option.map_eq_some_iff.1 hq
  cases hs with
  | store a d ha hx => right; unfold crank; simp only [show d.d.up = true from hup, if_true]
  | arrive query hu' =>
    right
    unfold crank
    simp only
    rw [List.getElem?_append_left (List.getElem?_eq_some_iff.1 hr0).1]
  | req k r r' d hk hm =>
    by_cases hki : k = i
    · subst hki
      rcases move_drop h hk hm with h1 | h1
      · exact .inr h1.1
      · exact .inl h1
    · right
      unfold crank
      simp only [List.getElem?_set, if_neg hki]
  | panics k r d hi hm =>
    have := panics_down hm
    rw [show ({ disk := d } : BServer F).disk.d.up = d.d.up from rfl, this] at hup
    cases hup

/-- in a run, a request makes finitely many steps. -/
theorem finite {m : CMem} {cpus : Nat} (hc : 0 < cpus) {run : Nat → BServer F} (h0 : Lively fs0 root m (run 0)) (hr : ∀ n, BServer.UpStep z root OnlyReads cpus (run n) (run (n + 1))) {i : Nat} {qs : List (Query F)}
    (hq : queries i (run 0) = some qs) : ∃ N, ∀ n, N ≤ n → ¬ BServer.ReqStep root cpus i (run n) (run (n + 1)) := by
  have inv : ∀ n, Lively fs0 root m (run n) ∧ queries i (run n) = some qs := by
    intro n
    induction n with
    | zero => exact ⟨h0, hq⟩
    | succ n ih => exact ⟨lively_step hc ih.1 (hr n), queries_step ih.2 (hr n)⟩
  obtain ⟨Nc, hNc⟩ := eventually_const (lt := (· < ·)) Nat.lt_wfRel.wf (f := fun n => crank i (run n)) fun n => crank_step (inv n).1 (inv n).2 (hr n)
  have ht : ∀ m, ∃ N, ∀ j, j < m → ∀ n, N ≤ n → trank i j (run (n + 1)) = trank i j (run n) := by
    intro m
    induction m with
    | zero => exact ⟨0, fun j hj => (by omega)⟩
    | succ m ih =>
      obtain ⟨N1, h1⟩ := ih
      obtain ⟨N2, h2⟩ := eventually_const less2_wf (f := fun n => trank i m (run n)) fun n => trank_step (inv n).1 (inv n).2 (hr n) m
      refine ⟨max N1 N2, fun j hj n hn => ?_⟩
      by_cases hjm : j = m
      · subst hjm
        exact (h2 (n + 1) (by omega)).trans (h2 n (by omega)).symm
      · exact h1 j (by omega) n (by omega)
  obtain ⟨Nt, hNt⟩ := ht qs.length
  refine ⟨max Nc Nt, fun n hn => ?_⟩
  rintro ⟨r, r', d, hi, hm, e⟩
  have hqr : r.query = qs := by
    have := (inv n).2
    unfold queries at this
    rw [hi] at this
    exact Option.some.inj this
  have hd := move_drop (inv n).1 hi hm
  rw [← e, hqr] at hd
  rcases hd with ⟨-, j, hj, hlt⟩ | hlt
  · rw [hNt j hj n (by omega)] at hlt
    exact less2_wf.irrefl.irrefl _ hlt
  · have := hNc n (by omega)
    have := hNc (n + 1) (by omega)
    omega

theorem reqStep_up {m : CMem} {cpus i : Nat} {s s' : BServer F} (h : Lively fs0 root m s) (hs : BServer.ReqStep root cpus i s s') : BServer.UpStep z root OnlyReads cpus s s' := by
  obtain ⟨r, r', d, hi, hm, rfl⟩ := hs
  refine ⟨.req s i r r' d hi hm, ?_⟩
  cases hm with
  | inner _ _ j q x x' ht hm =>
    obtain ⟨-, c2, -⟩ := bmove_known h.serves.calm (h.serves.known r (List.mem_of_getElem? hi) q x (List.mem_of_getElem? ht)).known hm
    exact c2.up.trans h.serves.up
  | _ => exact h.serves.up

/-- the process that has opened a folder with room in its cache. -/
theorem opened_room {t s₀ : BDisk} {k : Nat} {n : Int} {progs : List (List DOp)} (h : t.kill.run z root (opening k n progs) = some s₀) (hu : s₀.d.up = true) : s₀.d.cache.capacity = n ∧ Conc.Alloc s₀.d.mem := by
  unfold BDisk.run opening at h
  rw [← List.cons_append, List.foldlM_append] at h
  obtain ⟨s1, -, h⟩ := Option.bind_eq_some_iff.1 h
  simp only [List.foldlM_cons, List.foldlM_nil] at h
  obtain ⟨s2, h, e⟩ := Option.bind_eq_some_iff.1 h
  cases e
  simp only [BDisk.exec] at h
  split at h
  · split at h
    · cases h
      refine ⟨rfl, fun r t sr e => ?_⟩
      simp only [CMem.loaded] at e ⊢
      split at e
      · obtain ⟨x, -, hx⟩ := List.mem_map.1 (GoMap.mem_of_get? e)
        cases hx
        exact Nat.one_pos
      · cases e
    · cases h; rw [kill_down] at hu; cases hu
  · cases h

theorem lively {t s₀ : BDisk} {k : Nat} {n : Int} {progs : List (List DOp)} (h0 : Tree root t.fs) (ho : ∀ p ∈ progs, ∀ op ∈ p, ∃ ids name, op = DOp.getFields ids name)
    (h : t.kill.run z root (opening k n progs) = some s₀) (hu : s₀.d.up = true) (hn : 1 ≤ n) {cpus : Nat} (hc : 0 < cpus) {s : BServer F} (hs : Reaches (BServer.UpStep z root OnlyReads cpus) { disk := s₀ } s) :
    Lively t.fs root s₀.d.mem s :=
  hs.invariant ⟨serves (cpus := cpus) h0 ho h hu (.refl _), by rw [(opened_room h hu).1]; exact hn, (opened_room h hu).2, fun r hr => (by cases hr)⟩ fun _ _ => lively_step hc

end Opening
open Opening

/-- **C129, every search ends.** The cache has room for a document; every id that the folder lists is the name of a file, and no file of a listed document is damaged. Whatever the clients, the merges and the other searches are
doing: a search that has not returned can make a step — it waits for nobody —, by itself it returns, and in no run in which the process does not end does it make infinitely many steps. -/
theorem c129_ends {F : Type} [GoFloat F] {root : Path} {z : Bytes → Bytes} {t s₀ : BDisk} {k : Nat} {n : Int} {progs : List (List DOp)} (h0 : Tree root t.fs) (hz : ∀ d, Gz.Written d (z d))
    (ho : ∀ p ∈ progs, ∀ op ∈ p, ∃ ids name, op = DOp.getFields ids name) (h : t.kill.run z root (opening k n progs) = some s₀) (hu : s₀.d.up = true) (hn : 1 ≤ n)
    (hp : ∀ f term d, Says t.fs root f term d → PlainName d ∧ ¬ DamagedDocument t.fs root d) {cpus : Nat} (hc : 0 < cpus) {s : BServer F} (hs : Reaches (BServer.UpStep z root OnlyReads cpus) { disk := s₀ } s) {i : Nat} {r : DReq F}
    (hi : s.reqs[i]? = some r) :
    (r.result = none → ∃ s', BServer.ReqStep root cpus i s s') ∧ (∃ s' l, Reaches (BServer.ReqStep root cpus i) s s' ∧ BServer.resultOf i s' = some l) ∧
    ∀ run : Nat → BServer F, run 0 = s → (∀ n, BServer.UpStep z root OnlyReads cpus (run n) (run (n + 1))) → ∃ N, ∀ n, N ≤ n → ¬ BServer.ReqStep root cpus i (run n) (run (n + 1)) := by
  have hl := lively h0 ho h hu hn hc hs
  have hq : queries i s = some r.query := by unfold queries; rw [hi]; rfl
  have prog : ∀ t' : BServer F, Reaches (BServer.UpStep z root OnlyReads cpus) { disk := s₀ } t' → ∀ r, t'.reqs[i]? = some r → r.result = none → ∃ s', BServer.ReqStep root cpus i t' s' := by
    intro t' ht' r hi hn'
    obtain ⟨d, r', hm⟩ := progress (cpus := cpus) (lively h0 ho h hu hn hc ht') (List.mem_of_getElem? hi) hn'
    cases r' with
    | none => exact absurd hm (c129_no_panic h0 hz ho h hu hp ht' (List.mem_of_getElem? hi) d)
    | some r' => exact ⟨_, r, r', d, hi, hm, rfl⟩
  refine ⟨prog s hs r hi, ?_, fun run e hr => finite hc (e ▸ hl) hr (e ▸ hq)⟩
  refine Classical.byContradiction fun hno => ?_
  have inv : ∀ t', Reaches (BServer.ReqStep root cpus i) s t' → Reaches (BServer.UpStep z root OnlyReads cpus) { disk := s₀ } t' ∧ queries i t' = some r.query := fun t' ht' =>
    ht'.invariant (P := fun t' => Reaches (BServer.UpStep z root OnlyReads cpus) { disk := s₀ } t' ∧ queries i t' = some r.query) ⟨hs, hq⟩ fun a b hp hs => by
      have hu' : BServer.UpStep z root OnlyReads cpus a b := reqStep_up (lively h0 ho h hu hn hc hp.1) hs
      exact ⟨hp.1.tail hu', queries_step hp.2 hu'⟩
  have nxt : ∀ t' : { t' // Reaches (BServer.ReqStep root cpus i) s t' }, ∃ t'' : { t' // Reaches (BServer.ReqStep root cpus i) s t' }, BServer.ReqStep root cpus i t'.1 t''.1 := by
    rintro ⟨t', ht'⟩
    obtain ⟨h1, h2⟩ := inv t' ht'
    obtain ⟨r', hr', -⟩ := Option.map_eq_some_iff.1 h2
    have hn' : r'.result = none := by
      cases hl : r'.result with
      | none => rfl
      | some l => exact absurd ⟨t', l, ht', by unfold BServer.resultOf; rw [hr']; exact hl⟩ hno
    obtain ⟨b, hb⟩ := prog t' h1 r' hr' hn'
    exact ⟨⟨b, ht'.tail hb⟩, hb⟩
  choose f hf using nxt
  let run : Nat → { t' // Reaches (BServer.ReqStep root cpus i) s t' } := fun n => Nat.rec ⟨s, .refl _⟩ (fun _ t' => f t') n
  have hrun : ∀ n, BServer.ReqStep root cpus i (run n).1 (run (n + 1)).1 := fun n => hf (run n)
  obtain ⟨N, hN⟩ := finite (z := z) hc (run := fun n => (run n).1) hl (fun n => reqStep_up (lively h0 ho h hu hn hc (inv _ (run n).2).1) (hrun n)) hq
  exact hN N le_rfl (hrun N)

end Goir
