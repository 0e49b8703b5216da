import Verif.Lemmas.LiveDisk
/-!
# C97: what a search of a Disk store returns while clients use the store

`s₀` is the store when the search is called: any number of processes have been run, ended or killed at any points, and any number of clients are in the middle of any calls. Then the goroutines
of the search, the clients and the goroutines of the store take steps in any order.
-/
namespace Goir
open Spec CMem CDisk

namespace DLive

/-! ### the numbers -/

theorem saveCount_le (L x : List StoreOp) (f : String) : saveCount L f ≤ saveCount (L ++ x) f := by
  unfold saveCount; rw [List.filter_append, List.length_append]; omega

theorem termCount_le (L x : List StoreOp) (f t : String) : termCount L f t ≤ termCount (L ++ x) f t := by
  unfold termCount; rw [List.filter_append, List.length_append]; omega

theorem saveLengthSum_le (L x : List StoreOp) (f : String) (hx : ∀ op ∈ x, 0 ≤ op.field.length) : saveLengthSum L f ≤ saveLengthSum (L ++ x) f := by
  have : 0 ≤ saveLengthSum x f := by
    unfold saveLengthSum
    induction x with
    | nil => simp
    | cons op x ih =>
      have h1 := ih fun y hy => hx y (List.mem_cons_of_mem _ hy)
      have h2 := hx op List.mem_cons_self
      simp only [List.filter_cons]
      split
      · simp only [List.map_cons, List.sum_cons]; omega
      · exact h1
  unfold saveLengthSum at this ⊢
  rw [List.filter_append, List.map_append, List.sum_append]; omega

/-- no number is more than what was saved. -/
structure LenLe (h : List StoreOp) (f : String) (st : LStats) : Prop where
  len : (∀ op ∈ h, 0 ≤ op.field.length) → st.len ≤ saveLengthSum h f

/-- … -/
structure NumLe (h : List StoreOp) (f : String) (st : LStats) : Prop where
  len : LenLe h f st
  size : st.size ≤ saveCount h f
  nft : ∀ t n, st.nft.get? t = some n → n ≤ termCount h f t

theorem LenLe.mono {h : List StoreOp} {f : String} {st : LStats} (x : List StoreOp) (hl : LenLe h f st) : LenLe (h ++ x) f st :=
  ⟨fun hx => Int.le_trans (hl.len fun op hop => hx op (List.mem_append_left _ hop)) (saveLengthSum_le _ _ _ fun op hop => hx op (List.mem_append_right _ hop))⟩

theorem NumLe.mono {h : List StoreOp} {f : String} {st : LStats} (x : List StoreOp) (hl : NumLe h f st) : NumLe (h ++ x) f st :=
  ⟨hl.len.mono x, Int.le_trans hl.size (by exact_mod_cast saveCount_le _ _ _), fun t n e => Int.le_trans (hl.nft t n e) (by exact_mod_cast termCount_le _ _ _ _)⟩

/-- the numbers of a search. -/
def Numbers (h : List StoreOp) (f : String) : DSearch → Prop
  | .first .readLen => True
  | .first (.readSize st) => LenLe h f st ∧ st.nft = []
  | .first (.readNft st _) => NumLe h f st
  | .first (.readTerm st r _ _) => NumLe h f st ∧ r.tag = f
  | .first (.phase1 st _) => NumLe h f st
  | .first (.phase2 st _) => NumLe h f st
  | .first (.done st _) => NumLe h f st
  | .phase2 st _ => NumLe h f st
  | .done st _ => NumLe h f st

theorem Numbers.mono {h : List StoreOp} {f : String} {q : DSearch} (x : List StoreOp) (hn : Numbers h f q) : Numbers (h ++ x) f q := by
  cases q with
  | first q =>
    cases q with
    | readLen => trivial
    | readSize st => exact ⟨LenLe.mono x hn.1, hn.2⟩
    | readTerm st r t ts => exact ⟨NumLe.mono x hn.1, hn.2⟩
    | readNft st ts => exact NumLe.mono x hn
    | phase1 st fan => exact NumLe.mono x hn
    | phase2 st fan => exact NumLe.mono x hn
    | done st docs => exact NumLe.mono x hn
  | phase2 st fan => exact NumLe.mono x hn
  | done st docs => exact NumLe.mono x hn

theorem numLe_set {h : List StoreOp} {f : String} {st : LStats} (hn : NumLe h f st) {t : String} {n : Int} (ht : n ≤ termCount h f t) : NumLe h f { st with nft := st.nft.set t n } := by
  refine ⟨⟨hn.len.len⟩, hn.size, fun t' n' e0 => ?_⟩
  have e : (st.nft.set t n).get? t' = some n' := e0
  rw [GoMap.get?_set] at e
  split at e
  · rename_i e'
    subst e'
    cases e
    exact ht
  · exact hn.nft _ _ e

theorem numbers_first {s : CDisk} (hk : Ok s) (hc : Counted s) (gv : GoValues s.hist) {terms : List String} {f : String} {cpus : Nat} {q q' : LSearch}
    (hn : Numbers s.hist f (.first q)) (hs : LSearch.Step s.mem terms f cpus q q') (he : q'.early = true) : Numbers s.hist f (.first q') := by
  cases hs with
  | readLen => exact ⟨⟨fun hl => hc.length_le hk gv hl f⟩, rfl⟩
  | readSize st =>
    refine ⟨⟨hn.1.len⟩, hc.size_le hk gv f, fun t n e => ?_⟩
    have e : st.nft.get? t = some n := e
    rw [hn.2] at e; cases e
  | nftFound st t ts r hr => exact ⟨hn, hk.tags.nft _ _ hr⟩
  | nftUnknown st t ts hr => exact numLe_set hn (by exact_mod_cast Nat.zero_le _)
  | readTerm st r t ts => exact numLe_set hn.1 (hc.nft_le hk gv hn.2 t)
  | begin1 st => exact hn
  | p1 st a b hx => exact hn
  | begin2 => cases he
  | p2 => cases he
  | finish => cases he

/-! ### the documents -/

/-- the goroutine of a batch knows only documents that were posted. -/
def GHit (h : List StoreOp) (terms : List String) (f : String) : DBatchG → Prop
  | .waiting ids => ∀ id ∈ ids, LSearch.Hit h terms f id
  | .reading ids _ => ∀ id ∈ ids, LSearch.Hit h terms f id
  | .sending rem => ∀ e ∈ rem, LSearch.Hit h terms f e.1
  | .done => True

/-- and so does the search. -/
def Hits (h : List StoreOp) (terms : List String) (f : String) : DSearch → Prop
  | .first (.phase1 _ fan) => (∀ g ∈ fan.gs, LSearch.TermOk h terms f g) ∧ ∀ x ∈ fan.chan ++ fan.out, LSearch.Hit h terms f x
  | .first _ => True
  | .phase2 _ fan => (∀ g ∈ fan.gs, GHit h terms f g) ∧ ∀ e ∈ fan.chan ++ fan.out, LSearch.Hit h terms f e.1
  | .done _ docs => ∀ d fl, docs.get? d = some fl → LSearch.Hit h terms f d

theorem Hits.mono {h : List StoreOp} {terms : List String} {f : String} {q : DSearch} (x : List StoreOp) (hh : Hits h terms f q) : Hits (h ++ x) terms f q := by
  cases q with
  | first q =>
    cases q with
    | phase1 st fan => exact ⟨fun g hg => (hh.1 g hg).mono x, fun y hy => (hh.2 y hy).mono x⟩
    | _ => trivial
  | phase2 st fan =>
    refine ⟨fun g hg => ?_, fun e he => (hh.2 e he).mono x⟩
    have := hh.1 g hg
    cases g with
    | waiting ids => exact fun id hid => (this id hid).mono x
    | reading ids loc => exact fun id hid => (this id hid).mono x
    | sending rem => exact fun e he => (this e he).mono x
    | done => trivial
  | done st docs => exact fun d fl e => (hh d fl e).mono x

theorem act_hit {h : List StoreOp} {terms : List String} {f : String} (g : DBatchG) (a : GAct (String × Field)) (g' : DBatchG) (hg : GHit h terms f g) (ha : DBatchG.Act g a g') :
    GHit h terms f g' ∧ ∀ x, a = .emit x → LSearch.Hit h terms f x.1 := by
  cases ha with
  | acquire ids => exact ⟨hg, by rintro x ⟨⟩⟩
  | send e rem => exact ⟨fun e' he => hg e' (List.mem_cons_of_mem _ he), by rintro x ⟨⟩; exact hg _ List.mem_cons_self⟩
  | release => exact ⟨trivial, by rintro x ⟨⟩⟩

theorem rexec_inr {s s' : CDisk} {name : String} {loc : RLoc} {out : GoMap String Field} (h : s.rexec name loc = some (s', .inr out)) : loc = .get [] out ∧ s' = s := by
  cases loc with
  | get todo o =>
    cases todo with
    | nil => cases h; exact ⟨rfl, rfl⟩
    | cons id todo => simp only [rexec] at h; split at h <;> cases h
  | field id r todo o => cases h
  | load id todo o => simp only [rexec] at h; split at h <;> cases h
  | put id r todo o => simp only [rexec] at h; cases hp : s.cache.put id r <;> (rw [hp] at h; cases h)

/-- the results that GetFields has gathered are about documents it was asked for. -/
theorem out_ids {f : String} {s : DLive} (hs : Sim Good f s) (gv : GoValues s.disk.hist) {st : LStats} {fan : LFan DBatchG (String × Field)} (hq : s.search = .phase2 st fan) {i : Nat} {ids : List String}
    {loc : RLoc} (hg : fan.gs[i]? = some (.reading ids loc)) : OutOk s.disk.hist ids f (outOf loc) := by
  obtain ⟨-, A, hp, -⟩ := hs
  have hd : DocsOk (embed f s A) := hp.docs gv
  refine hd.out ((DBatchG.reading ids loc).toClient f) ?_ ids f loc rfl
  unfold embed readers
  rw [hq]
  exact List.mem_append_right _ (List.mem_map.2 ⟨_, List.mem_of_getElem? hg, rfl⟩)

/-- the store itself is in order. -/
theorem Sim.ok {f : String} {s : DLive} (h : Sim Good f s) : Ok s.disk := by
  obtain ⟨hu, A, hp, -⟩ := h
  have hk := hp.ok
  exact ⟨hk.tags, hk.lok, hk.ctag, hk.btag, hk.ix, hk.ix2, hk.proc, fun hx => (by rw [hu] at hx; cases hx), fun cl hcl => hk.cur cl (List.mem_append_left _ hcl), hk.ret⟩

theorem Sim.post {f : String} {s : DLive} (h : Sim Good f s) : PostOk s.disk := by
  obtain ⟨hu, A, hp, -⟩ := h
  exact ⟨hp.post.set, hp.post.ix⟩

theorem hits_move {terms : List String} {f : String} {cpus : Nat} {s s' : DLive} (hsim : Sim Good f s) (gv : GoValues s.disk.hist) (hh : Hits s.disk.hist terms f s.search) (hm : Move terms f cpus s s') :
    Hits s'.disk.hist terms f s'.search := by
  cases hm with
  | first d q q' hx he =>
    cases hx with
    | begin1 st =>
      refine ⟨?_, by simp⟩
      intro g hg
      obtain ⟨t, ht, rfl⟩ := List.mem_map.1 hg
      exact ht
    | p1 st a b hx => exact LFan.step_all (LSearch.term_ok hsim.ok.tags hsim.post.set) hx hh
    | begin2 => cases he
    | p2 => cases he
    | finish => cases he
    | _ => trivial
  | begin2 d st fan hf =>
    refine ⟨?_, by simp⟩
    intro g hg
    obtain ⟨ids, hb, rfl⟩ := List.mem_map.1 hg
    intro id hid
    exact hh.2 id (List.mem_append_right _ ((mem_makeBatches _ _).1 ⟨ids, hb, hid⟩))
  | p2 d st fan fan' hx => exact LFan.step_all act_hit hx hh
  | fetch d d' st fan i ids loc loc' hg hx =>
    obtain ⟨-, e, -⟩ := rexec_clients hx
    show Hits d'.hist terms f _
    rw [e]
    refine ⟨fun g hm => ?_, hh.2⟩
    rcases LFan.mem_set' hm with rfl | hm
    · exact (hh.1 _ (List.mem_of_getElem? hg) :)
    · exact hh.1 g hm
  | fetched d d' st fan i ids loc out rem hg hx hp =>
    obtain ⟨hl, rfl⟩ := rexec_inr hx
    refine ⟨fun g hm => ?_, hh.2⟩
    rcases LFan.mem_set' hm with rfl | hm
    · intro e he
      have hids : ∀ id ∈ ids, LSearch.Hit d'.hist terms f id := hh.1 _ (List.mem_of_getElem? hg)
      have ho := out_ids hsim gv rfl hg
      rw [hl] at ho
      obtain ⟨v, hv⟩ := (GoMap.mem_keys_iff out e.1).1 (List.mem_map.2 ⟨e, hp.mem_iff.1 he, rfl⟩)
      exact hids _ (ho e.1 v hv).1
    · exact hh.1 g hm
  | finish d st fan hf => exact fun d' fl e => hh.2 (d', fl) (List.mem_append_right _ (collect_sound e))

theorem nums_move {terms : List String} {f : String} {cpus : Nat} {s s' : DLive} (hsim : Sim Good f s) (hc : Counted s.disk) (gv : GoValues s.disk.hist) (hn : Numbers s.disk.hist f s.search)
    (hm : Move terms f cpus s s') : Numbers s'.disk.hist f s'.search := by
  cases hm with
  | first d q q' hx he => exact numbers_first hsim.ok hc gv hn hx he
  | begin2 d st fan hf => exact hn
  | p2 d st fan fan' hx => exact hn
  | fetch d d' st fan i ids loc loc' hg hx =>
    obtain ⟨-, e, -⟩ := rexec_clients hx
    show Numbers d'.hist f _
    rw [e]
    exact hn
  | fetched d d' st fan i ids loc out rem hg hx hp =>
    obtain ⟨-, rfl⟩ := rexec_inr hx
    exact hn
  | finish d st fan hf => exact hn

theorem hist_move {terms : List String} {f : String} {cpus : Nat} {s s' : DLive} (h : Move terms f cpus s s') : s'.disk.hist = s.disk.hist := by
  cases h with
  | fetch d d' st fan i ids loc loc' hg hx => exact (rexec_clients hx).2.1
  | fetched d d' st fan i ids loc out rem hg hx hp => exact (rexec_clients hx).2.1
  | _ => rfl

/-- GetFields touches the cache and the maps of documents only. -/
theorem rexec_frame {s s' : CDisk} {name : String} {loc : RLoc} {x : RLoc ⊕ GoMap String Field} (h : s.rexec name loc = some (s', x)) :
    s'.clients = s.clients ∧ s'.hist = s.hist ∧ s'.mx = s.mx ∧ s'.nf = s.nf ∧ ∃ dc n, s.mem.next ≤ n ∧ s'.mem = { s.mem with docCells := dc, next := n } := by
  cases loc with
  | get todo out =>
    cases todo with
    | nil => cases h; exact ⟨rfl, rfl, rfl, rfl, _, _, Nat.le_refl _, rfl⟩
    | cons id todo =>
      simp only [rexec] at h
      split at h <;> (cases h; exact ⟨rfl, rfl, rfl, rfl, _, _, Nat.le_refl _, rfl⟩)
  | field id r todo out => cases h; exact ⟨rfl, rfl, rfl, rfl, _, _, Nat.le_refl _, rfl⟩
  | load id todo out =>
    simp only [rexec] at h
    split at h
    · cases h
    · cases h; exact ⟨rfl, rfl, rfl, rfl, _, _, Nat.le_refl _, rfl⟩
    · cases h; exact ⟨rfl, rfl, rfl, rfl, _, _, Nat.le_succ _, rfl⟩
  | put id r todo out =>
    simp only [rexec] at h
    cases hp : s.cache.put id r with
    | none => rw [hp] at h; cases h
    | some c => rw [hp] at h; cases h; exact ⟨rfl, rfl, rfl, rfl, _, _, Nat.le_refl _, rfl⟩

/-- … and so does a search. -/
theorem move_frame {terms : List String} {f : String} {cpus : Nat} {s s' : DLive} (h : Move terms f cpus s s') :
    s'.disk.clients = s.disk.clients ∧ s'.disk.hist = s.disk.hist ∧ s'.disk.mx = s.disk.mx ∧ s'.disk.nf = s.disk.nf ∧
      ∃ dc n, s.disk.mem.next ≤ n ∧ s'.disk.mem = { s.disk.mem with docCells := dc, next := n } := by
  cases h with
  | fetch d d' st fan i ids loc loc' hg hx => exact rexec_frame hx
  | fetched d d' st fan i ids loc out rem hg hx hp => exact rexec_frame hx
  | _ => exact ⟨rfl, rfl, rfl, rfl, _, _, Nat.le_refl _, rfl⟩

theorem counted_move {terms : List String} {f : String} {cpus : Nat} {s s' : DLive} (h : Counted s.disk) (hm : Move terms f cpus s s') : Counted s'.disk := by
  obtain ⟨h1, h2, h3, h4, dc, n, -, h5⟩ := move_frame hm
  exact h.same h1 h2 h3 h4 ⟨dc, n, h5⟩

/-- what holds during a search. -/
structure Inv (terms : List String) (f : String) (s : DLive) : Prop where
  sim : Sim Good f s
  counted : Counted s.disk
  hits : GoValues s.disk.hist → Hits s.disk.hist terms f s.search
  nums : GoValues s.disk.hist → Numbers s.disk.hist f s.search

theorem inv_start {as : List CDisk.Act} {s : CDisk} (h : CDisk.run {} as = some s) (hu : s.up = true) (terms : List String) (f : String) : Inv terms f ⟨s, .first .readLen⟩ :=
  ⟨sim_start hu (good_run h hu), counted_run h, fun _ => trivial, fun _ => trivial⟩

theorem inv_step {terms : List String} {f : String} {cpus : Nat} {s s' : DLive} (h : Inv terms f s) (hs : Step terms f cpus s s') : Inv terms f s' := by
  have hsim := sim_step Good.robust h.sim hs
  cases hs with
  | store a d hx hd =>
    obtain ⟨x, e⟩ := hist_grows (exec_step hx) hd
    refine ⟨hsim, counted_step h.sim.ok h.counted (exec_step hx), fun gv => ?_, fun gv => ?_⟩
    · show Hits d.hist terms f s.search
      have gv : GoValues d.hist := gv
      rw [e] at gv ⊢
      exact (h.hits fun op hop => gv op (List.mem_append_left _ hop)).mono x
    · show Numbers d.hist f s.search
      have gv : GoValues d.hist := gv
      rw [e] at gv ⊢
      exact (h.nums fun op hop => gv op (List.mem_append_left _ hop)).mono x
  | search _ hm =>
    have e := hist_move hm
    exact ⟨hsim, counted_move h.counted hm, fun gv => hits_move h.sim (e ▸ gv) (h.hits (e ▸ gv)) hm, fun gv => nums_move h.sim h.counted (e ▸ gv) (h.nums (e ▸ gv)) hm⟩

end DLive

/-- **C97 A search of a Disk store returns only what was saved, also while clients use the store.** Whatever the clients and the goroutines of the store do before and during the search, in this process and in
earlier ones: a document it returns was given, with one of the terms in the field, to a call that had begun by then; the field it returns for the document is one that a SaveOrUpdate of this document was given, or
that field with its numbers cut to 32 bits; and the numbers it ranks with are not more than the number of saves, the sum of the saved lengths, and the number of saves with the term. -/
theorem c97_live_disk_search_sound {as : List CDisk.Act} {s₀ : CDisk} (h₀ : CDisk.run {} as = some s₀) (hu : s₀.up = true) {terms : List String} {f : String} {cpus : Nat}
    {s : DLive} (h : Reaches (DLive.Step terms f cpus) ⟨s₀, .first .readLen⟩ s) (gv : GoValues s.disk.hist) {st : LStats} {docs : GoMap String Field} (hd : s.search = .done st docs) :
    (∀ d fl, docs.get? d = some fl → (∃ t ∈ terms, Posted s.disk.hist f t d) ∧ ∃ g, StoreOp.save d g ∈ s.disk.hist ∧ g.name = f ∧ (fl = g ∨ fl = cutField g)) ∧
    st.size ≤ saveCount s.disk.hist f ∧ ((∀ op ∈ s.disk.hist, 0 ≤ op.field.length) → st.len ≤ saveLengthSum s.disk.hist f) ∧
    ∀ t n, st.nft.get? t = some n → n ≤ termCount s.disk.hist f t := by
  have hi : DLive.Inv terms f s := h.invariant (DLive.inv_start h₀ hu terms f) fun _ _ => DLive.inv_step
  have hh := hi.hits gv
  have hn := hi.nums gv
  obtain ⟨-, A, hp, hr⟩ := hi.sim
  rw [hd] at hh hn hr
  refine ⟨fun d fl he => ⟨hh d fl he, ?_⟩, hn.size, hn.len.len, hn.nft⟩
  obtain ⟨ids, out, h1, h2⟩ := hr d fl he
  exact ((hp.docs gv).ans _ h1 d fl (GoMap.get?_of_mem (hp.out.ans _ h1) h2)).2

end Goir
