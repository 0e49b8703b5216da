import Verif.Props.Server
/-!
# C101: the searches of a running server return
-/
namespace Goir
open GoMap Spec

/-- a sequence that only goes down is constant from some place on. -/
theorem eventually_const {α : Type} {lt : α → α → Prop} (wf : WellFounded lt) {f : Nat → α} (h : ∀ n, lt (f (n + 1)) (f n) ∨ f (n + 1) = f n) : ∃ N, ∀ n, N ≤ n → f n = f N := by
  have key : ∀ m k, f k = m → ∃ N, ∀ n, N ≤ n → f n = f N := by
    intro m
    induction m using wf.induction with
    | _ m ih =>
      intro k hk
      by_cases hx : ∃ n, lt (f n) m
      · obtain ⟨n, hn⟩ := hx
        exact ih _ hn n rfl
      · refine ⟨k, fun n hn => ?_⟩
        obtain ⟨j, rfl⟩ := Nat.exists_eq_add_of_le hn
        clear hn
        induction j with
        | zero => rfl
        | succ j ihj =>
          rcases h (k + j) with h1 | h1
          · rw [ihj, hk] at h1; exact absurd ⟨_, h1⟩ hx
          · exact h1.trans ihj
  exact key _ 0 rfl

namespace Server
open CDisk DLive
variable {F : Type} [GoFloat F]

/-- stores are opened with room for a document in the cache. -/
def RoomyAct (a : CDisk.Act) : Prop := ∀ n progs, a = .openRest n progs → 1 ≤ n

theorem roomy_noOpen (a : CDisk.Act) (h : noOpen a = true) : RoomyAct a := by rintro n progs rfl; cases h

def Room0 (s : CDisk) : Prop := Good0 s ∧ (s.up = true → 1 ≤ s.cache.capacity)

theorem Room0.steady : Steady RoomyAct Room0 where
  step s a s' h hs ha := by
    refine ⟨Good0.steady.step s a s' h.1 hs trivial, fun hup => ?_⟩
    cases hu : s.up with
    | true => exact (GoodRoom.robust.step s a s' ⟨good_of ⟨h.1, hu⟩, h.2 hu⟩ hs (noOpen_up hs hu) hup).2
    | false =>
      cases hs with
      | openRest hp hu' hm hn => exact ha _ _ rfl
      | ixDown => simp [stop] at hup
      | crash => simp [stop] at hup
      | _ => exact absurd (show s.up = true from hup) (by rw [hu]; decide)
  idle s cs h hu hcs := ⟨Good0.steady.idle s cs h.1 hu hcs, fun _ => h.2 hu⟩

theorem searchRank_frame (m : CMem) (dc : Ref String → GoMap String Field) (n : Nat) (f : String) (x : DSearch) : searchRank { m with docCells := dc, next := n } f x = searchRank m f x := by
  cases x with
  | first q => cases q <;> rfl
  | _ => rfl

/-- the invariant of C101. -/
structure Lively (s : Server F) : Prop where
  sound : Sound s
  held : Held Room0 s
  alloc : Conc.Alloc s.disk.mem
  ready : Threads (fun d _ x => DLive.Ready d.mem x) s

theorem lively_init : Lively ({} : Server F) :=
  ⟨sound_init, ⟨fun _ => rfl, [], ⟨good0_init, fun h => (by cases h)⟩, fun _ h => (by cases h)⟩, CDisk.alloc_run (as := []) rfl, fun _ h => (by cases h)⟩

theorem lively_server {cpus : Nat} (hc : 0 < cpus) {s s' : Server F} (h : Lively s) (hs : Step RoomyAct cpus s s') : Lively s' := by
  refine ⟨sound_step h.sound hs, held_step Room0.steady roomy_noOpen h.held hs, ?_, ?_⟩
  · cases hs with
    | store a d ha hx => exact CDisk.alloc_step h.alloc (exec_step hx)
    | arrive query hu => exact h.alloc
    | req i r r' d hi hm =>
      cases hm with
      | inner _ _ j q x x' ht hm => exact alloc_move h.alloc hm
      | _ => exact h.alloc
  · refine threads_step h.ready hs (fun _ _ => ⟨trivial, rfl⟩) (fun a d q x hne hx hd hr => ?_) fun d r q x x' hr hx hm hh => ⟨ready_move hc h.alloc hh hm, fun q' y hy => ?_⟩
    · obtain ⟨r, hr0⟩ := List.exists_mem_of_ne_nil _ hne
      obtain ⟨h1, h2⟩ := sets_step (exec_step hx) (h.held.up hr0) hd
      exact hr.mono h1 h2
    · obtain ⟨-, -, -, -, dc, n, hn, e⟩ := move_frame hm
      have e : d.mem = { s.disk.mem with docCells := dc, next := n } := e
      show DLive.Ready d.mem y
      rw [e]
      exact Ready.mono (m := s.disk.mem) (m' := { s.disk.mem with docCells := dc, next := n }) hn (fun _ _ _ h => h) hy

theorem lively_reach {cpus : Nat} (hc : 0 < cpus) {s : Server F} (h : Reaches (Step RoomyAct cpus) ({} : Server F) s) : Lively s := h.invariant lively_init fun _ _ => lively_server hc

/-- the search of one query, seen alone. -/
theorem Lively.one {s : Server F} (h : Lively s) {r : DReq F} (hr : r ∈ s.reqs) {q : Query F} {x : DSearch} (hx : (q, .running x) ∈ r.threads) : DLive.Lively q.fieldName ⟨s.disk, x⟩ :=
  ⟨h.alloc, sim_mono (fun _ hp => ⟨good_of ⟨hp.1.1, hp.2⟩, hp.1.2 hp.2⟩) (h.held.sim Room0.steady hr hx), h.ready r hr q x hx⟩

/-- the channel has room for a message of every query. -/
theorem chan_room {R : Query F → LStats → GoMap String Field → Prop} {r : DReq F} (h : DReq.Collects R r) {i : Nat} {q : Query F} {x : DSearch} (ht : r.threads[i]? = some (q, .running x)) :
    r.chan.length < r.threads.length := by
  obtain ⟨res, got, chan', h1, h3, h4, h5, h6⟩ := h.main
  have hq : (r.threads.map Prod.fst)[i]? = some q := by rw [List.getElem?_map, ht]; rfl
  rw [← h1, List.getElem?_map, Option.map_eq_some_iff] at hq
  obtain ⟨⟨q', o⟩, he, rfl⟩ := hq
  have ho : o = none := h3 i _ _ he ht
  subst ho
  have hlt := msgs_length_lt res i _ he
  have hlen : res.length = r.threads.length := by simpa using congrArg List.length h1
  have := h5.length_eq
  rw [List.length_append] at this
  rw [h4, List.length_map]
  omega

/-- a request that has not returned can make a step. -/
theorem progress {cpus : Nat} {s : Server F} (h : Lively s) (gv : GoValues s.disk.hist) {r : DReq F} (hr : r ∈ s.reqs) (hn : r.result = none) : ∃ d r', DReq.Move cpus s.disk r d r' := by
  by_cases hall : ∀ t ∈ r.threads, t.2 = .sent
  · cases hc : r.closed with
    | false => exact ⟨_, _, .close _ r hall hc⟩
    | true =>
      cases hch : r.chan with
      | cons l q => exact ⟨_, _, .recv _ r l q hch⟩
      | nil =>
        obtain ⟨l, hl⟩ := exists_sortSlice r.temp
        exact ⟨_, _, .return_ _ r r.temp l ⟨hc, hch⟩ hn (.refl _) hl⟩
  · have ⟨⟨q, t⟩, ht, hne⟩ : ∃ t ∈ r.threads, t.2 ≠ .sent := Classical.byContradiction fun hx => hall fun t ht => Classical.byContradiction fun hne => hx ⟨t, ht, hne⟩
    cases t with
    | sent => exact absurd rfl hne
    | running x =>
      obtain ⟨j, hj⟩ := List.getElem?_of_mem ht
      by_cases hd : ∀ st docs, x ≠ .done st docs
      · obtain ⟨⟨d, x'⟩, hm⟩ := DLive.progress (terms := q.terms) (cpus := cpus) (h.one hr ht) gv hd
        exact ⟨_, _, .inner _ d r j q x x' hj hm⟩
      · have ⟨st, docs, e⟩ : ∃ st docs, x = .done st docs := Classical.byContradiction fun hn => hd fun st docs e => hn ⟨st, docs, e⟩
        subst e
        exact ⟨_, _, .send _ r j q st docs docs hj (.refl _) (chan_room (h.sound.col gv r hr) hj)⟩

/-- request number `i` makes a step. -/
def ReqStep (cpus i : Nat) (s s' : Server F) : Prop := ∃ r r' d, s.reqs[i]? = some r ∧ DReq.Move cpus s.disk r d r' ∧ s' = { disk := d, reqs := s.reqs.set i r' }

/-- the goroutine of query `j` of request `i`: the clients' work, then its own. -/
def trank (i j : Nat) (s : Server F) : Nat × (Nat × Nat) :=
  (clientWork s.disk, match (s.reqs[i]?).bind (·.threads[j]?) with
    | some (q, .running x) => searchRank s.disk.mem q.fieldName x
    | _ => (0, 0))

/-- the rest of the work of request `i`. -/
def crank (i : Nat) (s : Server F) : Nat :=
  match s.reqs[i]? with
  | some r => 2 * (r.threads.filter fun t => match t.2 with | .running _ => true | .sent => false).length + r.chan.length + (if r.closed then 0 else 1) + (if r.result.isSome then 0 else 1)
  | none => 0

theorem filter_set {l : List (Query F × DQ)} {j : Nat} {q q' : Query F} {t t' : DQ} (h : l[j]? = some (q, t)) (p : DQ → Bool) :
    ((l.set j (q', t')).filter fun t => p t.2).length + (if p t then 1 else 0) = (l.filter fun t => p t.2).length + (if p t' then 1 else 0) := by
  induction l generalizing j with
  | nil => simp at h
  | cons e l ih =>
    cases j with
    | zero =>
      simp only [List.getElem?_cons_zero, Option.some.injEq] at h; subst h
      rw [List.set_cons_zero, List.filter_cons, List.filter_cons]
      cases ht : p t <;> cases ht' : p t' <;> simp [ht, ht']
    | succ j =>
      simp only [List.getElem?_cons_succ] at h
      have := ih h
      rw [List.set_cons_succ, List.filter_cons, List.filter_cons]
      split
      · simp only [List.length_cons]; omega
      · exact this


/-- the queries of request `i`. -/
def queries (i : Nat) (s : Server F) : Option (List (Query F)) := (s.reqs[i]?).map DReq.query

theorem queries_step {allow : CDisk.Act → Prop} {cpus : Nat} {s s' : Server F} {i : Nat} {qs : List (Query F)} (h : queries i s = some qs) (hu : s'.disk.up = true) (hs : Step allow cpus s s') : queries i s' = some qs := by
  unfold queries at h ⊢
  cases hs with
  | store a d ha hx => rw [show d.up = true from hu, if_pos rfl]; exact h
  | arrive query hu' =>
    obtain ⟨r, hr, e⟩ := Option.map_eq_some_iff.1 h
    rw [List.getElem?_append_left (List.getElem?_eq_some_iff.1 hr).1]; exact h
  | req k r r' d hk hm =>
    show ((s.reqs.set k r')[i]?).map DReq.query = some qs
    rw [List.getElem?_set]
    split
    · rename_i e; subst e
      rw [hk] at h
      rw [if_pos (List.getElem?_eq_some_iff.1 hk).1, Option.map_some, DReq.query_move hm]; exact h
    · exact h

theorem up_of_queries {s : Server F} (h : Lively s) {i : Nat} {qs : List (Query F)} (hq : queries i s = some qs) : s.disk.up = true := by
  obtain ⟨r, hr, -⟩ := Option.map_eq_some_iff.1 hq
  exact h.held.up (List.mem_of_getElem? hr)

theorem trank_step {cpus : Nat} {s s' : Server F} (h : Lively s) {i : Nat} {qs : List (Query F)} (hq : queries i s = some qs) (hu : s'.disk.up = true) (hs : Step RoomyAct cpus s s') (j : Nat) :
    Live.Less (trank i j s') (trank i j s) ∨ trank i j s' = trank i j s := by
  have hup := up_of_queries h hq
  obtain ⟨r0, hr0, -⟩ := Option.map_eq_some_iff.1 hq
  cases hs with
  | store a d ha hx =>
    have hu : d.up = true := hu
    rcases clientWork_step h.sound.ok hup hu (exec_step hx) with h1 | ⟨h1, h2⟩
    · exact .inl (.left _ _ h1)
    · right; unfold trank clientWork; simp only [h1, h2, hu, if_true]
  | arrive query hu' =>
    right
    unfold trank
    simp only
    rw [List.getElem?_append_left (List.getElem?_eq_some_iff.1 hr0).1]
  | req k r r' d hk hm =>
    have hkl := (List.getElem?_eq_some_iff.1 hk).1
    cases hm with
    | inner _ _ l q x x' ht hm =>
      have hl := (List.getElem?_eq_some_iff.1 ht).1
      obtain ⟨e1, -, -, -, dc, n, -, e2⟩ := move_frame hm
      have e1 : clientWork d = clientWork s.disk := by unfold clientWork; rw [show d.clients = s.disk.clients from e1]
      have e2 : ∀ f x, searchRank d.mem f x = searchRank s.disk.mem f x := fun f x => by rw [show d.mem = _ from e2]; exact searchRank_frame _ _ _ _ _
      by_cases hki : k = i
      · subst hki
        by_cases hlj : l = j
        · subst hlj
          left
          have := move_rank (h.one (List.mem_of_getElem? hk) (List.mem_of_getElem? ht)).ready hm
          unfold DLive.rank at this
          unfold trank
          simp only [List.getElem?_set, if_true, hkl, hl, Option.bind_some, hk, ht]
          exact this
        · right
          unfold trank
          simp only [List.getElem?_set, if_true, hkl, Option.bind_some, hk, e1, e2, if_neg hlj]
      · right
        unfold trank
        simp only [List.getElem?_set, if_neg hki, e1, e2]
    | send _ l q st docs order ht ho hc =>
      right
      have hl := (List.getElem?_eq_some_iff.1 ht).1
      unfold trank
      by_cases hki : k = i
      · subst hki
        by_cases hlj : l = j
        · subst hlj
          simp only [List.getElem?_set, if_true, hkl, hl, Option.bind_some, hk, ht, searchRank]
        · simp only [List.getElem?_set, if_true, hkl, Option.bind_some, hk, if_neg hlj]
      · simp only [List.getElem?_set, if_neg hki]
    | close _ hd hc =>
      right
      unfold trank
      by_cases hki : k = i
      · subst hki; simp only [List.getElem?_set, if_true, hkl, Option.bind_some, hk]
      · simp only [List.getElem?_set, if_neg hki]
    | recv _ l q hc =>
      right
      unfold trank
      by_cases hki : k = i
      · subst hki; simp only [List.getElem?_set, if_true, hkl, Option.bind_some, hk]
      · simp only [List.getElem?_set, if_neg hki]
    | return_ _ order l hf hr' ho hl =>
      right
      unfold trank
      by_cases hki : k = i
      · subst hki; simp only [List.getElem?_set, if_true, hkl, Option.bind_some, hk]
      · simp only [List.getElem?_set, if_neg hki]

/-- a step of a request: of a goroutine in its index search, or one of those that come after it. -/
theorem move_drop {cpus : Nat} {s : Server F} (h : Lively s) {i : Nat} {r r' : DReq F} {d : CDisk} (hi : s.reqs[i]? = some r) (hm : DReq.Move cpus s.disk r d r') :
    (crank i { disk := d, reqs := s.reqs.set i r' } = crank i s ∧ ∃ j, j < r.query.length ∧ Live.Less (trank i j { disk := d, reqs := s.reqs.set i r' }) (trank i j s)) ∨
      crank i { disk := d, reqs := s.reqs.set i r' } < crank i s := by
  have hil := (List.getElem?_eq_some_iff.1 hi).1
  have e1 : ∀ {d : CDisk} {r' : DReq F}, crank i { disk := d, reqs := s.reqs.set i r' } =
      2 * (r'.threads.filter fun t => match t.2 with | .running _ => true | .sent => false).length + r'.chan.length + (if r'.closed then 0 else 1) + (if r'.result.isSome then 0 else 1) := by
    intro d r'
    unfold crank
    simp only [List.getElem?_set, if_true, hil]
  have e2 : crank i s = 2 * (r.threads.filter fun t => match t.2 with | .running _ => true | .sent => false).length + r.chan.length + (if r.closed then 0 else 1) + (if r.result.isSome then 0 else 1) := by
    unfold crank
    simp only [hi]
  cases hm with
  | inner _ _ l q x x' ht hm =>
    left
    have hl := (List.getElem?_eq_some_iff.1 ht).1
    refine ⟨?_, l, by simpa [DReq.query] using hl, ?_⟩
    · rw [e1, e2]
      have := filter_set (q' := q) (t' := .running x') ht fun t => match t with | .running _ => true | .sent => false
      simp only [if_true] at this ⊢
      omega
    · have := move_rank (h.one (List.mem_of_getElem? hi) (List.mem_of_getElem? ht)).ready hm
      unfold DLive.rank at this
      unfold trank
      simp only [List.getElem?_set, if_true, hil, hl, Option.bind_some, hi, ht]
      exact this
  | send _ l q st docs order ht ho hc =>
    right
    rw [e1, e2]
    have := filter_set (q' := q) (t' := .sent) ht fun t => match t with | .running _ => true | .sent => false
    simp only [if_true, Bool.false_eq_true, if_false] at this ⊢
    simp only [List.length_append, List.length_singleton]
    omega
  | close _ hd hc =>
    right
    rw [e1, e2]
    simp only [if_true, hc, Bool.false_eq_true, if_false]
    omega
  | recv _ l q hc =>
    right
    rw [e1, e2, hc]
    simp only [List.length_cons]
    omega
  | return_ _ order l hf hr' ho hl =>
    right
    rw [e1, e2, hr']
    simp only [Option.isSome_some, if_true, Option.isSome_none, Bool.false_eq_true, if_false]
    omega

theorem crank_step {cpus : Nat} {s s' : Server F} (h : Lively s) {i : Nat} {qs : List (Query F)} (hq : queries i s = some qs) (hu : s'.disk.up = true) (hs : Step RoomyAct cpus s s') :
    crank i s' < crank i s ∨ crank i s' = crank i s := by
  obtain ⟨r0, hr0, -⟩ := Option.map_eq_some_iff.1 hq
  cases hs with
  | store a d ha hx => right; unfold crank; simp only [show d.up = true from hu, if_true]
  | arrive query hu' =>
    right
    unfold crank
    simp only
    rw [List.getElem?_append_left (List.getElem?_eq_some_iff.1 hr0).1]
  | req k r r' d hk hm =>
    by_cases hki : k = i
    · subst hki
      rcases move_drop h hk hm with h1 | h1
      · exact .inr h1.1
      · exact .inl h1
    · right
      unfold crank
      simp only [List.getElem?_set, if_neg hki]

/-- in a run, a request makes finitely many steps. -/
theorem finite {cpus : Nat} (hc : 0 < cpus) {run : Nat → Server F} (h0 : Lively (run 0)) (hr : ∀ n, UpStep RoomyAct cpus (run n) (run (n + 1))) {i : Nat} {qs : List (Query F)} (hq : queries i (run 0) = some qs) :
    ∃ N, ∀ n, N ≤ n → ¬ ReqStep cpus i (run n) (run (n + 1)) := by
  have inv : ∀ n, Lively (run n) ∧ queries i (run n) = some qs := by
    intro n
    induction n with
    | zero => exact ⟨h0, hq⟩
    | succ n ih => exact ⟨lively_server hc ih.1 (hr n).1, queries_step ih.2 (hr n).2 (hr n).1⟩
  obtain ⟨Nc, hNc⟩ := eventually_const (lt := (· < ·)) Nat.lt_wfRel.wf (f := fun n => crank i (run n)) fun n => crank_step (inv n).1 (inv n).2 (hr n).2 (hr n).1
  have ht : ∀ m, ∃ N, ∀ j, j < m → ∀ n, N ≤ n → trank i j (run (n + 1)) = trank i j (run n) := by
    intro m
    induction m with
    | zero => exact ⟨0, fun j hj => (by omega)⟩
    | succ m ih =>
      obtain ⟨N1, h1⟩ := ih
      obtain ⟨N2, h2⟩ := eventually_const Live.less_wf (f := fun n => trank i m (run n)) fun n => trank_step (inv n).1 (inv n).2 (hr n).2 (hr n).1 m
      refine ⟨max N1 N2, fun j hj n hn => ?_⟩
      by_cases hjm : j = m
      · subst hjm
        exact (h2 (n + 1) (by omega)).trans (h2 n (by omega)).symm
      · exact h1 j (by omega) n (by omega)
  obtain ⟨Nt, hNt⟩ := ht qs.length
  refine ⟨max Nc Nt, fun n hn => ?_⟩
  rintro ⟨r, r', d, hi, hm, e⟩
  have hqr : r.query = qs := by
    have := (inv n).2
    unfold queries at this
    rw [hi] at this
    exact Option.some.inj this
  have hd := move_drop (inv n).1 hi hm
  rw [← e, hqr] at hd
  rcases hd with ⟨-, j, hj, hlt⟩ | hlt
  · rw [hNt j hj n (by omega)] at hlt
    exact Live.less_wf.irrefl.irrefl _ hlt
  · have := hNc n (by omega)
    have := hNc (n + 1) (by omega)
    omega

/-- what request `i` has returned. -/
def resultOf (i : Nat) (s : Server F) : Option (Scores F) := (s.reqs[i]?).bind (·.result)

theorem reqStep_up {cpus i : Nat} {s s' : Server F} (h : Lively s) (hs : ReqStep cpus i s s') : UpStep RoomyAct cpus s s' := by
  obtain ⟨r, r', d, hi, hm, rfl⟩ := hs
  refine ⟨.req s i r r' d hi hm, ?_⟩
  have hu := h.held.up (List.mem_of_getElem? hi)
  cases hm with
  | inner _ _ j q x x' ht hm => exact (move_up hm).trans hu
  | _ => exact hu

/-- by itself the request returns. -/
theorem alone {cpus : Nat} (hc : 0 < cpus) {s : Server F} (h : Lively s) (gv : GoValues s.disk.hist) {i : Nat} {qs : List (Query F)} (hq : queries i s = some qs) :
    ∃ s' l, Reaches (ReqStep cpus i) s s' ∧ resultOf i s' = some l := by
  refine Classical.byContradiction fun hno => ?_
  have inv : ∀ t, Reaches (ReqStep cpus i) s t → Lively t ∧ queries i t = some qs ∧ t.disk.hist = s.disk.hist := fun t ht =>
    ht.invariant (P := fun t => Lively t ∧ queries i t = some qs ∧ t.disk.hist = s.disk.hist) ⟨h, hq, rfl⟩ fun t t' hp hs => by
      have hu := reqStep_up hp.1 hs
      refine ⟨lively_server hc hp.1 hu.1, queries_step hp.2.1 hu.2 hu.1, ?_⟩
      obtain ⟨r, r', d, hi, hm, rfl⟩ := hs
      exact (req_hist hm).trans hp.2.2
  have nxt : ∀ t : { t // Reaches (ReqStep cpus i) s t }, ∃ t' : { t // Reaches (ReqStep cpus i) s t }, ReqStep cpus i t.1 t'.1 := by
    rintro ⟨t, ht⟩
    obtain ⟨h1, h2, h3⟩ := inv t ht
    obtain ⟨r, hr, -⟩ := Option.map_eq_some_iff.1 h2
    have hn : r.result = none := by
      cases hl : r.result with
      | none => rfl
      | some l => exact absurd ⟨t, l, ht, by unfold resultOf; rw [hr]; exact hl⟩ hno
    obtain ⟨d, r', hm⟩ := progress (cpus := cpus) h1 (by rw [h3]; exact gv) (List.mem_of_getElem? hr) hn
    have hs : ReqStep cpus i t { disk := d, reqs := t.reqs.set i r' } := ⟨r, r', d, hr, hm, rfl⟩
    exact ⟨⟨_, ht.tail hs⟩, hs⟩
  choose f hf using nxt
  let run : Nat → { t // Reaches (ReqStep cpus i) s t } := fun n => Nat.rec ⟨s, .refl _⟩ (fun _ t => f t) n
  have hrun : ∀ n, ReqStep cpus i (run n).1 (run (n + 1)).1 := fun n => hf (run n)
  obtain ⟨N, hN⟩ := finite hc (run := fun n => (run n).1) h (fun n => reqStep_up (inv _ (run n).2).1 (hrun n)) hq
  exact hN N le_rfl (hrun N)

end Server

/-- **C101 Every GET of a running server is answered.** The stores are opened with room for at least one document in the cache. Whatever the other handlers and the writers are doing: a search that has not
returned can make a step, so it waits for nobody and does not panic; by itself it returns; and in no run in which the process does not end does it make infinitely many steps. -/
theorem c101_server_search_ends {F : Type} [GoFloat F] {cpus : Nat} (hc : 0 < cpus) {s : Server F} (h : Reaches (Server.Step Server.RoomyAct cpus) ({} : Server F) s)
    {i : Nat} {r : DReq F} (hi : s.reqs[i]? = some r) :
    (GoValues s.disk.hist → (r.result = none → ∃ s', Server.ReqStep cpus i s s') ∧ ∃ s' l, Reaches (Server.ReqStep cpus i) s s' ∧ Server.resultOf i s' = some l) ∧
    ∀ run : Nat → Server F, run 0 = s → (∀ n, Server.UpStep Server.RoomyAct cpus (run n) (run (n + 1))) → ∃ N, ∀ n, N ≤ n → ¬ Server.ReqStep cpus i (run n) (run (n + 1)) := by
  have hl := Server.lively_reach hc h
  have hq : Server.queries i s = some r.query := by unfold Server.queries; rw [hi]; rfl
  refine ⟨fun gv => ⟨fun hn => ?_, Server.alone hc hl gv hq⟩, fun run h0 hr => Server.finite hc (h0 ▸ hl) hr (h0 ▸ hq)⟩
  obtain ⟨d, r', hm⟩ := Server.progress (cpus := cpus) hl gv (List.mem_of_getElem? hi) hn
  exact ⟨_, r, r', d, hi, hm, rfl⟩

/-- **C101, fairly.** In a run in which the process does not end and in which the search, as long as it has not returned, always makes another step some time, it returns. -/
theorem c101_fair {F : Type} [GoFloat F] {cpus : Nat} (hc : 0 < cpus) {s : Server F} (h : Reaches (Server.Step Server.RoomyAct cpus) ({} : Server F) s)
    {i : Nat} {r : DReq F} (hi : s.reqs[i]? = some r) {run : Nat → Server F} (h0 : run 0 = s) (hr : ∀ n, Server.UpStep Server.RoomyAct cpus (run n) (run (n + 1)))
    (fair : ∀ n, Server.resultOf i (run n) = none → ∃ m, n ≤ m ∧ Server.ReqStep cpus i (run m) (run (m + 1))) : ∃ n l, Server.resultOf i (run n) = some l := by
  obtain ⟨N, hN⟩ := (c101_server_search_ends hc h hi).2 run h0 hr
  cases hx : Server.resultOf i (run N) with
  | some l => exact ⟨N, l, hx⟩
  | none =>
    obtain ⟨m, h1, h2⟩ := fair N hx
    exact absurd h2 (hN m h1)

end Goir
