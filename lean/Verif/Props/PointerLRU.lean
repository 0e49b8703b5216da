import Verif.Model.PointerLRU
import Verif.Props.LRU
import Verif.Props.LinkedList
import Verif.Lemmas.LRU
/-!
# C49: the cache over the pointers of the linked list behaves as the cache over a sequence
-/
namespace Goir
open Spec
namespace PLRU
variable {T : Type}

/-- the addresses of the pointer list are those of the sequence, shifted past the root. -/
private structure Sim (p : PLRU T) (l : LRU T) : Prop where
  cap   : p.capacity = l.capacity
  cache : ∀ k, p.cache.get? k = (l.cache.get? k).map (· + 1)
  ring  : Ring p.pages (l.pages.map (· + 1))
  elems : ∀ e ∈ l.pages, p.elems.get? (e + 1) = l.elems.get? e
  fresh : p.fresh = l.fresh + 1
  ok    : LRU.Ok l

private theorem sim_new (n : Int) : Sim (new n : PLRU T) (LRU.new n) :=
  ⟨rfl, fun k => rfl, by simpa [new, LRU.new] using PList.c49_back_len_new.1, by simp [LRU.new], rfl, LRU.ok_new n⟩

private theorem mtf_split {pages : List Nat} {e : Nat} (he : e ∈ pages) (nd : pages.Nodup) :
    ∃ l1 l2, pages = l1 ++ e :: l2 ∧ LRU.moveToFront pages e = e :: (l1 ++ l2) := by
  obtain ⟨l1, l2, rfl⟩ := List.append_of_mem he
  refine ⟨l1, l2, rfl, ?_⟩
  simp only [List.nodup_append, List.nodup_cons, List.mem_cons] at nd
  have h1 : l1.filter (· ≠ e) = l1 := by
    rw [List.filter_eq_self]; intro x hx; simpa using nd.2.2 x hx e (Or.inl rfl)
  have h2 : l2.filter (· ≠ e) = l2 := by
    rw [List.filter_eq_self]; intro x hx
    simp only [ne_eq, decide_not, Bool.not_eq_true', decide_eq_false_iff_not]; rintro rfl; exact nd.2.1.1 hx
  unfold LRU.moveToFront
  rw [List.filter_append, List.filter_cons_of_neg (by simp), h1, h2]

private theorem mtf_ring {p : PLRU T} {l : LRU T} (h : Sim p l) {e : Nat} (he : e ∈ l.pages) :
    ∃ h', p.pages.moveToFront (e + 1) = some h' ∧ Ring h' ((LRU.moveToFront l.pages e).map (· + 1)) := by
  obtain ⟨l1, l2, e1, e2⟩ := mtf_split he h.ok.nodup
  have r := h.ring
  rw [e1] at r
  simp only [List.map_append, List.map_cons] at r
  obtain ⟨h', hm, r'⟩ := PList.c49_moveToFront _ _ _ _ r
  exact ⟨h', hm, by rw [e2]; simpa using r'⟩

private theorem sim_get {p : PLRU T} {l : LRU T} (h : Sim p l) (k : String) :
    ∃ p', p.get k = some (p', (l.get k).2) ∧ Sim p' (l.get k).1 := by
  have ok := (LRU.get_spec h.ok k).1
  cases hc : l.cache.get? k with
  | none => exact ⟨p, by simp [get, h.cache, hc, LRU.get], by simpa [LRU.get, hc] using h⟩
  | some e =>
    obtain ⟨he, v, hv⟩ := (h.ok.link k e).1 hc
    obtain ⟨h', hm, r'⟩ := mtf_ring h he
    have hpe := (h.elems e he).trans hv
    refine ⟨{ p with pages := h' }, by simp [get, h.cache, hc, LRU.get, hm, hpe, hv], ?_⟩
    simp only [LRU.get, hc] at ok ⊢
    exact ⟨h.cap, h.cache, r', fun x hx => h.elems x ((LRU.mem_mtf he x).1 hx), h.fresh, ok⟩

private theorem sim_push {p : PLRU T} {l : LRU T} (h : Sim p l) {k : String} (hk : l.cache.get? k = none) (v : T) :
    ∃ p', p.push k v = some p' ∧ Sim p' (l.push k v) := by
  have hf : l.fresh ∉ l.pages := fun hm => absurd (h.ok.fresh _ hm) (by omega)
  obtain ⟨h', hp, r'⟩ := PList.c49_pushFront p.pages _ p.fresh h.ring (by rw [h.fresh]; simpa using hf) (by rw [h.fresh]; omega)
  have hq : p.push k v = some { p with cache := p.cache.set k p.fresh, pages := h', elems := p.elems.set p.fresh (k, v), fresh := p.fresh + 1 } := by
    simp only [push, hp, bind, Option.bind, pure]
  refine ⟨_, hq, h.cap, fun j => ?_, ?_, fun x hx => ?_, ?_, (LRU.push_spec h.ok hk v).1⟩
  · simp only [LRU.push, GoMap.get?_set]
    split
    · simp [h.fresh]
    · exact h.cache j
  · simpa [LRU.push, h.fresh] using r'
  · simp only [LRU.push, List.mem_cons] at hx
    simp only [LRU.push, GoMap.get?_set, h.fresh, Nat.add_right_cancel_iff]
    rcases hx with rfl | hx
    · simp
    · have : ¬ l.fresh = x := fun e => hf (e ▸ hx)
      rw [if_neg this, if_neg this]; exact h.elems x hx
  · simp [LRU.push, h.fresh]

private theorem sim_evict {p : PLRU T} {l : LRU T} (h : Sim p l) :
    (l.evict = none ∧ p.evict = none) ∨ ∃ l' p', l.evict = some l' ∧ p.evict = some p' ∧ Sim p' l' := by
  have hb := (PList.c49_back_len_new.2 _ _ h.ring).1
  cases hl : l.pages.getLast? with
  | none => left; simp [LRU.evict, evict, hl, hb, List.getLast?_map]
  | some b =>
    right
    have hbm : b ∈ l.pages := List.mem_of_getLast? hl
    obtain ⟨page, hpg⟩ := h.ok.pageOk b hbm
    have hev : l.evict = some { l with cache := l.cache.del page.1, pages := l.pages.dropLast, elems := l.elems.del b } := by
      simp [LRU.evict, hl, hpg]
    obtain ⟨l1, e1⟩ : ∃ l1, l.pages = l1 ++ [b] := by
      rcases List.eq_nil_or_concat l.pages with e | ⟨l', c, e⟩
      · simp [e] at hl
      · rw [List.concat_eq_append] at e; rw [e] at hl ⊢; simp at hl; exact ⟨l', by rw [hl]⟩
    have r := h.ring
    rw [e1, List.map_append, List.map_cons, List.map_nil] at r
    obtain ⟨h', hr, r'⟩ := PList.c49_remove _ _ _ _ r
    have hback : p.pages.back = some (b + 1) := by rw [hb, List.getLast?_map, hl]; rfl
    have hpe := (h.elems b hbm).trans hpg
    have ok := (LRU.evict_spec h.ok hev).1
    refine ⟨_, { p with cache := p.cache.del page.1, pages := h' }, hev, by simp [evict, hback, hpe, hr], h.cap, fun k => ?_, ?_,
      fun x hx => ?_, h.fresh, ok⟩
    · simp only [GoMap.get?_del]; split
      · rfl
      · exact h.cache k
    · simpa [e1] using r'
    · have hx' : x ∈ l.pages := (List.dropLast_sublist _).mem hx
      have hxb : ¬ b = x := by
        rintro rfl
        have nd := h.ok.nodup
        rw [e1, List.nodup_append] at nd
        have hx : b ∈ l.pages.dropLast := hx
        rw [e1] at hx; simp only [List.dropLast_concat] at hx
        exact nd.2.2 b hx b (by simp) rfl
      show p.elems.get? (x + 1) = (l.elems.del b).get? x
      rw [GoMap.get?_del, if_neg hxb]; exact h.elems x hx'

private theorem sim_put {p : PLRU T} {l : LRU T} (h : Sim p l) (k : String) (v : T) :
    (l.put k v = none ∧ p.put k v = none) ∨ ∃ l' p', l.put k v = some l' ∧ p.put k v = some p' ∧ Sim p' l' := by
  cases hc : l.cache.get? k with
  | some e =>
    right
    obtain ⟨he, v0, hv⟩ := (h.ok.link k e).1 hc
    obtain ⟨h', hm, r'⟩ := mtf_ring h he
    have hpe := (h.elems e he).trans hv
    have hl : l.put k v = some { l with pages := LRU.moveToFront l.pages e, elems := l.elems.set e (k, v) } := by simp [LRU.put, hc]
    refine ⟨_, { p with pages := h', elems := p.elems.set (e + 1) (k, v) }, hl, by simp [put, h.cache, hc, hm, hpe], h.cap, h.cache, r',
      fun x hx => ?_, h.fresh, (LRU.put_spec h.ok hl).1⟩
    have hx := (LRU.mem_mtf he x).1 hx
    simp only [GoMap.get?_set, Nat.add_right_cancel_iff]
    split
    · rfl
    · exact h.elems x hx
  | none =>
    have hlen : p.pages.len = l.pages.length := by rw [(PList.c49_back_len_new.2 _ _ h.ring).2]; simp
    have hpc : p.cache.get? k = none := by simp [h.cache, hc]
    by_cases hfull : (l.pages.length : Int) ≥ l.capacity
    · have hfull' : (p.pages.len : Int) ≥ p.capacity := by rw [hlen, h.cap]; exact hfull
      rcases sim_evict h with ⟨e1, e2⟩ | ⟨l', p', e1, e2, hs⟩
      · left; simp only [LRU.put, hc, put, hpc, if_pos hfull, if_pos hfull', e1, e2]; exact ⟨rfl, rfl⟩
      · right
        have hk' : l'.cache.get? k = none := by
          obtain ⟨ok', -, x, w, -, hx, hj⟩ := LRU.evict_spec h.ok e1
          rw [← LRU.val_none ok']
          by_cases hkx : k = x
          · rw [hkx]; exact hx
          · rw [hj k hkx, LRU.val_none h.ok]; exact hc
        obtain ⟨q, hq, hsq⟩ := sim_push hs hk' v
        refine ⟨_, q, ?_, ?_, hsq⟩
        · simp only [LRU.put, hc, if_pos hfull, e1]; rfl
        · simp only [put, hpc, if_pos hfull', e2, bind, Option.bind]; exact hq
    · right
      have hfull' : ¬ (p.pages.len : Int) ≥ p.capacity := by rw [hlen, h.cap]; exact hfull
      obtain ⟨q, hq, hsq⟩ := sim_push h hc v
      refine ⟨_, q, ?_, ?_, hsq⟩
      · simp only [LRU.put, hc, if_neg hfull]
      · simp only [put, hpc, if_neg hfull']; exact hq

private theorem sim_run (ops : List (LRUOp T)) : ∀ (p : PLRU T) (l : LRU T) (log : List (LRUEvent T)), Sim p l →
    (ops.foldlM LRU.exec (l, log) = none ∧ ops.foldlM exec (p, log) = none) ∨
    ∃ l' p' log', ops.foldlM LRU.exec (l, log) = some (l', log') ∧ ops.foldlM exec (p, log) = some (p', log') ∧ Sim p' l' := by
  induction ops with
  | nil => intro p l log h; exact Or.inr ⟨l, p, log, rfl, rfl, h⟩
  | cons op ops ih =>
    intro p l log h
    simp only [List.foldlM_cons]
    cases op with
    | get k =>
      obtain ⟨p', hg, hs⟩ := sim_get h k
      have h2 : exec (p, log) (.get k) = some (p', match (l.get k).2 with | some v => .hit k v :: log | none => .miss k :: log) := by
        simp only [exec, hg, bind, Option.bind, pure]; cases (l.get k).2 <;> rfl
      have h1 : LRU.exec (l, log) (.get k) = some ((l.get k).1, match (l.get k).2 with | some v => .hit k v :: log | none => .miss k :: log) := by
        simp only [LRU.exec]; rcases l.get k with ⟨a, _ | b⟩ <;> rfl
      rw [h1, h2]
      exact ih p' _ _ hs
    | put k v =>
      rcases sim_put h k v with ⟨e1, e2⟩ | ⟨l', p', e1, e2, hs⟩
      · left; simp only [LRU.exec, exec, e1, e2]; exact ⟨rfl, rfl⟩
      · have h1 : LRU.exec (l, log) (.put k v) = some (l', .put k v :: log) := by simp [LRU.exec, e1]
        have h2 : exec (p, log) (.put k v) = some (p', .put k v :: log) := by simp [exec, e2]
        rw [h1, h2]; exact ih p' l' _ hs

/-- **C49 (the cache on the pointers)** Every sequence of calls on a cache of any capacity answers the same, and panics at the
same call if it does, whether the cache's list is the pointers of container/list or a sequence of elements. -/
theorem c49_cache_refines (capacity : Int) (ops : List (LRUOp T)) :
    (run capacity ops).map Prod.snd = (LRU.run capacity ops).map Prod.snd := by
  rcases sim_run ops _ _ [] (sim_new capacity) with ⟨h1, h2⟩ | ⟨l, p, log, h1, h2, -⟩
  · rw [run, LRU.run, h1, h2]; rfl
  · rw [run, LRU.run, h1, h2]; rfl

/-- **C46, C47 on the pointers.** For every capacity of at least 1 and every sequence of `Get`s and `Put`s: none panics; the pointers
form one ring of at most `capacity` distinct elements, every one of which belongs to exactly one key of the map; and a `Get` hits
exactly the keys that are `Recent` in the client's log, returning the value of the last `Put`. -/
theorem c49_lru_on_pointers (capacity : Int) (hcap : 1 ≤ capacity) (ops : List (LRUOp T)) :
    ∃ p log pages, run capacity ops = some (p, log) ∧ Ring p.pages pages ∧ (pages.length : Int) ≤ capacity ∧
      (∀ e ∈ pages, ∃ k v, p.elems.get? e = some (k, v) ∧ p.cache.get? k = some e) ∧
      (∀ k e, p.cache.get? k = some e → e ∈ pages ∧ ∃ v, p.elems.get? e = some (k, v)) ∧
      (∀ k, ∃ p' r, p.get k = some (p', r) ∧ (Recent capacity log k → r = lastPut log k ∧ r.isSome) ∧
        (¬ Recent capacity log k → r = none)) := by
  obtain ⟨l, log, hrun, hlen, -, -, -, -, hpg⟩ := LRU.c46_lru_bounded capacity hcap ops
  rcases sim_run ops _ _ [] (sim_new capacity) with ⟨h1, -⟩ | ⟨l', p, log', h1, h2, hs⟩
  · rw [LRU.run, h1] at hrun; simp at hrun
  · have hh : some (l', log') = some (l, log) := h1.symm.trans hrun
    simp only [Option.some.injEq, Prod.mk.injEq] at hh
    obtain ⟨rfl, rfl⟩ := hh
    refine ⟨p, log', _, h2, hs.ring, by simpa using hlen, ?_, ?_, ?_⟩
    · intro e he
      obtain ⟨x, hx, rfl⟩ := List.mem_map.1 he
      obtain ⟨k, v, hp, hc⟩ := hpg x hx
      exact ⟨k, v, (hs.elems x hx).trans hp, by rw [hs.cache, hc]; rfl⟩
    · intro k e he
      rw [hs.cache] at he
      obtain ⟨x, hx, rfl⟩ := Option.map_eq_some_iff.1 he
      obtain ⟨hm, v, hv⟩ := (hs.ok.link k x).1 hx
      exact ⟨List.mem_map_of_mem hm, v, (hs.elems x hm).trans hv⟩
    · intro k
      obtain ⟨p', hg, -⟩ := sim_get hs k
      exact ⟨p', _, hg, LRU.c47_lru_recency capacity hcap ops l' log' h1 k⟩

/-- capacity 2 on the pointers: `b`, the element at the back after `a` is read, is evicted by `c`. -/
example : (run 2 [.put "a" 1, .put "b" 2, .get "a", .put "c" 3] : Option (PLRU Nat × _)).map
    (fun s => ((s.1.get "a").map Prod.snd, (s.1.get "b").map Prod.snd, (s.1.get "c").map Prod.snd, s.1.pages.back)) =
      some (some (some 1), some none, some (some 3), some 1) := by decide

/-! ### C50 as a client of the cache sees it -/

/-- a cache of capacity 2 holding `b` and `a`. -/
def ba : PLRU Nat := ((run 2 [.put "b" 2, .put "a" 1]).map Prod.fst).getD (new 0)

/-- **C50, refuted (panic)**: after two concurrent `Get("b")` on a well formed cache of capacity 2, both of which finish, the next
`Put` panics. -/
theorem c50_put_panics_refuted : (run 2 [.put "b" 2, .put "a" 1]).isSome = true ∧
    ∃ (schedule : List Nat) (l : PLRU Nat), ba.gets ["b", "b"] schedule = some l ∧ l.put "c" 3 = none := by
  refine ⟨by decide, [0, 0, 0, 0, 1, 1, 0, 0, 0, 1, 1, 1, 1, 1], ?_⟩
  cases hr : ba.gets ["b", "b"] [0, 0, 0, 0, 1, 1, 0, 0, 0, 1, 1, 1, 1, 1] with
  | none => exact absurd (congrArg Option.isSome hr) (by decide)
  | some l =>
    refine ⟨l, rfl, ?_⟩
    have h : ((ba.gets ["b", "b"] [0, 0, 0, 0, 1, 1, 0, 0, 0, 1, 1, 1, 1, 1]).map fun l => (l.put "c" 3).isSome) = some false := by decide
    rw [hr] at h
    simpa using h

/-- the back of the list is an element that is no longer in it: nothing is ever evicted. -/
private structure Leaky (p : PLRU Nat) : Prop where
  cap : p.capacity = 2
  len : 2 ≤ p.pages.len
  back : p.pages.prev 0 = some 1
  gone : p.pages.owned 1 = false
  elem : p.elems.get? 1 = some ("b", 2)
  front : ∃ y, p.pages.next 0 = some y ∧ y ≠ 0
  fresh : 1 < p.fresh
  nob : p.cache.get? "b" = none

private theorem leaky_put {p : PLRU Nat} (h : Leaky p) {k : String} (hk : p.cache.get? k = none) (hkb : k ≠ "b") (v : Nat) :
    ∃ q, p.put k v = some q ∧ Leaky q ∧ q.cache = p.cache.set k p.fresh := by
  obtain ⟨y, hy, hy0⟩ := h.front
  have hlen : p.pages.len ≠ 0 := by have := h.len; omega
  have hback : p.pages.back = some 1 := by simp [PList.back, hlen, h.back]
  have hrem : p.pages.remove 1 = some p.pages := by simp [PList.remove, h.gone]
  have hev : p.evict = some p := by
    simp only [evict, hback, h.elem, hrem, bind, Option.bind, pure]
    rw [GoMap.del_of_not_mem ((GoMap.get?_eq_none_iff _ _).1 h.nob)]
  have hf0 : p.fresh ≠ 0 := by have := h.fresh; omega
  have hf1 : ¬ 1 = p.fresh := by have := h.fresh; omega
  have hpush : p.pages.pushFront p.fresh = some (PList.mk (PList.upd (PList.upd p.pages.next p.fresh (some y)) 0 (some p.fresh))
      (PList.upd (PList.upd p.pages.prev p.fresh (some 0)) y (some p.fresh)) (PList.upd p.pages.owned p.fresh true) (p.pages.len + 1)) := by
    simp only [PList.pushFront, PList.setNext, PList.setPrev, Option.map_some, bind, Option.bind, pure]
    simp only [PList.upd, if_true, hf0, if_false, hy, Option.map_some]
  have hfull : (p.pages.len : Int) ≥ p.capacity := by rw [h.cap]; have := h.len; omega
  have hput : p.put k v = p.push k v := by simp only [put, hk, if_pos hfull, hev, bind, Option.bind]
  have hpu : p.push k v = some { p with cache := p.cache.set k p.fresh, pages := (PList.mk (PList.upd (PList.upd p.pages.next p.fresh (some y)) 0 (some p.fresh))
      (PList.upd (PList.upd p.pages.prev p.fresh (some 0)) y (some p.fresh)) (PList.upd p.pages.owned p.fresh true) (p.pages.len + 1)), elems := p.elems.set p.fresh (k, v), fresh := p.fresh + 1 } := by
    simp only [push, hpush, bind, Option.bind, pure]
  refine ⟨_, hput.trans hpu, ?_, rfl⟩
  · have hy0' : ¬ 0 = y := fun e => hy0 e.symm
    have hf0' : ¬ 0 = p.fresh := fun e => hf0 e.symm
    refine ⟨h.cap, by have := h.len; simp only; omega, by simp [PList.upd, hy0', hf0', h.back], by simp [PList.upd, hf1, h.gone], ?_,
      ⟨p.fresh, by simp [PList.upd], hf0⟩, by have := h.fresh; simp only; omega, ?_⟩
    · simp only [GoMap.get?_set]; rw [if_neg (fun e => hf1 e.symm)]; exact h.elem
    · simp only [GoMap.get?_set]; rw [if_neg hkb]; exact h.nob

private theorem leaky_puts (ks : List String) : ∀ (p : PLRU Nat), Leaky p → ks.Nodup → "b" ∉ ks → (∀ k ∈ ks, p.cache.get? k = none) →
    ∃ q, ks.foldlM (fun p k => p.put k 0) p = some q ∧ q.cache.length = p.cache.length + ks.length ∧
      ∀ k, (k ∈ ks ∨ (p.cache.get? k).isSome) → (q.cache.get? k).isSome := by
  induction ks with
  | nil => intro p _ _ _ _; exact ⟨p, rfl, rfl, fun k hk => by simpa using hk⟩
  | cons k ks ih =>
    intro p h nd hb hn
    simp only [List.nodup_cons, List.mem_cons, not_or] at nd hb
    have hk := hn k (by simp)
    obtain ⟨q, hq, hlq, hc⟩ := leaky_put h hk (fun e => hb.1 e.symm) 0
    have hlen : q.cache.length = p.cache.length + 1 := by
      rw [hc, GoMap.set_eq_append ((GoMap.get?_eq_none_iff _ _).1 hk)]; simp
    obtain ⟨r, hr, hlr, hin⟩ := ih q hlq nd.2 hb.2 (fun j hj => by
      rw [hc, GoMap.get?_set, if_neg (by rintro rfl; exact nd.1 hj)]; exact hn j (List.mem_cons_of_mem _ hj))
    refine ⟨r, by simp only [List.foldlM_cons, hq, Option.bind_eq_bind, Option.bind_some]; exact hr, by simp only [List.length_cons]; omega, ?_⟩
    intro j hj
    apply hin
    by_cases hkj : k = j
    · right; subst hkj; simp [hc]
    · rcases hj with hj | hj
      · left; rcases List.mem_cons.1 hj with rfl | hj
        · exact absurd rfl hkj
        · exact hj
      · right; rw [hc, GoMap.get?_set, if_neg hkj]; exact hj

/-- **C50, refuted (no bound)**: after two concurrent `Get("b")` on a well formed cache of capacity 2, both of which finish, and one
`Put`, the cache never evicts again: whatever new keys are put, it holds every one of them. -/
theorem c50_cache_unbounded_refuted : ∃ (schedule : List Nat) (l l' : PLRU Nat), ba.gets ["b", "b"] schedule = some l ∧
    l.put "c" 3 = some l' ∧
    ∀ ks : List String, ks.Nodup → "a" ∉ ks → "b" ∉ ks → "c" ∉ ks →
      ∃ q, ks.foldlM (fun p k => p.put k 0) l' = some q ∧ q.cache.length = ks.length + 2 ∧ ∀ k ∈ ks, (q.cache.get? k).isSome := by
  let sch := [0, 0, 0, 0, 1, 1, 0, 0, 1, 0, 1, 1, 1, 1]
  cases hr : ba.gets ["b", "b"] sch with
  | none => exact absurd (congrArg Option.isSome hr) (by decide)
  | some l =>
    cases hp : l.put "c" 3 with
    | none =>
      have h : ((ba.gets ["b", "b"] sch).map fun l => (l.put "c" 3).isSome) = some true := by decide
      rw [hr] at h; simp [hp] at h
    | some l' =>
      refine ⟨sch, l, l', hr, hp, fun ks nd ha hb hc => ?_⟩
      have h : ((ba.gets ["b", "b"] sch).map fun l => (l.put "c" 3).map fun p => (p.capacity, p.pages.len, p.pages.prev 0, p.pages.owned 1)) =
          some (some ((2 : Int), 2, some 1, false)) := by decide
      have h' : ((ba.gets ["b", "b"] sch).map fun l => (l.put "c" 3).map fun p => (p.elems.get? 1, p.pages.next 0, p.fresh)) =
          some (some (some ("b", 2), some 3, 4)) := by decide
      have h'' : ((ba.gets ["b", "b"] sch).map fun l => (l.put "c" 3).map fun p => (p.cache : List (String × Nat))) =
          some (some [("a", 2), ("c", 3)]) := by rfl
      rw [hr] at h h' h''
      simp only [Option.map_some, hp, Option.some.injEq, Prod.mk.injEq] at h h' h''
      obtain ⟨h1, h2, h3, h4⟩ := h
      obtain ⟨h5, h6, h7⟩ := h'
      have h8 : l'.cache = [("a", 2), ("c", 3)] := h''
      have hl : Leaky l' := ⟨h1, by omega, h3, h4, h5, ⟨3, h6, by omega⟩, by omega, by rw [h8]; decide⟩
      have hnone : ∀ k ∈ ks, l'.cache.get? k = none := by
        intro k hk
        rw [h8]
        have h1 : ¬ "a" = k := by rintro rfl; exact ha hk
        have h2 : ¬ "c" = k := by rintro rfl; exact hc hk
        simp [GoMap.get?_cons, h1, h2]
      obtain ⟨q, hq, hlen, hin⟩ := leaky_puts ks l' hl nd hb hnone
      exact ⟨q, hq, by rw [hlen, h8]; simp; omega, fun k hk => hin k (Or.inl hk)⟩

/-- the schedule in which reader `i` takes its steps before reader `i + 1` starts: `ns` are the numbers of steps, from reader `i` on. -/
def serial : Nat → List Nat → List Nat
  | _, [] => []
  | i, n :: ns => List.replicate n i ++ serial (i + 1) ns

private theorem block (n : Nat) : ∀ (h : PList) (rs : List PList.Reader) (i : Nat) (h' : PList) (rs' : List PList.Reader) (r : PList.Reader),
    PList.runReaders (h, rs) (List.replicate n i) = some (h', rs') → rs[i]? = some r →
    ∃ r' h1, rs' = rs.set i r' ∧ PList.runReaders (h, [r]) (List.replicate n 0) = some (h1, [r']) ∧ h' = h1 := by
  induction n with
  | zero =>
    intro h rs i h' rs' r hr hi
    simp only [List.replicate_zero, PList.runReaders, List.foldlM_nil, pure, Option.some.injEq, Prod.mk.injEq] at hr ⊢
    refine ⟨r, h, ?_, ⟨rfl, rfl⟩, hr.1.symm⟩
    rw [← hr.2]
    obtain ⟨hlt, e⟩ := List.getElem?_eq_some_iff.1 hi
    rw [← e, List.set_getElem_self]
  | succ n ih =>
    intro h rs i h' rs' r hr hi
    have hlt := (List.getElem?_eq_some_iff.1 hi).1
    simp only [List.replicate_succ, PList.runReaders, List.foldlM_cons] at hr ⊢
    cases hs : PList.readerStep h r with
    | none => simp [PList.readersStep, hi, hs] at hr
    | some x =>
      obtain ⟨g, r1⟩ := x
      simp only [PList.readersStep, hi, hs, Option.map_some, Option.bind_eq_bind, Option.bind_some] at hr
      obtain ⟨r', h1, e1, e2, e3⟩ := ih g (rs.set i r1) i h' rs' r1 hr (by simp [hlt])
      refine ⟨r', h1, by rw [e1, List.set_set], ?_, e3⟩
      simp only [PList.readersStep, List.getElem?_cons_zero, hs, Option.map_some, Option.bind_eq_bind, Option.bind_some, List.set_cons_zero]
      exact e2

private theorem alone_from (n : Nat) : ∀ (h h' : PList) (e pc : Nat) (r : PList.Reader), 1 ≤ pc → pc ≤ 7 →
    PList.runReaders (h, [⟨e, pc⟩]) (List.replicate n 0) = some (h', [r]) → r.pc = 7 →
    ((List.range 6).drop (pc - 1)).foldlM (fun h i => PList.moveLine e i h) h = some h' := by
  induction n with
  | zero =>
    intro h h' e pc r _ _ hr h7
    simp only [List.replicate_zero, PList.runReaders, List.foldlM_nil, pure, Option.some.injEq, Prod.mk.injEq, List.cons.injEq, and_true] at hr
    obtain ⟨rfl, rfl⟩ := hr
    simp only at h7; subst h7; rfl
  | succ n ih =>
    intro h h' e pc r h1 hle hr h7
    simp only [List.replicate_succ, PList.runReaders, List.foldlM_cons, PList.readersStep, List.getElem?_cons_zero, PList.readerStep] at hr
    rw [if_neg (by omega)] at hr
    by_cases h6 : pc ≤ 6
    · rw [if_pos h6] at hr
      cases hm : PList.moveLine e (pc - 1) h with
      | none => simp [hm] at hr
      | some g =>
        simp only [hm, Option.map_some, Option.bind_eq_bind, Option.bind_some, List.set_cons_zero] at hr
        have := ih g h' e (pc + 1) r (by omega) (by omega) hr h7
        rw [List.drop_eq_getElem_cons (by simp; omega), List.foldlM_cons]
        simp only [List.getElem_range, hm, Option.bind_eq_bind, Option.bind_some]
        rw [show pc - 1 + 1 = pc + 1 - 1 by omega]; exact this
    · rw [if_neg h6] at hr; simp at hr

private theorem alone (n : Nat) (h h' : PList) (e : Nat) (r : PList.Reader) (hr : PList.runReaders (h, [⟨e, 0⟩]) (List.replicate n 0) = some (h', [r]))
    (h7 : r.pc = 7) : h.moveToFront e = some h' := by
  match n with
  | 0 => simp [PList.runReaders] at hr; rw [← hr.2] at h7; simp at h7
  | n + 1 =>
    simp only [List.replicate_succ, PList.runReaders, List.foldlM_cons, PList.readersStep, List.getElem?_cons_zero, PList.readerStep, if_true,
      Option.map_some, Option.bind_eq_bind, Option.bind_some, List.set_cons_zero] at hr
    by_cases hs : h.moveSkips e = true
    · rw [if_pos hs] at hr
      have := alone_from n h h' e 7 r (by omega) (by omega) hr h7
      simp only [PList.moveToFront, if_pos hs]
      exact this
    · rw [if_neg hs] at hr
      have := alone_from n h h' e 1 r (by omega) (by omega) hr h7
      simp only [PList.moveToFront, if_neg hs]
      simpa [List.range, List.range.loop, PList.move, List.foldlM] using this

private theorem serial_run (ns : List Nat) : ∀ (h : PList) (done : List PList.Reader) (es : List Nat) (h' : PList) (rs' : List PList.Reader),
    PList.runReaders (h, done ++ es.map (fun e => ⟨e, 0⟩)) (serial done.length ns) = some (h', rs') →
    rs'.all (fun r => r.pc == 7) = true → ns.length = es.length →
    es.foldlM (fun h e => h.moveToFront e) h = some h' := by
  induction ns with
  | nil =>
    intro h done es h' rs' hr _ hl
    have : es = [] := by simpa using hl.symm
    subst this
    simp [serial, PList.runReaders] at hr
    simp [hr.1]
  | cons n ns ih =>
    intro h done es h' rs' hr h7 hl
    match es, hl with
    | e :: es, hl =>
      simp only [serial, PList.runReaders, List.foldlM_append, Option.bind_eq_bind, Option.bind_eq_some_iff] at hr
      obtain ⟨⟨g, rs1⟩, hr1, hr2⟩ := hr
      obtain ⟨r', h1, e1, e2, e3⟩ := block n h _ _ g rs1 ⟨e, 0⟩ hr1 (by simp)
      subst e3
      have hset : rs1 = (done ++ [r']) ++ es.map (fun e => ⟨e, 0⟩) := by rw [e1]; simp
      have keep : ∀ (sch : List Nat) (h : PList) (rs : List PList.Reader) (h' : PList) (rs' : List PList.Reader) (j : Nat),
          j ∉ sch → PList.runReaders (h, rs) sch = some (h', rs') → rs'[j]? = rs[j]? := by
        intro sch
        induction sch with
        | nil => intro h rs h' rs' j _ hr; simp [PList.runReaders] at hr; rw [hr.2]
        | cons i sch ih =>
          intro h rs h' rs' j hj hr
          simp only [List.mem_cons, not_or] at hj
          simp only [PList.runReaders, List.foldlM_cons, Option.bind_eq_bind, Option.bind_eq_some_iff] at hr
          obtain ⟨⟨g, rs1⟩, hr1, hr2⟩ := hr
          rw [ih g rs1 h' rs' j hj.2 hr2]
          unfold PList.readersStep at hr1
          cases hi : rs[i]? with
          | none => simp [hi] at hr1
          | some r =>
            simp only [hi, Option.map_eq_some_iff, Prod.mk.injEq] at hr1
            obtain ⟨x, -, -, rfl⟩ := hr1
            rw [List.getElem?_set_ne (fun e => hj.1 e.symm)]
      have hmem : ∀ (ns : List Nat) (i j : Nat), j ∈ serial i ns → i ≤ j := by
        intro ns
        induction ns with
        | nil => intro i j hj; simp [serial] at hj
        | cons n ns ih =>
          intro i j hj
          simp only [serial, List.mem_append, List.mem_replicate] at hj
          rcases hj with hj | hj
          · omega
          · have := ih _ _ hj; omega
      have h7' : r'.pc = 7 := by
        have hk := keep _ g rs1 h' rs' done.length (fun hm => by have := hmem _ _ _ hm; omega) hr2
        have : rs1[done.length]? = some r' := by rw [hset]; simp
        rw [this] at hk
        have := List.all_eq_true.1 h7 r' (List.mem_of_getElem? hk)
        simpa using this
      have hm := alone n h g e r' e2 h7'
      rw [List.foldlM_cons, hm]
      rw [hset] at hr2
      have := ih g (done ++ [r']) es h' rs' (by rw [List.length_append, List.length_singleton]; exact hr2) h7 (by simpa using hl)
      simpa using this

/-- **C50, partial (Gets one after the other)**: `Get`s that do not overlap, any number of them and of any keys that are present,
leave the cache exactly as the same `Get`s called in turn.  Missing: `Get`s that overlap (refuted above). -/
theorem c50_serial_gets_partial (capacity : Int) (ops : List (LRUOp T)) (l l' : PLRU T) (log : List (LRUEvent T))
    (h : run capacity ops = some (l, log)) (keys : List String) (ns : List Nat) (hn : ns.length = keys.length)
    (hg : l.gets keys (serial 0 ns) = some l') :
    keys.foldlM (fun l k => (l.get k).map Prod.fst) l = some l' := by
  obtain ⟨a, hs⟩ : ∃ a, Sim l a := by
    rcases sim_run ops _ _ [] (sim_new (T := T) capacity) with ⟨-, h2⟩ | ⟨a, p, log', h1, h2, hs⟩
    · rw [run, h2] at h; simp at h
    · rw [run, h2] at h; simp only [Option.some.injEq, Prod.mk.injEq] at h; exact ⟨a, h.1 ▸ hs⟩
  simp only [gets, Option.bind_eq_bind, Option.bind_eq_some_iff] at hg
  obtain ⟨es, hes, ⟨g, rs⟩, hr, hif⟩ := hg
  have h7 : rs.all (fun r => r.pc == 7) = true := by
    by_contra hc; simp only at hif; rw [if_neg hc] at hif; simp at hif
  simp only at hif
  rw [if_pos h7] at hif
  have hlen : ∀ (ks : List String) (es : List Nat), ks.mapM (fun k => l.cache.get? k) = some es → es.length = ks.length := by
    intro ks
    induction ks with
    | nil => intro es h; simp at h; simp [h]
    | cons k ks ih =>
      intro es h
      simp only [List.mapM_cons, Option.bind_eq_bind, Option.bind_eq_some_iff, pure, Option.some.injEq] at h
      obtain ⟨e, -, es', h2, rfl⟩ := h
      simp [ih es' h2]
  have hfold := serial_run ns l.pages [] es g rs (by simpa using hr) h7 (by rw [hn, hlen keys es hes])
  have main : ∀ (ks : List String) (es : List Nat) (h : PList), ks.mapM (fun k => l.cache.get? k) = some es →
      es.foldlM (fun h e => h.moveToFront e) h = some g →
      ks.foldlM (fun l k => (l.get k).map Prod.fst) { l with pages := h } = some { l with pages := g } := by
    intro ks
    induction ks with
    | nil => intro es h h1 h2; simp at h1; subst h1; simp at h2; simp [h2]
    | cons k ks ih =>
      intro es h h1 h2
      simp only [List.mapM_cons, Option.bind_eq_bind, Option.bind_eq_some_iff, pure, Option.some.injEq] at h1
      obtain ⟨e, hke, es', h1', rfl⟩ := h1
      simp only [List.foldlM_cons, Option.bind_eq_bind, Option.bind_eq_some_iff] at h2
      obtain ⟨h', hm, h2'⟩ := h2
      have := ih es' h' h1' h2'
      obtain ⟨v, hv⟩ : ∃ v, l.elems.get? e = some v := by
        have hc := hs.cache k
        rw [hke] at hc
        obtain ⟨x, hx, rfl⟩ := Option.map_eq_some_iff.1 hc.symm
        obtain ⟨hx', v, hv⟩ := (hs.ok.link k x).1 hx
        exact ⟨_, (hs.elems x hx').trans hv⟩
      simp only [List.foldlM_cons]
      have hget : (({ l with pages := h } : PLRU T).get k).map Prod.fst = some { l with pages := h' } := by
        simp [get, hke, hm, hv]
      rw [hget]; exact this
  have := main keys es l.pages hes hfold
  rw [← Option.some.inj hif]; exact this

/-- two `Get`s one after the other on `ba`. -/
example : (ba.gets ["b", "a"] (serial 0 [7, 7])).isSome = true := by decide

end PLRU
end Goir
