import Verif.Spec.Recency
/-!
# C46–C48: the LRU cache
-/
namespace Goir
open Spec
namespace LRU
variable {T : Type}

/-! ### recency lists -/

/-- distinct keys, newest first. -/
private def recency : List String → List String
  | [] => []
  | k :: t => k :: (recency t).filter (· ≠ k)

private theorem mem_recency (t : List String) (k : String) : k ∈ recency t ↔ k ∈ t := by
  induction t with
  | nil => simp [recency]
  | cons a t ih =>
    simp only [recency, List.mem_cons, List.mem_filter, ih, decide_not, Bool.not_eq_true', decide_eq_false_iff_not]
    by_cases h : k = a <;> simp [h]

private theorem nodup_recency (t : List String) : (recency t).Nodup := by
  induction t with
  | nil => simp [recency]
  | cons a t ih =>
    simp only [recency, List.nodup_cons, List.mem_filter]
    exact ⟨by simp, ih.filter _⟩

private theorem takeWhile_filter (l : List String) (k : String) (q : String → Bool) (hq : q k = true) :
    (l.filter q).takeWhile (· ≠ k) = (l.takeWhile (· ≠ k)).filter q := by
  induction l with
  | nil => rfl
  | cons a l ih =>
    by_cases ha : a = k
    · subst ha; simp [hq]
    · by_cases hqa : q a = true
      · simp [hqa, ha]; simpa using ih
      · simp [hqa, ha]; simpa using ih

private theorem mem_takeWhile_recency (t : List String) (k x : String) :
    x ∈ (recency t).takeWhile (· ≠ k) ↔ x ∈ t.takeWhile (· ≠ k) := by
  induction t with
  | nil => simp [recency]
  | cons a t ih =>
    by_cases ha : a = k
    · subst ha; simp [recency]
    · have h1 : (recency (a :: t)).takeWhile (· ≠ k) = a :: ((recency t).takeWhile (· ≠ k)).filter (· ≠ a) := by
        rw [← takeWhile_filter (recency t) k (· ≠ a) (by simpa using fun e => ha e.symm)]
        simp [recency, ha]
      have h2 : (a :: t).takeWhile (· ≠ k) = a :: t.takeWhile (· ≠ k) := by simp [ha]
      rw [h1, h2]
      rw [List.mem_cons, List.mem_cons, List.mem_filter, ih]
      by_cases hx : x = a <;> simp [hx]

private theorem mem_take_iff (l : List String) (k : String) (n : Nat) :
    k ∈ l.take n ↔ k ∈ l ∧ (l.takeWhile (· ≠ k)).length < n := by
  induction l generalizing n with
  | nil => simp
  | cons a l ih =>
    cases n with
    | zero => simp
    | succ n =>
      by_cases ha : a = k
      · subst ha; simp
      · have ha' : ¬ k = a := fun e => ha e.symm
        simp only [List.take_succ_cons, List.mem_cons, ha', false_or, ih]
        simp [ha]

private theorem recent_iff (n : Nat) (log : List (LRUEvent T)) (k : String) :
    Recent n log k ↔ k ∈ (recency (touches log)).take n := by
  rw [mem_take_iff, mem_recency]
  unfold Recent
  have : ((touches log).takeWhile (· ≠ k)).toFinset.card = ((recency (touches log)).takeWhile (· ≠ k)).length := by
    have nd : ((recency (touches log)).takeWhile (· ≠ k)).Nodup :=
      (List.takeWhile_sublist _).nodup (nodup_recency _)
    rw [← List.toFinset_card_of_nodup nd]
    congr 1; ext x
    rw [List.mem_toFinset, List.mem_toFinset, mem_takeWhile_recency]
  rw [this]; norm_cast

/-! ### the invariant -/

private structure Inv (n : Nat) (s : LRU T × List (LRUEvent T)) : Prop where
  cap : s.1.capacity = n
  nodup : s.1.pages.Nodup
  cacheWF : s.1.cache.WF
  link : ∀ k e, s.1.cache.get? k = some e ↔ e ∈ s.1.pages ∧ ∃ v, s.1.elems.get? e = some (k, v)
  pageOk : ∀ e ∈ s.1.pages, ∃ p, s.1.elems.get? e = some p
  fresh : ∀ e ∈ s.1.pages, e < s.1.fresh
  keys : s.1.pages.map (fun e => ((s.1.elems.get? e).map Prod.fst).getD "") = (recency (touches s.2)).take n
  vals : ∀ e ∈ s.1.pages, ∀ k v, s.1.elems.get? e = some (k, v) → lastPut s.2 k = some v

private theorem inv_new (n : Nat) : Inv n ((new (n : Int) : LRU T), []) := by
  constructor <;> simp [new, recency, touches]

private theorem key_inj {n : Nat} {s : LRU T × List (LRUEvent T)} (h : Inv n s) {e e' : Nat} {k : String} {v v' : T}
    (he : e ∈ s.1.pages) (he' : e' ∈ s.1.pages) (h1 : s.1.elems.get? e = some (k, v)) (h2 : s.1.elems.get? e' = some (k, v')) :
    e = e' := by
  have a := (h.link k e).2 ⟨he, v, h1⟩
  have b := (h.link k e').2 ⟨he', v', h2⟩
  rw [a] at b; simpa using b

private theorem map_keys_front {n : Nat} {s : LRU T × List (LRUEvent T)} (h : Inv n s) {e : Nat} {k : String} {v : T}
    (he : e ∈ s.1.pages) (hk : s.1.elems.get? e = some (k, v)) :
    (moveToFront s.1.pages e).map (fun e => ((s.1.elems.get? e).map Prod.fst).getD "") =
      (recency (k :: touches s.2)).take n := by
  set key := fun e => ((s.1.elems.get? e).map Prod.fst).getD "" with hkey
  have hke : key e = k := by simp [hkey, hk]
  have h1 : (s.1.pages.filter (· ≠ e)).map key = (s.1.pages.map key).filter (· ≠ k) := by
    rw [List.filter_map]
    congr 1
    apply List.filter_congr
    intro x hx
    obtain ⟨⟨k', v'⟩, hp⟩ := h.pageOk x hx
    have hkx : key x = k' := by simp [hkey, hp]
    by_cases hxe : x = e
    · subst hxe; simp [hke]
    · have : key x ≠ k := by
        intro e'; rw [hkx] at e'; subst e'
        exact hxe (key_inj h hx he hp hk)
      simp [hxe, this]
  have hpos : k ∈ s.1.pages.map key := List.mem_map.2 ⟨e, he, hke⟩
  rw [h.keys] at hpos
  show key e :: (s.1.pages.filter (· ≠ e)).map key = _
  rw [h1, hke, h.keys, recency]
  -- remove k from the first n of a duplicate-free list containing k
  have hn : ∃ m, n = m + 1 := by
    cases n with
    | zero => simp at hpos
    | succ m => exact ⟨m, rfl⟩
  obtain ⟨m, rfl⟩ := hn
  simp only [List.take_succ_cons]
  congr 1
  have key2 : ∀ (l : List String) (m : Nat), l.Nodup → k ∈ l.take (m + 1) →
      (l.take (m + 1)).filter (· ≠ k) = (l.filter (· ≠ k)).take m := by
    intro l
    induction l with
    | nil => simp
    | cons a l ih =>
      intro m nd hm
      simp only [List.nodup_cons] at nd
      by_cases hak : a = k
      · subst hak
        have hf : ∀ l' : List String, List.Sublist l' l → l'.filter (· ≠ a) = l' := by
          intro l' hs; rw [List.filter_eq_self]; intro x hx
          simp only [ne_eq, decide_not, Bool.not_eq_true', decide_eq_false_iff_not]
          rintro rfl; exact nd.1 (hs.mem hx)
        simp only [List.take_succ_cons]
        rw [List.filter_cons_of_neg (by simp), List.filter_cons_of_neg (by simp), hf _ (List.take_sublist _ _),
          hf _ (List.Sublist.refl _)]
      · have hak' : ¬ k = a := fun e => hak e.symm
        simp only [List.take_succ_cons, List.mem_cons, hak', false_or] at hm ⊢
        cases m with
        | zero => simp at hm
        | succ m =>
          rw [List.filter_cons_of_pos (by simp [hak]), List.filter_cons_of_pos (by simp [hak]), List.take_succ_cons,
            ih m nd.2 hm]
  exact key2 _ _ (nodup_recency _) hpos

private theorem get?_elems_set (m : GoMap Nat (String × T)) (e x : Nat) (p : String × T) :
    (m.set e p).get? x = if e = x then some p else m.get? x := GoMap.get?_set _ _ _ _

private theorem mem_moveToFront {pages : List Nat} {e : Nat} (he : e ∈ pages) (x : Nat) :
    x ∈ moveToFront pages e ↔ x ∈ pages := by
  simp only [moveToFront, List.mem_cons, List.mem_filter, decide_not, Bool.not_eq_true', decide_eq_false_iff_not, ne_eq]
  by_cases h : x = e
  · subst h; simp [he]
  · simp [h]

private theorem nodup_moveToFront {pages : List Nat} {e : Nat} (h : pages.Nodup) : (moveToFront pages e).Nodup := by
  simp only [moveToFront, List.nodup_cons]
  exact ⟨by simp, h.filter _⟩

/-- pushing a key that is not in the cache. -/
private theorem inv_push {n : Nat} {s : LRU T} {log : List (LRUEvent T)} (k : String) (v : T)
    (cap : s.capacity = n) (nodup : s.pages.Nodup) (cacheWF : s.cache.WF)
    (link : ∀ k e, s.cache.get? k = some e ↔ e ∈ s.pages ∧ ∃ v, s.elems.get? e = some (k, v))
    (pageOk : ∀ e ∈ s.pages, ∃ p, s.elems.get? e = some p)
    (fresh : ∀ e ∈ s.pages, e < s.fresh)
    (vals : ∀ e ∈ s.pages, ∀ k v, s.elems.get? e = some (k, v) → lastPut log k = some v)
    (hk : s.cache.get? k = none)
    (keys : k :: s.pages.map (fun e => ((s.elems.get? e).map Prod.fst).getD "") = (recency (k :: touches log)).take n) :
    Inv n (s.push k v, .put k v :: log) := by
  have hf : s.fresh ∉ s.pages := fun h => absurd (fresh _ h) (by omega)
  have hne : ∀ x ∈ s.pages, ¬ s.fresh = x := fun x hx e => hf (e ▸ hx)
  refine ⟨cap, ?_, cacheWF.set _ _, ?_, ?_, ?_, ?_, ?_⟩
  · simp only [push, List.nodup_cons]; exact ⟨hf, nodup⟩
  · intro k' e
    simp only [push, GoMap.get?_set, List.mem_cons]
    by_cases hkk : k = k'
    · subst hkk
      simp only [if_true, Option.some.injEq]
      constructor
      · rintro rfl; exact ⟨Or.inl rfl, v, by simp⟩
      · rintro ⟨h1 | h1, v', h2⟩
        · exact h1.symm
        · rw [if_neg (hne e h1)] at h2
          have := (link k e).2 ⟨h1, v', h2⟩
          rw [hk] at this; simp at this
    · simp only [hkk, if_false]
      rw [link]
      constructor
      · rintro ⟨h1, v', h2⟩
        exact ⟨Or.inr h1, v', by rw [if_neg (hne e h1)]; exact h2⟩
      · rintro ⟨h1 | h1, v', h2⟩
        · subst h1; simp [hkk] at h2
        · rw [if_neg (hne e h1)] at h2; exact ⟨h1, v', h2⟩
  · intro e he
    simp only [push, List.mem_cons] at he
    simp only [push, GoMap.get?_set]
    rcases he with rfl | he
    · exact ⟨(k, v), by simp⟩
    · rw [if_neg (hne e he)]; exact pageOk e he
  · intro e he
    simp only [push, List.mem_cons] at he ⊢
    rcases he with rfl | he
    · omega
    · have := fresh e he; omega
  · have ht : touches (LRUEvent.put k v :: log) = k :: touches log := rfl
    rw [ht, ← keys]
    simp only [push, List.map_cons, GoMap.get?_set, if_true, Option.map_some, Option.getD_some]
    congr 1
    apply List.map_congr_left
    intro x hx
    rw [if_neg (hne x hx)]
  · intro e he k' v' hp
    simp only [push, List.mem_cons] at he
    simp only [push, GoMap.get?_set] at hp
    rcases he with rfl | he
    · simp only [if_true, Option.some.injEq, Prod.mk.injEq] at hp
      obtain ⟨rfl, rfl⟩ := hp; simp [lastPut]
    · rw [if_neg (hne e he)] at hp
      have hkk : k ≠ k' := by
        rintro rfl
        have := (link k e).2 ⟨he, v', hp⟩
        rw [hk] at this; simp at this
      have := vals e he k' v' hp
      simpa [lastPut, hkk] using this

private theorem inv_exec {n : Nat} (hn : 1 ≤ n) (s : LRU T × List (LRUEvent T)) (h : Inv n s) (op : LRUOp T) :
    ∃ s', exec s op = some s' ∧ Inv n s' := by
  cases op with
  | get k =>
    cases hc : s.1.cache.get? k with
    | none =>
      have hx : exec s (.get k) = some (s.1, .miss k :: s.2) := by simp only [exec, get, hc]
      exact ⟨_, hx, h.cap, h.nodup, h.cacheWF, h.link, h.pageOk, h.fresh, h.keys, h.vals⟩
    | some e =>
      obtain ⟨he, v, hv⟩ := (h.link k e).1 hc
      have hx : exec s (.get k) = some ({ s.1 with pages := moveToFront s.1.pages e }, .hit k v :: s.2) := by
        simp only [exec, get, hc, hv, Option.map_some]
      refine ⟨_, hx, h.cap, nodup_moveToFront h.nodup, h.cacheWF, ?_, ?_, ?_, ?_, ?_⟩
      · intro k' e'; rw [h.link]; simp only [mem_moveToFront he]
      · intro e' he'; exact h.pageOk e' ((mem_moveToFront he _).1 he')
      · intro e' he'; exact h.fresh e' ((mem_moveToFront he _).1 he')
      · exact map_keys_front h he hv
      · intro e' he' k' v' hp; exact h.vals e' ((mem_moveToFront he _).1 he') k' v' hp
  | put k v =>
    cases hc : s.1.cache.get? k with
    | some e =>
      obtain ⟨he, v0, hv⟩ := (h.link k e).1 hc
      have hx : exec s (.put k v) = some ({ s.1 with pages := moveToFront s.1.pages e, elems := s.1.elems.set e (k, v) },
          .put k v :: s.2) := by
        simp only [exec, put, hc, Option.map_some]
      refine ⟨_, hx, h.cap, nodup_moveToFront h.nodup, h.cacheWF, ?_, ?_, ?_, ?_, ?_⟩
      · intro k' e'
        simp only [mem_moveToFront he, GoMap.get?_set]
        rw [h.link]
        by_cases hee : e = e'
        · subst hee
          simp only [if_true, Option.some.injEq, Prod.mk.injEq, hv]
          constructor
          · rintro ⟨a, v', rfl, -⟩; exact ⟨a, v, rfl, rfl⟩
          · rintro ⟨a, v', rfl, -⟩; exact ⟨a, v0, rfl, rfl⟩
        · simp [hee]
      · intro e' he'
        simp only [GoMap.get?_set]
        by_cases hee : e = e'
        · simp [hee]
        · rw [if_neg hee]; exact h.pageOk e' ((mem_moveToFront he _).1 he')
      · intro e' he'; exact h.fresh e' ((mem_moveToFront he _).1 he')
      · have := map_keys_front h he hv
        have ht : touches (LRUEvent.put k v :: s.2) = k :: touches s.2 := rfl
        rw [ht, ← this]
        apply List.map_congr_left
        intro x _
        simp only [GoMap.get?_set]
        by_cases hex : e = x
        · subst hex; simp [hv]
        · simp [hex]
      · intro e' he' k' v' hp
        simp only [GoMap.get?_set] at hp
        by_cases hee : e = e'
        · simp only [hee, if_true, Option.some.injEq, Prod.mk.injEq] at hp
          obtain ⟨rfl, rfl⟩ := hp; simp [lastPut]
        · rw [if_neg hee] at hp
          have he'' := (mem_moveToFront he _).1 he'
          have hkk : k ≠ k' := by
            rintro rfl; exact hee (key_inj h he he'' hv hp)
          have := h.vals e' he'' k' v' hp
          simpa [lastPut, hkk] using this
    | none =>
      have hknot : k ∉ (recency (touches s.2)).take n := by
        rw [← h.keys]
        intro hm
        obtain ⟨e, he, hke⟩ := List.mem_map.1 hm
        obtain ⟨⟨k', v'⟩, hp⟩ := h.pageOk e he
        simp only [hp, Option.map_some, Option.getD_some] at hke
        subst hke
        have := (h.link k' e).2 ⟨he, v', hp⟩
        rw [hc] at this; simp at this
      have hlen : s.1.pages.length = ((recency (touches s.2)).take n).length := by
        rw [← h.keys]; simp
      obtain ⟨m, rfl⟩ : ∃ m, n = m + 1 := ⟨n - 1, by omega⟩
      have hfilter : ∀ (l : List String) (m : Nat), k ∉ l.take (m + 1) → (l.filter (· ≠ k)).take m = l.take m := by
        intro l
        induction l with
        | nil => simp
        | cons a l ih =>
          intro m hm
          simp only [List.take_succ_cons, List.mem_cons, not_or] at hm
          have hak : ¬ a = k := fun e => hm.1 e.symm
          rw [List.filter_cons_of_pos (by simp [hak])]
          cases m with
          | zero => simp
          | succ m => simp only [List.take_succ_cons]; rw [ih m hm.2]
      have hrec : (recency (k :: touches s.2)).take (m + 1) = k :: (recency (touches s.2)).take m := by
        simp only [recency, List.take_succ_cons]
        rw [hfilter _ _ hknot]
      by_cases hfull : (s.1.pages.length : Int) ≥ s.1.capacity
      · -- eviction
        have hfull' : m + 1 ≤ s.1.pages.length := by rw [h.cap] at hfull; exact_mod_cast hfull
        have hle : s.1.pages.length ≤ m + 1 := by rw [hlen]; simp
        have hL : s.1.pages.length = m + 1 := by omega
        have hpne : s.1.pages ≠ [] := by intro e; rw [e] at hL; simp at hL
        let b := s.1.pages.getLast hpne
        have hb : s.1.pages.getLast? = some b := List.getLast?_eq_getLast_of_ne_nil hpne
        have hbm : b ∈ s.1.pages := List.getLast_mem hpne
        obtain ⟨⟨kb, vb⟩, hpb⟩ := h.pageOk b hbm
        have hsplit : s.1.pages = s.1.pages.dropLast ++ [b] := (List.dropLast_append_getLast hpne).symm
        have hnd := h.nodup
        rw [hsplit, List.nodup_append] at hnd
        have hbd : b ∉ s.1.pages.dropLast := fun hm => hnd.2.2 b hm b (by simp) rfl
        have hsub : ∀ x ∈ s.1.pages.dropLast, x ∈ s.1.pages := fun x hx => by rw [hsplit]; simp [hx]
        have hbx : ∀ x ∈ s.1.pages.dropLast, ¬ b = x := fun x hx e => hbd (e ▸ hx)
        have hx : exec s (.put k v) = some ((LRU.mk s.1.capacity (s.1.cache.del kb) s.1.pages.dropLast
            (s.1.elems.del b) s.1.fresh).push k v, .put k v :: s.2) := by
          simp only [exec, put, hc, if_pos hfull, evict, hb, hpb, Option.map_some]
        refine ⟨_, hx, ?_⟩
        refine inv_push k v h.cap hnd.1 (h.cacheWF.del _) ?_ ?_ ?_ ?_ ?_ ?_
        · intro k' e
          simp only [GoMap.get?_del]
          constructor
          · intro hg
            split at hg
            · simp at hg
            · rename_i hne
              obtain ⟨h1, v', h2⟩ := (h.link k' e).1 hg
              have heb : ¬ b = e := by
                rintro rfl; rw [hpb] at h2
                simp only [Option.some.injEq, Prod.mk.injEq] at h2; exact hne h2.1
              rw [hsplit, List.mem_append, List.mem_singleton] at h1
              rcases h1 with h1 | h1
              · exact ⟨h1, v', by rw [if_neg heb]; exact h2⟩
              · exact absurd h1.symm heb
          · rintro ⟨h1, v', h2⟩
            rw [if_neg (hbx e h1)] at h2
            have hne : ¬ kb = k' := by
              rintro rfl; exact hbx e h1 (key_inj h hbm (hsub e h1) hpb h2)
            rw [if_neg hne, h.link]
            exact ⟨hsub e h1, v', h2⟩
        · intro e he
          simp only [GoMap.get?_del]
          rw [if_neg (hbx e he)]; exact h.pageOk e (hsub e he)
        · intro e he; exact h.fresh e (hsub e he)
        · intro e he k' v' hp
          simp only [GoMap.get?_del] at hp
          rw [if_neg (hbx e he)] at hp
          exact h.vals e (hsub e he) k' v' hp
        · simp only [GoMap.get?_del, hc]; split <;> rfl
        · rw [hrec]
          congr 1
          have : (s.1.pages.dropLast).map (fun e => (((s.1.elems.del b).get? e).map Prod.fst).getD "") =
              (s.1.pages.dropLast).map (fun e => ((s.1.elems.get? e).map Prod.fst).getD "") := by
            apply List.map_congr_left
            intro x hx
            simp only [GoMap.get?_del]; rw [if_neg (hbx x hx)]
          show (s.1.pages.dropLast).map (fun e => (((s.1.elems.del b).get? e).map Prod.fst).getD "") = _
          rw [this, List.map_dropLast, h.keys, List.dropLast_eq_take]
          rw [hlen] at hL
          rw [hL, List.take_take]; congr 1; omega
      · -- room
        have hlt : s.1.pages.length < m + 1 := by rw [h.cap] at hfull; push_cast at hfull; omega
        have hx : exec s (.put k v) = some (s.1.push k v, .put k v :: s.2) := by
          simp only [exec, put, hc, if_neg hfull, Option.map_some]
        refine ⟨_, hx, ?_⟩
        refine inv_push k v h.cap h.nodup h.cacheWF h.link h.pageOk h.fresh h.vals hc ?_
        rw [hrec]; congr 1
        rw [h.keys]
        have : (recency (touches s.2)).length ≤ m := by
          rw [hlen, List.length_take] at hlt; omega
        rw [List.take_of_length_le (by omega), List.take_of_length_le this]

private theorem inv_run {n : Nat} (hn : 1 ≤ n) (ops : List (LRUOp T)) : ∀ s0, Inv n s0 →
    ∃ s, ops.foldlM exec s0 = some s ∧ Inv n s := by
  induction ops with
  | nil => intro s0 h; exact ⟨s0, rfl, h⟩
  | cons op ops ih =>
    intro s0 h
    obtain ⟨s1, h1, i1⟩ := inv_exec hn s0 h op
    obtain ⟨s, h2, i2⟩ := ih s1 i1
    exact ⟨s, by simp [h1, h2], i2⟩

/-- **C46** For capacity ≥ 1 no sequence of calls panics, and the cache ends with at most `capacity` entries, without
duplicate elements or keys, and with its map and its list describing the same entries. -/
theorem c46_lru_bounded (capacity : Int) (hcap : 1 ≤ capacity) (ops : List (LRUOp T)) :
    ∃ l log, run capacity ops = some (l, log) ∧
      (l.pages.length : Int) ≤ capacity ∧ l.pages.Nodup ∧ l.cache.WF ∧ l.cache.length = l.pages.length ∧
      (∀ k e, l.cache.get? k = some e ↔ e ∈ l.pages ∧ ∃ v, l.elems.get? e = some (k, v)) ∧
      (∀ e ∈ l.pages, ∃ k v, l.elems.get? e = some (k, v) ∧ l.cache.get? k = some e) := by
  obtain ⟨n, rfl⟩ : ∃ n : Nat, capacity = n := ⟨capacity.toNat, by omega⟩
  obtain ⟨⟨l, log⟩, h1, h⟩ := inv_run (T := T) (n := n) (by omega) ops _ (inv_new n)
  refine ⟨l, log, h1, ?_, h.nodup, h.cacheWF, ?_, h.link, ?_⟩
  · have := congrArg List.length h.keys
    simp only [List.length_map, List.length_take] at this
    omega
  · -- keys of the map are the keys of the pages
    have hperm : l.cache.keys.Perm (l.pages.map (fun e => ((l.elems.get? e).map Prod.fst).getD "")) := by
      rw [List.perm_ext_iff_of_nodup h.cacheWF]
      · intro k
        rw [GoMap.mem_keys_iff, List.mem_map]
        constructor
        · rintro ⟨e, he⟩
          obtain ⟨a, v, hv⟩ := (h.link k e).1 he
          exact ⟨e, a, by simp only at hv; simp [hv]⟩
        · rintro ⟨e, he, hk⟩
          obtain ⟨⟨k', v'⟩, hp⟩ := h.pageOk e he
          simp only at hp
          simp only [hp, Option.map_some, Option.getD_some] at hk
          subst hk
          exact ⟨e, (h.link k' e).2 ⟨he, v', hp⟩⟩
      · have := h.keys; simp only at this
        rw [this]
        exact (List.take_sublist _ _).nodup (nodup_recency _)
    have := hperm.length_eq
    simpa [GoMap.keys] using this
  · intro e he
    obtain ⟨⟨k, v⟩, hp⟩ := h.pageOk e he
    exact ⟨k, v, hp, (h.link k e).2 ⟨he, v, hp⟩⟩

/-- **C47** After any calls on a cache of capacity ≥ 1, `Get(k)` hits iff `k` is `Recent` in the client's log, and then
returns the value of the last `Put(k, ·)`; otherwise it misses. -/
theorem c47_lru_recency (capacity : Int) (hcap : 1 ≤ capacity) (ops : List (LRUOp T)) (l : LRU T) (log : List (LRUEvent T))
    (h : run capacity ops = some (l, log)) (k : String) :
    (Recent capacity log k → (l.get k).2 = lastPut log k ∧ (l.get k).2.isSome) ∧
    (¬ Recent capacity log k → (l.get k).2 = none) := by
  obtain ⟨n, rfl⟩ : ∃ n : Nat, capacity = n := ⟨capacity.toNat, by omega⟩
  obtain ⟨s, h1, hi⟩ := inv_run (T := T) (n := n) (by omega) ops _ (inv_new n)
  have : some s = some (l, log) := h1.symm.trans h
  simp only [Option.some.injEq] at this
  subst this
  constructor
  · intro hr
    rw [recent_iff, ← hi.keys] at hr
    obtain ⟨e, he, hk⟩ := List.mem_map.1 hr
    obtain ⟨⟨k', v'⟩, hp⟩ := hi.pageOk e he
    simp only at hp
    simp only [hp, Option.map_some, Option.getD_some] at hk
    subst hk
    have hc := (hi.link k' e).2 ⟨he, v', hp⟩
    simp only at hc
    have hv := hi.vals e he k' v' hp
    simp only at hv
    simp only [get, hc, hp, Option.map_some, hv]; simp
  · intro hr
    rw [recent_iff, ← hi.keys] at hr
    cases hc : l.cache.get? k with
    | none => simp [get, hc]
    | some e =>
      obtain ⟨a, v, hv⟩ := (hi.link k e).1 hc
      exact absurd (List.mem_map.2 ⟨e, a, by simp only at hv; simp [hv]⟩) hr

/-- capacity 2: `a` is evicted by `b`, `c`; touching `a` in between would have saved it. -/
example : (run 2 [.put "a" 1, .put "b" 2, .put "c" 3] : Option (LRU Nat × _)).map (fun s => (s.1.get "a").2) = some none ∧
    (run 2 [.put "a" 1, .put "b" 2, .get "a", .put "c" 3] : Option (LRU Nat × _)).map
      (fun s => ((s.1.get "a").2, (s.1.get "b").2)) = some (some 1, none) := by decide

/-- **C48, refuted**: with capacity 0 (and every smaller one) the first `Put` panics. -/
theorem c48_capacity_zero_panics_refuted (capacity : Int) (hcap : capacity ≤ 0) (k : String) (v : T) :
    (new capacity : LRU T).put k v = none := by
  simp [put, new, evict, hcap]

/-- **C48, partial**: with capacity ≥ 1 no sequence of calls ever panics. Missing: capacities ≤ 0, where it is false. -/
theorem c48_positive_capacity_partial (capacity : Int) (hcap : 1 ≤ capacity) (ops : List (LRUOp T)) :
    (run capacity ops).isSome := by
  obtain ⟨l, log, h, -⟩ := c46_lru_bounded capacity hcap ops
  simp [h]

end LRU
end Goir
