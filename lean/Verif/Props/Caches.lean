import Verif.Model.Caches
/-!
# C51–C56: RCU, SyncMap, Shard
-/
namespace Goir
namespace Spec
variable {T : Type}

/-- the `Put` calls of a schedule, oldest first. -/
def putsOf (acts : List (CacheAct T)) : List (String × T) :=
  acts.filterMap fun | .put k v => some (k, v) | _ => none

/-- the value of the last `Put(k, ·)` in a list of puts, oldest first. -/
def lastPutIn (puts : List (String × T)) (k : String) : Option T :=
  puts.reverse.findSome? fun p => if p.1 = k then some p.2 else none

end Spec
open Spec
variable {T : Type}

private theorem lastPutIn_append (a b : List (String × T)) (k : String) :
    lastPutIn (a ++ b) k = (lastPutIn b k).or (lastPutIn a k) := by
  simp only [lastPutIn, List.reverse_append, List.findSome?_append]

private theorem lastPutIn_snoc (a : List (String × T)) (k k' : String) (v : T) :
    lastPutIn (a ++ [(k, v)]) k' = if k = k' then some v else lastPutIn a k' := by
  rw [lastPutIn_append]
  by_cases h : k = k' <;> simp [lastPutIn, h]

theorem get?_copyInto (src : GoMap String T) : ∀ (dst : GoMap String T) (k : String), src.WF →
    (copyInto dst src).get? k = (src.get? k).or (dst.get? k) := by
  induction src with
  | nil => intro dst k _; simp [copyInto]
  | cons p src ih =>
    intro dst k wf
    obtain ⟨k', v'⟩ := p
    show (copyInto (dst.set k' v') src).get? k = _
    rw [ih _ _ wf.tail, GoMap.get?_set]
    simp only [GoMap.WF, GoMap.keys_cons, List.nodup_cons] at wf
    by_cases h : k' = k
    · subst h
      have := (GoMap.get?_eq_none_iff src k').2 wf.1
      simp [GoMap.get?, this]
    · simp [GoMap.get?, h]

theorem copyInto_wf (src : GoMap String T) : ∀ (dst : GoMap String T), dst.WF → (copyInto dst src).WF := by
  induction src with
  | nil => intro dst h; exact h
  | cons p src ih => intro dst h; exact ih _ (h.set _ _)

namespace RCU

/-- published ++ received ++ queued = all puts, in order. -/
private structure Inv (puts : List (String × T)) (s : RCU T) (pub rcv : List (String × T)) : Prop where
  split : puts = pub ++ rcv ++ s.queue
  dataWF : s.data.WF
  bufWF : s.buffer.WF
  data : ∀ k, s.data.get? k = lastPutIn pub k
  buffer : ∀ k, s.buffer.get? k = lastPutIn rcv k
  cap : s.queue.length ≤ chanCap

private theorem inv_exec {puts : List (String × T)} {s s' : RCU T} {pub rcv} (h : Inv puts s pub rcv) (a : CacheAct T)
    (he : s.exec a = some s') : ∃ pub' rcv', Inv (puts ++ putsOf [a]) s' pub' rcv' ∧ pub <+: pub' ∧
      (a = .tick → rcv' = []) := by
  cases a with
  | put k v =>
    simp only [exec] at he
    split at he
    · rename_i hc
      simp only [Option.some.injEq] at he; subst he
      refine ⟨pub, rcv, ⟨?_, h.dataWF, h.bufWF, h.data, h.buffer, ?_⟩, List.prefix_refl _, by simp⟩
      · simp [putsOf, h.split]
      · simp; omega
    · simp at he
  | recv =>
    simp only [exec] at he
    cases hq : s.queue with
    | nil => simp [hq] at he
    | cons p q =>
      obtain ⟨k, v⟩ := p
      simp only [hq, Option.some.injEq] at he; subst he
      refine ⟨pub, rcv ++ [(k, v)], ⟨?_, h.dataWF, h.bufWF.set _ _, h.data, ?_, ?_⟩, List.prefix_refl _, by simp⟩
      · simp [putsOf, h.split, hq]
      · intro k'; rw [GoMap.get?_set, lastPutIn_snoc, h.buffer]
      · have := h.cap; rw [hq] at this; simp at this ⊢; omega
  | tick =>
    simp only [exec, Option.some.injEq] at he; subst he
    refine ⟨pub ++ rcv, [], ⟨?_, ?_, by simp, ?_, by simp [lastPutIn], h.cap⟩, List.prefix_append _ _, fun _ => rfl⟩
    · simp [putsOf, h.split]
    · exact copyInto_wf _ _ (copyInto_wf _ _ (by simp))
    · intro k
      simp only [get?_copyInto _ _ _ h.bufWF, get?_copyInto _ _ _ h.dataWF, lastPutIn_append, h.buffer, h.data]
      simp

private theorem putsOf_append (a b : List (CacheAct T)) : putsOf (a ++ b) = putsOf a ++ putsOf b := by
  simp [putsOf, List.filterMap_append]

private theorem inv_run (acts : List (CacheAct T)) : ∀ {puts : List (String × T)} {s s' : RCU T} {pub rcv},
    Inv puts s pub rcv → acts.foldlM exec s = some s' →
    ∃ pub' rcv', Inv (puts ++ putsOf acts) s' pub' rcv' ∧ pub <+: pub' := by
  induction acts with
  | nil =>
    intro puts s s' pub rcv h he
    simp at he; subst he
    exact ⟨pub, rcv, by simpa [putsOf] using h, List.prefix_refl _⟩
  | cons a acts ih =>
    intro puts s s' pub rcv h he
    simp only [List.foldlM_cons] at he
    cases h1 : s.exec a with
    | none => simp [h1] at he
    | some s1 =>
      simp [h1] at he
      obtain ⟨p1, r1, i1, pre1, -⟩ := inv_exec h a h1
      obtain ⟨p2, r2, i2, pre2⟩ := ih i1 he
      refine ⟨p2, r2, ?_, pre1.trans pre2⟩
      have : putsOf (a :: acts) = putsOf [a] ++ putsOf acts := putsOf_append [a] acts
      rw [this, ← List.append_assoc]; exact i2

private theorem inv_init : Inv ([] : List (String × T)) {} [] [] := by
  constructor <;> simp [lastPutIn]

/-- **C51** For every schedule `acts` and every continuation `more`: `Get` shows exactly the state after the first `p` puts
(for all keys at once), and later after the first `p' ≥ p` puts: it never goes back. If everything has been received and
then a tick happens, it shows the last `Put` of every key. -/
theorem c51_rcu_prefix_consistent (acts more : List (CacheAct T)) (s s' : RCU T)
    (h : run acts = some s) (h' : run (acts ++ more) = some s') (zero : T) :
    (∃ p p', p ≤ p' ∧ p ≤ (putsOf acts).length ∧ p' ≤ (putsOf (acts ++ more)).length ∧
      (∀ k, s.get zero k = ((lastPutIn ((putsOf acts).take p) k).getD zero, (lastPutIn ((putsOf acts).take p) k).isSome)) ∧
      (∀ k, s'.get zero k = ((lastPutIn ((putsOf (acts ++ more)).take p') k).getD zero,
        (lastPutIn ((putsOf (acts ++ more)).take p') k).isSome))) ∧
    (s.queue = [] → ∀ s'' k, s.exec .tick = some s'' →
      s''.get zero k = ((lastPutIn (putsOf acts) k).getD zero, (lastPutIn (putsOf acts) k).isSome)) := by
  obtain ⟨pub, rcv, i, -⟩ := inv_run acts inv_init h
  have hmore : more.foldlM exec s = some s' := by
    have := h'
    simp only [run, List.foldlM_append] at this
    rw [show acts.foldlM exec {} = some s from h] at this
    exact this
  obtain ⟨pub', rcv', i', hp⟩ := inv_run more i hmore
  simp only [List.nil_append] at i i'
  rw [← putsOf_append] at i'
  constructor
  · refine ⟨pub.length, pub'.length, hp.length_le, ?_, ?_, ?_, ?_⟩
    · rw [i.split]; simp [List.length_append]
    · rw [i'.split]; simp [List.length_append]
    · intro k
      have : (putsOf acts).take pub.length = pub := by rw [i.split, List.append_assoc]; simp
      rw [this]; simp [get, GoMap.getD, i.data]
    · intro k
      have : (putsOf (acts ++ more)).take pub'.length = pub' := by rw [i'.split, List.append_assoc]; simp
      rw [this]; simp [get, GoMap.getD, i'.data]
  · intro hq s'' k he
    obtain ⟨p2, r2, i2, -, hr⟩ := inv_exec i .tick he
    have hq2 : s''.queue = [] := by
      simp only [exec, Option.some.injEq] at he; subst he; exact hq
    have e : putsOf acts = p2 := by
      have := i2.split; rw [hr rfl, hq2] at this; simpa [putsOf] using this
    rw [e]; simp [get, GoMap.getD, i2.data]

example : (run [.put "a" 1, .put "b" 2, .recv, .tick, .put "a" 3] : Option (RCU Nat)).map
    (fun s => (s.get 0 "a", s.get 0 "b")) = some ((1, true), (0, false)) := by decide

/-- **C52** at most 1000 puts are ever queued; `Put` blocks exactly when 1000 are queued; the writer always has an enabled
action, namely receiving when something is queued, after which `Put` is possible again. -/
theorem c52_rcu_bounded_progress (acts : List (CacheAct T)) (s : RCU T) (h : run acts = some s) (k : String) (v : T) :
    s.queue.length ≤ 1000 ∧ (s.exec (.put k v) = none ↔ s.queue.length = 1000) ∧
    (s.queue ≠ [] → ∃ s', s.exec .recv = some s' ∧ (s'.exec (.put k v)).isSome) ∧ (s.exec .tick).isSome := by
  obtain ⟨pub, rcv, i, -⟩ := inv_run acts inv_init h
  have hc : s.queue.length ≤ 1000 := i.cap
  refine ⟨hc, ?_, ?_, by simp [exec]⟩
  · have hcap : chanCap = 1000 := rfl
    simp only [exec]
    by_cases hlt : s.queue.length < chanCap
    · rw [if_pos hlt]; simp; omega
    · rw [if_neg hlt]; simp; omega
  · intro hq
    cases he : s.queue with
    | nil => exact absurd he hq
    | cons p q =>
      refine ⟨_, by simp only [exec, he]; rfl, ?_⟩
      rw [he] at hc; simp at hc
      have : q.length < chanCap := by simp [chanCap]; omega
      simp [exec, this]

end RCU

namespace SyncMap

private theorem run_inv (acts : List (CacheAct T)) : ∀ s s' : SyncMap T, s.started = false → s.data = [] →
    acts.foldlM exec s = some s' →
    s'.started = false ∧ s'.data = [] ∧ s'.queue = s.queue ++ putsOf acts ∧ ∀ a ∈ acts, ∃ k v, a = .put k v := by
  induction acts with
  | nil => intro s s' h1 h2 he; simp at he; subst he; simp [h1, h2, putsOf]
  | cons a acts ih =>
    intro s s' h1 h2 he
    simp only [List.foldlM_cons] at he
    cases a with
    | put k v =>
      simp only [exec] at he
      split at he
      · simp at he
        obtain ⟨a, b, c, d⟩ := ih { s with queue := s.queue ++ [(k, v)] } s' h1 h2 he
        refine ⟨a, b, ?_, ?_⟩
        · rw [c]; simp [putsOf]
        · intro x hx; rcases List.mem_cons.1 hx with rfl | hx
          · exact ⟨k, v, rfl⟩
          · exact d x hx
      · simp at he
    | recv => simp [exec, h1] at he
    | tick => simp [exec, h1] at he

/-- **C53, refuted**: in every execution of an actual program (the writer is never started) `Get` misses every key, however
many puts happened; and once 1000 puts have been made, no further `Put` can ever proceed. -/
theorem c53_syncmap_never_sees_refuted (acts : List (CacheAct T)) (s : SyncMap T) (h : run acts = some s) :
    (∀ k, s.get k = none) ∧
    ((putsOf acts).length = 1000 → ∀ k v, s.exec (.put k v) = none ∧ ∀ a, s.exec a = none) := by
  obtain ⟨h1, h2, h3, -⟩ := run_inv acts new s rfl rfl h
  refine ⟨fun k => by simp [get, h2], fun hl k v => ?_⟩
  have hq : s.queue.length = 1000 := by rw [h3]; simpa [new] using hl
  refine ⟨by simp [exec, hq, chanCap], fun a => ?_⟩
  cases a <;> simp [exec, h1, hq, chanCap]

private theorem fill_step (n : Nat) : ∀ s : SyncMap Nat, s.queue.length + n ≤ 1000 →
    ∃ s', (List.replicate n (CacheAct.put "k" 0)).foldlM exec s = some s' := by
  induction n with
  | zero => intro s _; exact ⟨s, rfl⟩
  | succ n ih =>
    intro s hs
    obtain ⟨s', h'⟩ := ih { s with queue := s.queue ++ [("k", 0)] } (by simp; omega)
    refine ⟨s', ?_⟩
    have : s.queue.length < chanCap := by simp [chanCap]; omega
    simp [List.replicate, exec, this, h']

/-- such an execution with 1000 puts exists. -/
example : ∃ s, run (List.replicate 1000 (CacheAct.put "k" 0)) = some s ∧
    (putsOf (List.replicate 1000 (CacheAct.put "k" 0))).length = 1000 := by
  obtain ⟨s, hs⟩ := fill_step 1000 new (by simp [new])
  refine ⟨s, hs, ?_⟩
  have : ∀ n, (putsOf (List.replicate n (CacheAct.put "k" 0))).length = n := by
    intro n; induction n with
    | zero => rfl
    | succ n ih => simp only [putsOf] at ih ⊢; simp [List.replicate, ih]
  exact this 1000

/-- even if the writer ran, an update of an already published key would be lost: the copy loop lets the old data overwrite
the new. -/
theorem c53_writer_would_lose_updates_refuted :
    (([.put "k" 1, .recv, .tick, .put "k" 2, .recv, .tick] : List (CacheAct Nat)).foldlM exec { started := true }).map
      (fun s => s.get "k") = some (some 1) := by decide

end SyncMap

/-! ### Shard -/

private theorem crcBit_lt {c : Nat} (h : c < 2 ^ 32) : crcBit c < 2 ^ 32 := by
  have h2 : c >>> 1 < 2 ^ 32 := by rw [Nat.shiftRight_eq_div_pow]; omega
  unfold crcBit; split
  · exact Nat.xor_lt_two_pow h2 (by decide)
  · exact h2

private theorem crcByte_lt {c : Nat} (h : c < 2 ^ 32) (b : UInt8) : crcByte c b < 2 ^ 32 := by
  have hb : b.toNat < 2 ^ 32 := Nat.lt_of_lt_of_le (UInt8.toNat_lt b) (by decide)
  unfold crcByte
  exact crcBit_lt (crcBit_lt (crcBit_lt (crcBit_lt (crcBit_lt (crcBit_lt (crcBit_lt (crcBit_lt (Nat.xor_lt_two_pow h hb))))))))

theorem crc32_lt (bs : List UInt8) : crc32 bs < 2 ^ 32 := by
  have : ∀ c, c < 2 ^ 32 → bs.foldl crcByte c < 2 ^ 32 := by
    induction bs with
    | nil => intro c h; exact h
    | cons b bs ih => intro c h; exact ih _ (crcByte_lt h b)
  exact Nat.xor_lt_two_pow (this _ (by decide)) (by decide)

namespace Shard

private theorem new_get (n : Nat) (i : Int) :
    ((List.range n).foldl (fun m (i : Nat) => GoMap.set m (i : Int) []) ([] : GoMap Int (LocalMap T))).get? i =
      if 0 ≤ i ∧ i < n then some [] else none := by
  induction n with
  | zero => rw [if_neg (by omega)]; rfl
  | succ n ih =>
    rw [List.range_succ, List.foldl_append]
    simp only [List.foldl_cons, List.foldl_nil, GoMap.get?_set, ih]
    by_cases h : (n : Int) = i
    · subst h; rw [if_pos rfl, if_pos (by omega)]
    · rw [if_neg h]
      by_cases h2 : 0 ≤ i ∧ i < n
      · rw [if_pos h2, if_pos (by omega)]
      · rw [if_neg h2, if_neg (by omega)]

private theorem goInt64 (key : String) : goInt 64 (crc32 (bytesOf key)) = crc32 (bytesOf key) := by
  have := crc32_lt (bytesOf key)
  unfold goInt
  rw [Int.bmod_eq_of_le] <;> simp <;> omega

/-- every map id `0..fragments-1` is there and no other. -/
private def Full (m : Shard T) : Prop := ∀ i, (m.shard.get? i).isSome = decide (0 ≤ i ∧ i < m.fragments)

private theorem full_new (fragments : Int) : Full (new fragments : Shard T) := by
  intro i
  rw [show (new fragments : Shard T).shard.get? i = _ from new_get fragments.toNat i]
  show _ = decide (0 ≤ i ∧ i < fragments)
  by_cases h : 0 ≤ i ∧ i < fragments
  · rw [if_pos (by omega)]; simp [h]
  · rw [if_neg (by omega)]
    simp only [h, decide_false]; rfl

private theorem id_eq (m : Shard T) (hf : 1 ≤ m.fragments) (full : Full m) (key : String) :
    m.get 64 key = some ((crc32 (bytesOf key) : Int) % m.fragments) := by
  have h0 : m.fragments ≠ 0 := by omega
  have hmod : (crc32 (bytesOf key) : Int).tmod m.fragments = (crc32 (bytesOf key) : Int) % m.fragments :=
    Int.tmod_eq_emod_of_nonneg (by omega)
  have hlo := Int.emod_nonneg (crc32 (bytesOf key) : Int) h0
  have hhi := Int.emod_lt_of_pos (crc32 (bytesOf key) : Int) (show 0 < m.fragments by omega)
  have := full ((crc32 (bytesOf key) : Int) % m.fragments)
  rw [show decide (0 ≤ (crc32 (bytesOf key) : Int) % m.fragments ∧ _ < m.fragments) = true by
    simp only [decide_eq_true_eq]; exact ⟨hlo, hhi⟩] at this
  obtain ⟨x, hx⟩ := Option.isSome_iff_exists.1 this
  simp only [get, getShardId, if_neg h0, goInt64, hmod, bind, Option.bind, hx]

private theorem full_setVia {m m' : Shard T} (full : Full m) {name key : String} {v : T} {bits : Nat}
    (h : m.setVia bits name key v = some m') : Full m' ∧ m'.fragments = m.fragments := by
  unfold setVia at h
  cases hg : m.get bits name with
  | none => simp [hg] at h
  | some i =>
    simp [hg] at h; subst h
    refine ⟨fun j => ?_, rfl⟩
    simp only [GoMap.get?_set]
    split
    · rename_i e; subst e
      have : (m.shard.get? i).isSome = true := by
        unfold get at hg
        cases hs : m.getShardId bits name with
        | none => simp [hs] at hg
        | some x =>
          simp only [hs, bind, Option.bind] at hg
          split at hg
          · rename_i hx; simp at hg; subst hg; simp [hx]
          · simp at hg
      rw [full] at this; simp only [Option.isSome_some]; exact this.symm
    · exact full j

/-- `Set`s made through the shards: (name, key, value). -/
private theorem full_sets (bits : Nat) (sets : List (String × String × T)) : ∀ (m m' : Shard T), Full m →
    sets.foldlM (fun m (s : String × String × T) => m.setVia bits s.1 s.2.1 s.2.2) m = some m' →
    Full m' ∧ m'.fragments = m.fragments := by
  induction sets with
  | nil => intro m m' h he; simp at he; subst he; exact ⟨h, rfl⟩
  | cons s sets ih =>
    intro m m' h he
    simp only [List.foldlM_cons] at he
    cases h1 : m.setVia bits s.1 s.2.1 s.2.2 with
    | none => simp [h1] at he
    | some m1 =>
      simp [h1] at he
      obtain ⟨a, b⟩ := full_setVia h h1
      obtain ⟨c, d⟩ := ih m1 m' a he
      exact ⟨c, d.trans b⟩

/-- **C54** With at least one fragment and 64-bit `int`: after any `Set`s, `Shard.Get(key)` does not panic and returns one of
the `fragments` maps, always the same one for the same key (here: the CRC of the key modulo `fragments`). With `fragments ≤ 0`
every `Get` panics. -/
theorem c54_shard_get_total (fragments : Int) (sets : List (String × String × T)) (m : Shard T)
    (h : sets.foldlM (fun m (s : String × String × T) => m.setVia 64 s.1 s.2.1 s.2.2) (new fragments) = some m) (key : String) :
    (1 ≤ fragments → ∃ i, 0 ≤ i ∧ i < fragments ∧ m.get 64 key = some i ∧ i = (crc32 (bytesOf key) : Int) % fragments) ∧
    (fragments ≤ 0 → m.get 64 key = none) := by
  obtain ⟨full, hf⟩ := full_sets 64 sets _ _ (full_new fragments) h
  have hf' : m.fragments = fragments := hf
  constructor
  · intro h1
    refine ⟨(crc32 (bytesOf key) : Int) % fragments, Int.emod_nonneg _ (by omega), Int.emod_lt_of_pos _ (by omega), ?_, rfl⟩
    rw [id_eq m (by omega) full, hf']
  · intro h0
    unfold get getShardId
    by_cases hz : m.fragments = 0
    · simp [hz]
    · simp only [if_neg hz, bind, Option.bind]
      have := full ((goInt 64 (crc32 (bytesOf key))).tmod m.fragments)
      rw [show decide (0 ≤ (goInt 64 (crc32 (bytesOf key))).tmod m.fragments ∧ _ < m.fragments) = false by
        simp only [decide_eq_false_iff_not]; omega] at this
      split
      · rename_i hx; simp [hx] at this
      · rfl

/-- C54: the 64-bit assumption is needed: on a 32-bit platform `Shard.Get("a")` panics with 3 fragments. -/
theorem c54_32bit_panics_refuted : (new 3 : Shard Nat).get 32 "a" = none := by decide

/-- **C55** One key per shard name: after any sequence of `Shard.Get(k).Set(k, v)` on a new shard map with at least one
fragment, no call panics and `Shard.Get(k).Get(k)` is the last value set for `k`. -/
theorem c55_shard_is_a_map (fragments : Int) (hf : 1 ≤ fragments) (sets : List (String × T)) :
    ∃ m : Shard T, sets.foldlM (fun m (s : String × T) => m.setVia 64 s.1 s.1 s.2) (new fragments) = some m ∧
      ∀ k, m.getVia 64 k k = some (lastPutIn sets k) := by
  have key : ∀ (sets pre : List (String × T)) (m : Shard T), Full m → m.fragments = fragments →
      (∀ k, m.getVia 64 k k = some (lastPutIn pre k)) →
      ∃ m' : Shard T, sets.foldlM (fun m (s : String × T) => m.setVia 64 s.1 s.1 s.2) m = some m' ∧
        ∀ k, m'.getVia 64 k k = some (lastPutIn (pre ++ sets) k) := by
    intro sets
    induction sets with
    | nil => intro pre m _ _ h; exact ⟨m, rfl, by simpa using h⟩
    | cons s sets ih =>
      obtain ⟨k0, v0⟩ := s
      intro pre m full hfr hget
      have hg := fun k => id_eq m (by omega) full k
      let i0 := (crc32 (bytesOf k0) : Int) % m.fragments
      let m1 : Shard T := { m with shard := m.shard.set i0 ((m.shard.getD i0 []).set k0 v0) }
      have hset : m.setVia 64 k0 k0 v0 = some m1 := by simp [setVia, hg, m1, i0]
      obtain ⟨full1, hf1⟩ := full_setVia full hset
      have hget1 : ∀ k, m1.getVia 64 k k = some (lastPutIn (pre ++ [(k0, v0)]) k) := by
        intro k
        rw [lastPutIn_snoc]
        have hk := hget k
        have hg1 : m1.get 64 k = some ((crc32 (bytesOf k) : Int) % m.fragments) := by
          rw [id_eq m1 (by omega) full1]
        simp only [getVia, hg, bind, Option.bind, pure, Option.some.injEq] at hk
        simp only [getVia, hg1, bind, Option.bind, pure, Option.some.injEq, m1]
        rw [GoMap.getD_set]
        by_cases hk0 : k0 = k
        · subst hk0; simp [i0]
        · simp only [hk0, if_false]
          split
          · rename_i hi
            rw [GoMap.get?_set_ne _ _ hk0, hi, hk]
          · exact hk
      obtain ⟨m', h1, h2⟩ := ih (pre ++ [(k0, v0)]) m1 full1 (by rw [hf1]; exact hfr) hget1
      refine ⟨m', by simp [hset, h1], ?_⟩
      intro k; rw [h2]; simp
  have := key sets [] (new fragments) (full_new fragments) rfl ?_
  · simpa using this
  · intro k
    simp only [getVia, id_eq (new fragments) hf (full_new fragments), bind, Option.bind, pure, Option.some.injEq]
    simp only [new, GoMap.getD, new_get]
    split <;> simp [lastPutIn]

example : (([("a", 1), ("b", 2), ("a", 3)] : List (String × Nat)).foldlM
    (fun (m : Shard Nat) s => m.setVia 64 s.1 s.1 s.2) (new 3 : Shard Nat)).bind (fun m => m.getVia 64 "a" "a") = some (some 3) := by decide

/-- **C56, refuted**: a value set through shard name `a` is visible, and can be overwritten, through shard name `c`
(3 fragments; their CRCs agree modulo 3). -/
theorem c56_shards_isolated_refuted : ∃ (m : Shard Nat) (a b key : String), a ≠ b ∧
    (new 3 : Shard Nat).setVia 64 a key 1 = some m ∧ m.getVia 64 b key = some (some 1) := by
  cases h : (new 3 : Shard Nat).setVia 64 "a" "k" 1 with
  | none => exact absurd (congrArg Option.isSome h) (by decide)
  | some m =>
    refine ⟨m, "a", "c", "k", by decide, h, ?_⟩
    have : ((new 3 : Shard Nat).setVia 64 "a" "k" 1).bind (fun m => m.getVia 64 "c" "k") = some (some 1) := by decide
    rw [h] at this; exact this

/-- **C56, partial**: names whose CRCs differ modulo `fragments` are isolated. Missing: names with equal residues. -/
theorem c56_different_residues_isolated_partial (fragments : Int) (hf : 1 ≤ fragments) (sets : List (String × String × T))
    (m m' : Shard T) (h : sets.foldlM (fun m (s : String × String × T) => m.setVia 64 s.1 s.2.1 s.2.2) (new fragments) = some m)
    (a b key key' : String) (v : T)
    (hne : (crc32 (bytesOf a) : Int) % fragments ≠ (crc32 (bytesOf b) : Int) % fragments)
    (hs : m.setVia 64 a key v = some m') : m'.getVia 64 b key' = m.getVia 64 b key' := by
  obtain ⟨full, hfr⟩ := full_sets 64 sets _ _ (full_new fragments) h
  have hfr : m.fragments = fragments := hfr
  obtain ⟨full', hfr'⟩ := full_setVia full hs
  simp only [setVia, id_eq m (by omega) full, bind, Option.bind, pure, Option.some.injEq] at hs
  simp only [getVia, id_eq m (by omega) full, id_eq m' (by omega) full', bind, Option.bind, pure, Option.some.injEq]
  rw [hfr', hfr]
  subst hs
  simp only [hfr, GoMap.getD_set, hne, if_false]

example : (crc32 (bytesOf "a") : Int) % 3 ≠ (crc32 (bytesOf "b") : Int) % 3 := by decide

end Shard
end Goir
