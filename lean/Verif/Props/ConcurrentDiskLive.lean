import Verif.Props.ConcurrentDisk
import Verif.Props.DiskLive
/-!
# C91: several clients on one Disk store — every call completes

No deadlock, no panic, and a bound on the number of steps, for every interleaving of any number of clients. Each client completes its calls even if all the others stop for
ever in the middle of theirs (there is no lock to wait for, and the writers serve everyone).
-/
namespace Goir
open GoMap Spec

namespace CDisk

/-- the steps that do not wait for a ticker and are not a crash, an opening or the merge goroutine's. -/
def prompt : Act → Bool
  | .client .. | .recvM _ | .recvN _ | .recvD _ | .stepM | .stepN | .stepD => true
  | .ix a => match a with | .recv | .create _ | .write | .flushed => true | _ => false
  | _ => false

/-- the steps among these that are client `i`'s, or the writers' own. -/
def serves (i : Nat) : Act → Bool
  | .client j _ | .recvM j | .recvN j | .recvD j => decide (j = i)
  | a => prompt a

theorem serves_prompt {i : Nat} {a : Act} (h : serves i a = true) : prompt a = true := by
  cases a <;> first | rfl | exact h

/-- client `i` has made all its calls, and they have returned. -/
def DoneAt (s : CDisk) (i : Nat) : Prop := ∀ cl, s.clients[i]? = some cl → cl.cur = none ∧ cl.todo = []

/-- all the clients have. -/
def Finished (s : CDisk) : Prop := ∀ cl ∈ s.clients, cl.cur = none ∧ cl.todo = []

instance (s : CDisk) : Decidable (Finished s) := inferInstanceAs (Decidable (∀ cl ∈ s.clients, cl.cur = none ∧ cl.todo = []))

theorem finished_iff {s : CDisk} : Finished s ↔ ∀ i, DoneAt s i := by
  constructor
  · intro h i cl hi
    exact h cl (List.mem_of_getElem? hi)
  · intro h cl hc
    obtain ⟨i, hi, e⟩ := List.mem_iff_getElem.1 hc
    exact h i cl (by rw [List.getElem?_eq_getElem hi, e])

/-! ### how many steps are left -/

/-- of a write, `n` being the number of its terms. -/
def wcost (n : Nat) : WLoc → Nat
  | .acc l => match l with
    | .sizeRead => 17 + 8 * n
    | .sizeWrite _ => 16 + 8 * n
    | .lenRead => 15 + 8 * n
    | .lenWrite _ => 14 + 8 * n
    | .idxLook => 10 + 8 * n
    | .idxNew => 9 + 8 * n
    | .post _ ts => 8 + 4 * n + 4 * ts.length
    | .postNew _ _ ts => 11 + 4 * n + 4 * ts.length
    | .postAdd _ _ _ ts => 11 + 4 * n + 4 * ts.length
    | .nftLook => 7 + 4 * n
    | .term _ ts => 6 + 4 * ts.length
    | .termWrite _ _ _ ts => 9 + 4 * ts.length
    | .nftStore _ => 5
    | _ => 0
  | .msgLen => 13 + 8 * n
  | .msgSize _ => 12 + 8 * n
  | .sendM .. => 11 + 8 * n
  | .sendI _ _ ts => 10 + 4 * n + 4 * ts.length
  | .msgN _ _ ts => 8 + 4 * ts.length
  | .sendN _ _ _ ts => 7 + 4 * ts.length
  | .docGet => 4
  | .docSet _ => 3
  | .docPut _ => 2
  | .sendD _ => 1

/-- of a read. -/
def rcost : RLoc → Nat
  | .get todo _ => 1 + 3 * todo.length
  | .load _ todo _ => 3 + 3 * todo.length
  | .put _ _ todo _ => 2 + 3 * todo.length
  | .field _ _ todo _ => 2 + 3 * todo.length

/-- of a call that has not begun. -/
def opCost : DOp → Nat
  | .write op => 18 + 8 * op.field.tf.keys.length
  | .getFields ids _ => 2 + 3 * ids.length

/-- of the call a client is in. -/
def curCost : Option DCur → Nat
  | none => 0
  | some (.write op loc) => wcost op.field.tf.keys.length loc
  | some (.read _ _ loc) => rcost loc

/-- of a client. -/
def cost (cl : DClient) : Nat := (cl.todo.map opCost).sum + curCost cl.cur

/-- steps left until all the clients have finished and no writer has anything to do before its next tick. -/
def work (s : CDisk) : Nat :=
  (s.clients.map cost).sum + (s.ix.chan.length + Disk.writerLeft s.ix.writer) + Disk.flushLeft s.mx.pc + Disk.flushLeft s.nf.pc + Disk.flushLeft s.fl.pc

theorem cost_set {l : List DClient} {i : Nat} {a b : DClient} (h : l[i]? = some a) : ((l.set i b).map cost).sum + cost a = (l.map cost).sum + cost b := by
  induction l generalizing i with
  | nil => cases h
  | cons x l ih =>
    cases i with
    | zero => cases h; simp; omega
    | succ i =>
      simp only [List.set_cons_succ, List.map_cons, List.sum_cons]
      have := ih h; omega

theorem cost_acc {m m' : CMem} {op : StoreOp} {k : Nat} {l : CMem.Loc} {o : Option CMem.Loc} (hl : diskLoc op l) (he : CMem.exec m op k l = some (m', o)) :
    curCost ((cont l o).map (.write op)) + 1 ≤ wcost op.field.tf.keys.length (.acc l) := by
  cases Conc.exec_eff he with
  | postEnd r => cases op <;> simp [cont, CMem.afterPosts, curCost, wcost] <;> omega
  | postFound r ts key ts' sr hp h => have := hp.length_eq; simp [cont, curCost, wcost] at this ⊢; omega
  | postMissing r ts key ts' hp h => have := hp.length_eq; simp [cont, curCost, wcost] at this ⊢; omega
  | termRead r ts key ts' hp => have := hp.length_eq; simp [cont, curCost, wcost] at this ⊢; omega
  | docSet r => exact hl.elim
  | docNew => exact hl.elim
  | docFound => exact hl.elim
  | docMissing => exact hl.elim
  | _ => simp [cont, curCost, wcost] <;> omega

/-- the writer of postings: its prompt steps use up its work, and never panic. -/
theorem ix_prompt {s s' : IxState} {a : IxState.Act} (hi : IxState.Inv s) (hp : s.proc = .up) (ha : prompt (.ix a) = true) (he : s.exec a = some s') :
    s'.proc = .up ∧ s'.chan.length + Disk.writerLeft s'.writer + 1 ≤ s.chan.length + Disk.writerLeft s.writer := by
  cases a with
  | recv =>
    simp only [IxState.exec] at he; split at he
    · rename_i h1 h2 h3
      cases he; refine ⟨hp, ?_⟩; simp only [h3, List.length_cons]; omega
    · cases he
  | create n =>
    simp only [IxState.exec] at he; split at he
    · rename_i f p rest hw
      obtain ⟨hpp, hsub, -, -⟩ := IxState.writerOk_flushing hi.writer hw
      obtain ⟨b, hb, -⟩ := (hi.sane.buf _ (hsub (f, p) (by simp))).readBack
      split at he
      · rw [hb] at he; cases he
        refine ⟨hp, ?_⟩
        simp only [hw, Disk.writerLeft, IxState.setFiles, List.length_cons]; omega
      · cases he
    · cases he
  | write =>
    simp only [IxState.exec] at he; split at he
    · rename_i f p rest n hw
      obtain ⟨hpp, hsub, -, -⟩ := IxState.writerOk_flushing hi.writer hw
      obtain ⟨b, hb, -⟩ := (hi.sane.buf _ (hsub (f, p) (by simp))).readBack
      rw [hb] at he; cases he
      refine ⟨hp, ?_⟩
      simp only [hw, Disk.writerLeft, IxState.setFiles, List.length_cons]; omega
    · cases he
  | flushed =>
    simp only [IxState.exec] at he; split at he
    · rename_i hw
      cases he; refine ⟨hp, ?_⟩; simp only [hw, Disk.writerLeft, List.length_nil]; omega
    · cases he
  | _ => cases ha

theorem recv_pc {B : Type} {x x' : Flusher B} {k : String} {g : Option B → B} (h : x.recv k g = some x') : x'.pc = x.pc := by
  obtain ⟨-, rfl⟩ := Flusher.recv_some h; rfl

/-- every prompt step does one unit of the work, and the process goes on. -/
theorem work_step {s s' : CDisk} {a : Act} (hk : Ok s) (hu : s.up = true) (ha : prompt a = true) (hs : Step s a s') : work s' + 1 ≤ work s ∧ s'.up = true := by
  have old : ∀ {i : Nat} {cl : DClient} {c : DCur}, s.clients[i]? = some cl → cl.cur = some c → CurOk s.begun c :=
    fun hi hc => hk.cur _ (List.mem_of_getElem? hi) _ hc
  -- a client moves
  have move : ∀ {i : Nat} {cl cl' : DClient}, s.clients[i]? = some cl → s'.clients = s.clients.set i cl' → s'.ix = s.ix → s'.mx.pc = s.mx.pc → s'.nf.pc = s.nf.pc → s'.fl.pc = s.fl.pc → s'.up = s.up →
      cost cl' + 1 ≤ cost cl → work s' + 1 ≤ work s ∧ s'.up = true := by
    intro i cl cl' hi e1 e2 e3 e4 e5 e6 hc
    refine ⟨?_, e6.trans hu⟩
    unfold work
    rw [e1, e2, e3, e4, e5]
    have := cost_set (b := cl') hi
    omega
  have cur : ∀ {i : Nat} {cl : DClient} {c : DCur} {c' : Option DCur}, s.clients[i]? = some cl → cl.cur = some c → s'.clients = s.clients.set i { cl with cur := c' } →
      s'.ix = s.ix → s'.mx.pc = s.mx.pc → s'.nf.pc = s.nf.pc → s'.fl.pc = s.fl.pc → s'.up = s.up → curCost c' + 1 ≤ curCost (some c) → work s' + 1 ≤ work s ∧ s'.up = true := by
    intro i cl c c' hi hc e1 e2 e3 e4 e5 e6 hcc
    exact move hi e1 e2 e3 e4 e5 e6 (by simp only [cost, hc]; omega)
  cases hs with
  | beginWrite hu hi hc ht =>
    refine move hi rfl rfl rfl rfl rfl rfl ?_
    rename_i op rest
    simp only [cost, ht, hc, List.map_cons, List.sum_cons, opCost, curCost]
    cases op <;> simp only [start, wcost] <;> omega
  | beginRead hu hi hc ht =>
    refine move hi rfl rfl rfl rfl rfl rfl ?_
    simp only [cost, ht, hc, List.map_cons, List.sum_cons, opCost, curCost, rcost]; omega
  | acc hu hi hc he hn =>
    refine cur hi hc rfl rfl rfl rfl rfl rfl ?_
    have := cost_acc (old hi hc).2.2 he
    rw [hn] at this; exact this
  | accReturn hu hi hc he hn =>
    refine cur hi hc rfl rfl rfl rfl rfl rfl ?_
    have := cost_acc (old hi hc).2.2 he
    rw [hn] at this; exact this
  | msgLen hu hi hc => exact cur hi hc rfl rfl rfl rfl rfl rfl (by simp only [curCost, wcost]; omega)
  | msgSize hu hi hc => exact cur hi hc rfl rfl rfl rfl rfl rfl (by simp only [curCost, wcost]; omega)
  | @sendI i k cl op r key ts ix hu hi hc he =>
    refine ⟨?_, hu⟩
    simp only [IxState.exec] at he
    split at he
    · cases he
      simp only [work, List.length_append, List.length_cons, List.length_nil]
      have h3 : cost { cl with cur := some (.write op (.acc (.post r ts))) } + 2 = cost cl := by simp only [cost, hc, curCost, wcost]; omega
      have h4 := cost_set (b := { cl with cur := some (.write op (.acc (.post r ts))) }) hi
      omega
    · cases he
  | msgN hu hi hc => exact cur hi hc rfl rfl rfl rfl rfl rfl (by simp only [curCost, wcost]; omega)
  | docHit hu hi hc hr => exact cur hi hc rfl rfl rfl rfl rfl rfl (by simp only [curCost, wcost]; omega)
  | docMiss hu hi hc hr => exact cur hi hc rfl rfl rfl rfl rfl rfl (by simp only [curCost, wcost]; omega)
  | docSet hu hi hc => exact cur hi hc rfl rfl rfl rfl rfl rfl (by simp only [curCost, wcost]; omega)
  | docPut hu hi hc he => exact cur hi hc rfl rfl rfl rfl rfl rfl (by simp only [curCost, wcost]; omega)
  | readEnd hu hi hc => exact cur hi hc rfl rfl rfl rfl rfl rfl (by simp only [curCost, rcost]; omega)
  | readHit hu hi hc hr => exact cur hi hc rfl rfl rfl rfl rfl rfl (by simp only [curCost, rcost, List.length_cons]; omega)
  | readMiss hu hi hc hr => exact cur hi hc rfl rfl rfl rfl rfl rfl (by simp only [curCost, rcost, List.length_cons]; omega)
  | readField hu hi hc => exact cur hi hc rfl rfl rfl rfl rfl rfl (by simp only [curCost, rcost]; omega)
  | readAbsent hu hi hc hl => exact cur hi hc rfl rfl rfl rfl rfl rfl (by simp only [curCost, rcost]; omega)
  | readLoad hu hi hc hl hb => exact cur hi hc rfl rfl rfl rfl rfl rfl (by simp only [curCost, rcost]; omega)
  | readPut hu hi hc he => exact cur hi hc rfl rfl rfl rfl rfl rfl (by simp only [curCost, rcost]; omega)
  | recvM hi hc he => exact cur hi hc rfl rfl (recv_pc he) rfl rfl rfl (by simp only [curCost, wcost]; omega)
  | recvN hi hc he => exact cur hi hc rfl rfl rfl (recv_pc he) rfl rfl (by simp only [curCost, wcost]; omega)
  | recvD hi hc he => exact cur hi hc rfl rfl rfl rfl (recv_pc he) rfl (by simp only [curCost, wcost]; omega)
  | @ix b ix hb hu' he hp =>
    have := (ix_prompt hk.ix (hk.proc hu) ha he).2
    exact ⟨by simp only [work]; omega, hu⟩
  | @ixDown b ix hb hu' he hp =>
    have := (ix_prompt hk.ix (hk.proc hu) ha he).1
    rw [hp] at this; cases this
  | stepM he => have := Disk.step_left he; exact ⟨by simp only [work]; omega, hu⟩
  | stepN he => have := Disk.step_left he; exact ⟨by simp only [work]; omega, hu⟩
  | stepD he => have := Disk.step_left he; exact ⟨by simp only [work]; omega, hu⟩
  | tickM => cases ha
  | tickN => cases ha
  | tickD => cases ha
  | crash => cases ha
  | open_ => cases ha
  | openRest => cases ha

/-! ### the cache never panics -/

/-- the stores are opened with room for at least one document. -/
def Roomy (as : List Act) : Prop := ∀ n progs, Act.openRest n progs ∈ as → 1 ≤ n

theorem capacity {as : List Act} {s : CDisk} (h : run {} as = some s) (hn : Roomy as) (hu : s.up = true) : 1 ≤ s.cache.capacity := by
  induction as using List.reverseRecOn generalizing s with
  | nil => cases h; cases hu
  | append_singleton as a ih =>
    obtain ⟨t, h1, h2⟩ := run_snoc.1 h
    have ih := fun hu => ih h1 (fun n p hm => hn n p (List.mem_append_left _ hm)) hu
    have hk := ok_run h1
    have hs := exec_step h2
    have same : s.up = t.up → s.cache.capacity = t.cache.capacity → 1 ≤ s.cache.capacity := fun e1 e2 => e2 ▸ ih (e1 ▸ hu)
    cases hs with
    | docHit hu hi hc hr => exact same rfl (LRU.get_spec hk.lok _).2.2.1
    | docMiss hu hi hc hr => exact same rfl (LRU.get_spec hk.lok _).2.2.1
    | readHit hu hi hc hr => exact same rfl (LRU.get_spec hk.lok _).2.2.1
    | readMiss hu hi hc hr => exact same rfl (LRU.get_spec hk.lok _).2.2.1
    | docPut hu hi hc he => exact same rfl (LRU.put_spec hk.lok he).2.1
    | readPut hu hi hc he => exact same rfl (LRU.put_spec hk.lok he).2.1
    | ixDown => simp [stop] at hu
    | crash => simp [stop] at hu
    | @openRest n progs size length nft hp hu hm hn' => exact hn n progs (by simp)
    | _ => exact same rfl rfl

end CDisk

open CDisk

/-- **C91 (1).** However the store got here: for every client that has calls to make or to complete, that client or one of the writers can take a step now, without waiting for another client or for a
ticker, and the process does not end by it. There is no deadlock, no client waits for another, and nothing panics. -/
theorem c91_no_deadlock {as : List Act} {s : CDisk} (h : run {} as = some s) (gv : GoValues (written as)) (hn : Roomy as) (hu : s.up = true) {i : Nat} (hd : ¬ DoneAt s i) :
    ∃ a s', serves i a = true ∧ s.exec a = some s' ∧ s'.up = true := by
  have hk := ok_run h
  have gvh : GoValues s.hist := fun op ho => gv op ((hist_written h).1 op ho)
  have hdo := docsOk_run h gvh
  have hfl := flushOk_run h
  have hcap := capacity h hn hu
  have hxu := hk.proc hu
  suffices key : ∃ a s', serves i a = true ∧ s.exec a = some s' by
    obtain ⟨a, s', h1, h2⟩ := key
    exact ⟨a, s', h1, h2, (work_step hk hu (serves_prompt h1) (exec_step h2)).2⟩
  have stepM : s.mx.pc ≠ .idle → ∃ a s', serves i a = true ∧ s.exec a = some s' := by
    intro hp
    obtain ⟨mx, hmx⟩ := Flusher.step_enabled (ser := CtState.serM) hfl.fm
      (fun k v _ => by obtain ⟨b, hb, _⟩ := CtState.serM_spec k v; exact ⟨b, hb⟩) hp
    exact ⟨.stepM, _, rfl, by simp only [exec, hmx, Option.map_some]; rfl⟩
  have stepN : s.nf.pc ≠ .idle → ∃ a s', serves i a = true ∧ s.exec a = some s' := by
    intro hp
    obtain ⟨nf, hnf⟩ := Flusher.step_enabled (ser := CtState.serN) hfl.fn
      (fun k v hv => by obtain ⟨b, hb, _⟩ := CtState.serN_spec k v (hfl.wn k v hv); exact ⟨b, hb⟩) hp
    exact ⟨.stepN, _, rfl, by simp only [exec, hnf, Option.map_some]; rfl⟩
  have stepD : s.fl.pc ≠ .idle → ∃ a s', serves i a = true ∧ s.exec a = some s' := by
    intro hp
    obtain ⟨fl, hf⟩ := Flusher.step_enabled (ser := fun _ r => serializeFieldMap (s.mem.docCells r)) hdo.fin
      (fun k v _ => by obtain ⟨b, hb, _⟩ := (hdo.cell v).ser; exact ⟨b, hb⟩) hp
    exact ⟨.stepD, _, rfl, by simp only [exec, hf, Option.map_some]; rfl⟩
  obtain ⟨cl, hi⟩ : ∃ cl, s.clients[i]? = some cl := by
    cases hi : s.clients[i]? with
    | none => exact absurd (fun cl e => by rw [hi] at e; cases e) hd
    | some cl => exact ⟨cl, rfl⟩
  have serve : serves i (.client i 0) = true := by simp [serves]
  have own : ∀ {op : StoreOp} {loc : WLoc} {t : CDisk} {o : Option WLoc}, cl.cur = some (.write op loc) → s.wexec op 0 loc = some (t, o) → ∃ a s', serves i a = true ∧ s.exec a = some s' := by
    intro op loc t o hc he
    cases o <;> exact ⟨.client i 0, _, serve, by simp only [exec, hu, if_true, client, hi, hc, he]; rfl⟩
  have ownR : ∀ {ids : List String} {name : String} {loc : RLoc} {t : CDisk} {o : RLoc ⊕ GoMap String Field}, cl.cur = some (.read ids name loc) → s.rexec name loc = some (t, o) →
      ∃ a s', serves i a = true ∧ s.exec a = some s' := by
    intro ids name loc t o hc he
    cases o <;> exact ⟨.client i 0, _, serve, by simp only [exec, hu, if_true, client, hi, hc, he]; rfl⟩
  cases hc : cl.cur with
  | none =>
    cases ht : cl.todo with
    | nil => exact absurd (fun cl' e => by rw [hi] at e; cases e; exact ⟨hc, ht⟩) hd
    | cons op rest => cases op <;> exact ⟨.client i 0, _, serve, by simp only [exec, hu, if_true, client, hi, hc, ht]; rfl⟩
  | some c =>
    have curOf : s.curOf i = some c := by simp [curOf, hi, hc]
    cases c with
    | write op loc =>
      cases loc with
      | acc l =>
        obtain ⟨⟨m, o⟩, hx⟩ : ∃ x, CMem.exec s.mem op 0 l = some x := by
          cases l with
          | post r ts => cases ts <;> simp only [CMem.exec, List.getElem?_cons_zero] <;> (try split) <;> exact ⟨_, rfl⟩
          | term r ts => cases ts <;> simp only [CMem.exec, List.getElem?_cons_zero] <;> exact ⟨_, rfl⟩
          | _ => simp only [CMem.exec] <;> (try split) <;> exact ⟨_, rfl⟩
        exact own hc (by simp only [wexec, hx, Option.map_some]; rfl)
      | msgLen => exact own hc (by simp only [wexec]; rfl)
      | msgSize len => exact own hc (by simp only [wexec]; rfl)
      | sendM size len =>
        by_cases hp : s.mx.pc = .idle
        · exact ⟨.recvM i, _, by simp [serves], by simp only [exec, curOf, Flusher.recv, hp, if_true, Option.map_some]; rfl⟩
        · exact stepM hp
      | sendI r key ts =>
        by_cases hcp : s.ix.chan.length < IxState.chanCap
        · exact own hc (by simp only [wexec, IxState.exec, hxu, hcp, and_self, if_true, Option.map_some]; rfl)
        · have back : ∀ a ix, Disk.ixBackground a = true → serves i (.ix a) = true → s.ix.exec a = some ix → ∃ a s', serves i a = true ∧ s.exec a = some s' := by
            intro a ix h1 h2 h3
            exact ⟨.ix a, _, h2, by simp only [exec, h1, hu, true_or, and_self, if_true, h3, Option.map_some]; rfl⟩
          cases hw : s.ix.writer with
          | idle =>
            cases hc : s.ix.chan with
            | nil => rw [hc] at hcp; exact absurd (by decide) hcp
            | cons x xs =>
              obtain ⟨f, t, d⟩ := x
              exact back .recv _ rfl rfl (by simp only [IxState.exec, hxu, hw, hc]; rfl)
          | flushing todo tn =>
            obtain ⟨-, hsub, -, htn⟩ := IxState.writerOk_flushing hk.ix.writer hw
            cases tn with
            | some n =>
              obtain ⟨f, p, r, e, -⟩ := htn n rfl
              subst e
              obtain ⟨b, hb, -⟩ := (hk.ix.sane.buf _ (hsub (f, p) (by simp))).readBack
              exact back .write _ rfl rfl (by simp only [IxState.exec, hw, hb]; rfl)
            | none =>
              cases todo with
              | nil => exact back .flushed _ rfl rfl (by simp only [IxState.exec, hw]; rfl)
              | cons e r =>
                obtain ⟨f, p⟩ := e
                obtain ⟨b, hb, -⟩ := (hk.ix.sane.buf _ (hsub (f, p) (by simp))).readBack
                obtain ⟨n, hnn⟩ := Disk.fresh_name (s.ix.files f).temp
                exact back (.create n) _ rfl rfl (by simp only [IxState.exec, hw, hnn, if_true, hb]; rfl)
      | msgN r key ts => exact own hc (by simp only [wexec]; rfl)
      | sendN r key n ts =>
        by_cases hp : s.nf.pc = .idle
        · exact ⟨.recvN i, _, by simp [serves], by simp only [exec, curOf, Flusher.recv, hp, if_true, Option.map_some]; rfl⟩
        · exact stepN hp
      | docGet =>
        cases hg : s.cache.get op.doc with
        | mk c x => cases x <;> exact own hc (by simp only [wexec, hg]; rfl)
      | docSet r => exact own hc (by simp only [wexec]; rfl)
      | docPut r =>
        obtain ⟨c, hp⟩ := LRU.put_some hk.lok hcap op.doc r
        exact own hc (by simp only [wexec, hp, Option.map_some]; rfl)
      | sendD r =>
        by_cases hp : s.fl.pc = .idle
        · exact ⟨.recvD i, _, by simp [serves], by simp only [exec, curOf, Flusher.recv, hp, if_true, Option.map_some]; rfl⟩
        · exact stepD hp
    | read ids name loc =>
      cases loc with
      | get todo out =>
        cases todo with
        | nil => exact ownR hc (by simp only [rexec]; rfl)
        | cons id todo =>
          cases hg : s.cache.get id with
          | mk c x => cases x <;> exact ownR hc (by simp only [rexec, hg]; rfl)
      | field id r todo out => exact ownR hc (by simp only [rexec]; rfl)
      | load id todo out =>
        cases hl : s.fl.cur id with
        | none => exact ownR hc (by simp only [rexec, load, show (s.fl.file id).cur = none from hl]; rfl)
        | some c =>
          obtain ⟨b, rfl, m, hm, -⟩ := hdo.file id c hl
          exact ownR hc (by simp only [rexec, load, show (s.fl.file id).cur = some (.full b) from hl, hm, Option.map_some]; rfl)
      | put id r todo out =>
        obtain ⟨c, hp⟩ := LRU.put_some hk.lok hcap id r
        exact ownR hc (by simp only [rexec, hp, Option.map_some]; rfl)

/-- **C91 (2).** The number of such steps is bounded: however the clients and the writers take turns, there are at most `work s` of them before a ticker has to fire. -/
theorem c91_bounded {as bs : List Act} {s s' : CDisk} (h : run {} as = some s) (hu : s.up = true) (hb : ∀ b ∈ bs, prompt b = true) (hr : s.run bs = some s') :
    bs.length + work s' ≤ work s ∧ s'.up = true := by
  induction bs generalizing as s with
  | nil => cases hr; exact ⟨by simp, hu⟩
  | cons b bs ih =>
    obtain ⟨t, h1, h2⟩ := run_cons.1 hr
    have h3 := work_step (ok_run h) hu (hb b (by simp)) (exec_step h1)
    have h4 := ih (as := as ++ [b]) (run_snoc.2 ⟨s, h, h1⟩) h3.2 (fun x hx => hb x (by simp [hx])) h2
    exact ⟨by simp only [List.length_cons]; omega, h4.2⟩

namespace CDisk

theorem prompt_prog {b : Act} (hb : prompt b = true) : written [b] = [] ∧ ∀ n progs, b ≠ .openRest n progs := by
  cases b <;> first | exact ⟨rfl, fun _ _ e => by cases e⟩ | cases hb

theorem extend {as bs : List Act} (hb : ∀ b ∈ bs, prompt b = true) : written (as ++ bs) = written as ∧ (Roomy as → Roomy (as ++ bs)) := by
  induction bs generalizing as with
  | nil => rw [List.append_nil]; exact ⟨rfl, id⟩
  | cons b bs ih =>
    obtain ⟨h1, h2⟩ := prompt_prog (hb b (by simp))
    obtain ⟨h3, h4⟩ := ih (as := as ++ [b]) fun x hx => hb x (by simp [hx])
    rw [show as ++ b :: bs = as ++ [b] ++ bs by simp]
    refine ⟨by rw [h3, written_append, h1, List.append_nil], fun hr => h4 fun n progs hm => ?_⟩
    rcases List.mem_append.1 hm with hm | hm
    · exact hr n progs hm
    · exact absurd (List.mem_singleton.1 hm).symm (h2 n progs)

end CDisk

/-- **C91 (3).** So under every schedule the calls of all the clients complete: a schedule of such steps that cannot be continued has reached a store whose clients have all finished (and by (2) every
schedule stops). -/
theorem c91_every_schedule {as bs : List Act} {s s' : CDisk} (h : run {} as = some s) (gv : GoValues (written as)) (hn : Roomy as) (hu : s.up = true)
    (hb : ∀ b ∈ bs, prompt b = true) (hr : s.run bs = some s') (hmax : ∀ a, prompt a = true → s'.exec a = none) : Finished s' := by
  rw [finished_iff]
  intro i
  obtain ⟨h1, h2⟩ := extend (as := as) hb
  have hu' := (c91_bounded h hu hb hr).2
  by_cases hd : DoneAt s' i
  · exact hd
  · obtain ⟨a, t, g1, g2, -⟩ := c91_no_deadlock (as := as ++ bs) (s := s') (by rw [run_append, h]; exact hr) (by rw [h1]; exact gv) (h2 hn) hu' hd
    rw [hmax a (serves_prompt g1)] at g2; cases g2

/-- **C91 (4).** And each client can complete its calls alone: from every state there is a schedule, with steps of that client and of the writers only, after which it has finished. -/
theorem c91_alone {as : List Act} {s : CDisk} (h : run {} as = some s) (gv : GoValues (written as)) (hn : Roomy as) (hu : s.up = true) (i : Nat) :
    ∃ bs s', (∀ b ∈ bs, serves i b = true) ∧ s.run bs = some s' ∧ s'.up = true ∧ DoneAt s' i := by
  generalize hw : work s = k
  induction k using Nat.strongRecOn generalizing as s with
  | _ k ih =>
    by_cases hd : DoneAt s i
    · exact ⟨[], s, by simp, rfl, hu, hd⟩
    · obtain ⟨a, t, g1, g2, g3⟩ := c91_no_deadlock h gv hn hu hd
      have hp := serves_prompt g1
      have hlt := (work_step (ok_run h) hu hp (exec_step g2)).1
      obtain ⟨e1, e2⟩ := extend (as := as) (bs := [a]) (by simpa using hp)
      obtain ⟨bs, s', f1, f2, f3⟩ := ih (work t) (by omega) (as := as ++ [a]) (run_snoc.2 ⟨s, h, g2⟩) (by rw [e1]; exact gv) (e2 hn) g3 rfl
      refine ⟨a :: bs, s', ?_, run_cons.2 ⟨t, g2, f2⟩, f3⟩
      intro b hb
      rcases List.mem_cons.1 hb with rfl | hb
      · exact g1
      · exact f1 b hb

/-- the hypotheses are met in the middle of two saves, one client waiting for the metrics writer, which is flushing. -/
example : ∃ s, run {} (openEmpty 5 [[.write (.save "a" ⟨"title", 1, [("x", 1)]⟩)], [.write (.save "b" ⟨"title", 1, [("x", 1)]⟩), .getFields ["a"] "title"]] ++
    (turns 7 ++ [.recvM 0, .tickM ["title"], .stepM] ++ List.replicate 3 (.client 0 0))) = some s ∧
    s.up = true ∧ s.curOf 1 = some (.write (.save "b" ⟨"title", 1, [("x", 1)]⟩) (.sendM 1 1)) ∧ s.exec (.recvM 1) = none ∧ ¬ Finished s ∧ work s = 46 := by
  obtain ⟨s, h1, h2⟩ := exists_of_run (o := run {} (openEmpty 5 [[.write (.save "a" ⟨"title", 1, [("x", 1)]⟩)], [.write (.save "b" ⟨"title", 1, [("x", 1)]⟩), .getFields ["a"] "title"]] ++
    (turns 7 ++ [.recvM 0, .tickM ["title"], .stepM] ++ List.replicate 3 (.client 0 0)))) (P := fun s => s.up = true ∧
      s.curOf 1 = some (.write (.save "b" ⟨"title", 1, [("x", 1)]⟩) (.sendM 1 1)) ∧ (s.exec (.recvM 1)).isNone = true ∧ ¬ Finished s ∧ work s = 46) (by decide +kernel)
  exact ⟨s, h1, h2.1, h2.2.1, Option.isNone_iff_eq_none.1 h2.2.2.1, h2.2.2.2⟩

end Goir
