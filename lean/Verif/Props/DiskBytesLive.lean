import Verif.Props.DiskBytesDocs
import Verif.Props.ConcurrentDiskLive
/-!
# C118: every call completes, on the bytes (C91)
-/
namespace Goir
open GoMap Spec

namespace CDisk

/-- a client's own step, or one in which it hands over a message. -/
def talk : Act → Bool
  | .client .. | .recvM _ | .recvN _ | .recvD _ => true
  | _ => false

theorem talk_frame {s s' : CDisk} {act : Act} (ht : talk act = true) (hs : Step s act s') :
    s'.ix.writer = s.ix.writer ∧ s'.mx.pc = s.mx.pc ∧ s'.nf.pc = s.nf.pc ∧ s'.fl.pc = s.fl.pc ∧ s'.up = s.up := by
  cases hs <;> first | cases ht | skip
  case sendI he =>
    simp only [IxState.exec] at he
    split at he
    · cases he; exact ⟨rfl, rfl, rfl, rfl, rfl⟩
    · cases he
  case recvM he => exact ⟨rfl, recv_pc he, rfl, rfl, rfl⟩
  case recvN he => exact ⟨rfl, rfl, recv_pc he, rfl, rfl⟩
  case recvD he => exact ⟨rfl, rfl, rfl, recv_pc he, rfl⟩
  all_goals exact ⟨rfl, rfl, rfl, rfl, rfl⟩

end CDisk

section
variable {root : Path} {D : String → Prop} {s : BDisk} {a : CDisk}

/-- a client's step that reads no file is possible on the bytes if it is with objects. -/
theorem client_back (h : BRel root D s a) {i k : Nat} {a' : CDisk} (hl : ∀ ids name id todo out, s.d.curOf i ≠ some (.read ids name (.load id todo out))) (he : a.exec (.client i k) = some a') :
    ∃ d', s.d.exec (.client i k) = some d' := by
  have hs := CDisk.exec_step he
  clear he
  have hi' : ∀ {j : Nat} {cl : DClient}, a.clients[j]? = some cl → s.d.clients[j]? = some cl := fun e => by rw [← h.clients]; exact e
  have hu' : a.up = true → s.d.up = true := fun e => by rw [← h.up]; exact e
  have ev : ∀ {x}, a.cache.val x = s.d.cache.val x := by rw [h.cache]; intro x; rfl
  cases hs with
  | beginWrite hu hi hc ht => exact ⟨_, CDisk.step_exec (.beginWrite (hu' hu) (hi' hi) hc ht)⟩
  | beginRead hu hi hc ht => exact ⟨_, CDisk.step_exec (.beginRead (hu' hu) (hi' hi) hc ht)⟩
  | acc hu hi hc he hn =>
    obtain ⟨m1, e1, e2⟩ := h.mem.symm.exec he
    exact ⟨_, CDisk.step_exec (.acc (hu' hu) (hi' hi) hc e1 hn)⟩
  | accReturn hu hi hc he hn =>
    obtain ⟨m1, e1, e2⟩ := h.mem.symm.exec he
    exact ⟨_, CDisk.step_exec (.accReturn (hu' hu) (hi' hi) hc e1 hn)⟩
  | msgLen hu hi hc => exact ⟨_, CDisk.step_exec (.msgLen (hu' hu) (hi' hi) hc)⟩
  | msgSize hu hi hc => exact ⟨_, CDisk.step_exec (.msgSize (hu' hu) (hi' hi) hc)⟩
  | sendI hu hi hc he =>
    simp only [IxState.exec] at he
    split at he
    · rename_i hg
      have hg' : s.d.ix.proc = .up ∧ s.d.ix.chan.length < IxState.chanCap := by rw [← h.iproc, ← h.ichan]; exact hg
      exact ⟨_, CDisk.step_exec (.sendI (hu' hu) (hi' hi) hc (by simp only [IxState.exec]; rw [if_pos hg']))⟩
    · cases he
  | msgN hu hi hc => exact ⟨_, CDisk.step_exec (.msgN (hu' hu) (hi' hi) hc)⟩
  | docHit hu hi hc hr => exact ⟨_, CDisk.step_exec (.docHit (hu' hu) (hi' hi) hc (ev ▸ hr))⟩
  | docMiss hu hi hc hr => exact ⟨_, CDisk.step_exec (.docMiss (hu' hu) (hi' hi) hc (ev ▸ hr))⟩
  | docSet hu hi hc => exact ⟨_, CDisk.step_exec (.docSet (hu' hu) (hi' hi) hc)⟩
  | docPut hu hi hc he => exact ⟨_, CDisk.step_exec (.docPut (hu' hu) (hi' hi) hc (by rw [← h.cache]; exact he))⟩
  | readEnd hu hi hc => exact ⟨_, CDisk.step_exec (.readEnd (hu' hu) (hi' hi) hc)⟩
  | readHit hu hi hc hr => exact ⟨_, CDisk.step_exec (.readHit (hu' hu) (hi' hi) hc (ev ▸ hr))⟩
  | readMiss hu hi hc hr => exact ⟨_, CDisk.step_exec (.readMiss (hu' hu) (hi' hi) hc (ev ▸ hr))⟩
  | readField hu hi hc => exact ⟨_, CDisk.step_exec (.readField (hu' hu) (hi' hi) hc)⟩
  | readAbsent hu hi hc => exact absurd (show s.d.curOf i = _ by simp only [CDisk.curOf, hi' hi, Option.bind_some]; exact hc) (hl _ _ _ _ _)
  | readLoad hu hi hc => exact absurd (show s.d.curOf i = _ by simp only [CDisk.curOf, hi' hi, Option.bind_some]; exact hc) (hl _ _ _ _ _)
  | readPut hu hi hc he => exact ⟨_, CDisk.step_exec (.readPut (hu' hu) (hi' hi) hc (by rw [← h.cache]; exact he))⟩

section
variable {B : Type} {mk : String → Slot} {fs : FS} {fl afl afl' : Flusher B} {sv : Option (SaveCall × SavePc)}

theorem FlRel.idle_back (h : FlRel root D mk fs fl sv afl) (hp : afl.pc = .idle) : fl.pc = .idle := by
  cases sv with
  | none => rw [← hp]; exact (show afl.pc = fl.pc from h.pc).symm
  | some x =>
    obtain ⟨c, pc⟩ := x
    obtain ⟨k, rest, b, apc, h1, h2, _⟩ := h.pc
    rw [hp] at h2; cases h2

theorem FlRel.recv_back (h : FlRel root D mk fs fl sv afl) {k : String} {p : Option B → B} (he : afl.recv k p = some afl') : ∃ fl', fl.recv k p = some fl' := by
  unfold Flusher.recv at he
  split at he
  · rename_i hp
    exact ⟨_, by unfold Flusher.recv; rw [if_pos (h.idle_back hp)]⟩
  · cases he

/-- a writer that is not idle can go on; only its serializer can end the process. -/
theorem flush_back (hD : Ids D) {A : Slot → SFile} {T : String → GoMap String Content} {K : List String} (z : Bytes → Bytes) {dir : String → Path} {name : String → String} {ser : String → B → Option Bytes} {aser : String → B → Option FB.Buf}
    (h : FlRel root D mk fs fl sv afl) (hF : FRel root D fs A T K) (hmk : ∀ k, (mk k).Valid D → ∃ fs1, fs.mkdirAll (dir k) = some fs1) (hbuf : ∀ k v, afl.buf.get? k = some v → (mk k).Valid D)
    (hns : ∀ k rest b pc, fl.pc ≠ .saving k rest b pc) (he : afl.step aser = some afl') :
    ∃ fs' r, BDisk.flush z dir name ser fs fl sv = some (fs', r) ∧ (r.isSome = true ∨ ∃ k v, fl.buf.get? k = some v ∧ ser k v = none) := by
  cases sv with
  | none =>
    have hpc : afl.pc = fl.pc := h.pc
    unfold Flusher.step at he
    rw [hpc] at he
    unfold BDisk.flush
    match hp : fl.pc with
    | .idle => rw [hp] at he; cases he
    | .saving k rest b pc => exact absurd hp (hns k rest b pc)
    | .flushing [] => exact ⟨_, _, rfl, .inl rfl⟩
    | .flushing (k :: rest) =>
      rw [hp] at he
      simp only at he ⊢
      cases hv : fl.buf.get? k with
      | none => rw [h.buf, hv] at he; cases he
      | some v =>
        obtain ⟨fs1, m1⟩ := hmk k (hbuf k v (by rw [h.buf]; exact hv))
        simp only [m1]
        cases hr : ser k v with
        | none => exact ⟨_, _, rfl, .inr ⟨k, v, hv, hr⟩⟩
        | some raw => exact ⟨_, _, rfl, .inl rfl⟩
  | some x =>
    obtain ⟨c, pc⟩ := x
    obtain ⟨k, rest, b, apc, h1, h2, h3, h4, h5, h6⟩ := h.pc
    by_cases hdone : pc = .done
    · subst hdone
      exact ⟨fs, some ({ fl with buf := fl.buf.del k, pc := .flushing rest }, none), by simp only [BDisk.flush, h1], .inl rfl⟩
    · have hst : ∃ y, c.step (fs, pc) = some y := by
        cases pc with
        | done => exact absurd rfl hdone
        | failed => exact h6.2.2.elim
        | _ => simp only [SaveCall.step]; (repeat' split) <;> exact ⟨_, rfl⟩
      obtain ⟨⟨fs1, pc'⟩, hst⟩ := hst
      have hs := hF.slot (mk k) h3
      rw [← h4, ← h5] at hs
      obtain ⟨hnf, -⟩ := save_step (h5 ▸ Slot.plain hD h3) hs h6 hst
      refine ⟨fs1, some (fl, some (c, pc')), ?_, .inl rfl⟩
      cases pc <;> first | exact absurd rfl hdone | (simp only [BDisk.flush, hst])

end

/-! ### the loops of the store with bytes are never at the system calls of the store with objects -/

/-- a writer is idle or in its loop. -/
def Plain {B : Type} (fl : Flusher B) : Prop := ∀ k rest b pc, fl.pc ≠ .saving k rest b pc

structure PlainLoops (d : CDisk) : Prop where
  mx : Plain d.mx
  nf : Plain d.nf
  fl : Plain d.fl

theorem plain_killed {B : Type} (fl : Flusher B) : Plain fl.killed := fun _ _ _ _ e => by cases e

theorem plainLoops_stop (d : CDisk) (ix : IxState) : PlainLoops (d.stop ix) := ⟨plain_killed _, plain_killed _, plain_killed _⟩

theorem plain_recv {B : Type} {x x' : Flusher B} {k : String} {g : Option B → B} (hp : Plain x) (h : x.recv k g = some x') : Plain x' := by
  intro a b c e
  rw [CDisk.recv_pc h]; exact hp a b c e

theorem plain_tick {B : Type} {x x' : Flusher B} {o : List String} (h : x.tick o = some x') : Plain x' := by
  unfold Flusher.tick at h
  split at h
  · cases h; exact fun _ _ _ _ e => by cases e
  · cases h

theorem plain_flush {B : Type} {z : Bytes → Bytes} {dir : String → Path} {name : String → String} {ser : String → B → Option Bytes} {fs fs' : FS} {fl fl' : Flusher B} {sv sv' : Option (SaveCall × SavePc)}
    (hp : Plain fl) (h : BDisk.flush z dir name ser fs fl sv = some (fs', some (fl', sv'))) : Plain fl' := by
  have fresh : ∀ {x : FlushPc} {b : GoMap String B}, (∀ k rest b pc, x ≠ .saving k rest b pc) → Plain { fl with buf := b, pc := x } := fun h => h
  unfold BDisk.flush at h
  split at h
  · split at h
    · cases h; exact fun _ _ _ _ e => by cases e
    · split at h
      · cases h
      · split at h
        · cases h
        · split at h <;> cases h
          exact hp
    · cases h
  · split at h
    · cases h; exact fun _ _ _ _ e => by cases e
    · cases h
  · split at h
    · cases h
    · cases h
    · cases h; exact hp

theorem plainLoops_step {s s' : CDisk} {act : CDisk.Act} (hp : PlainLoops s) (hs : CDisk.Step s act s') (h : act ≠ .stepM ∧ act ≠ .stepN ∧ act ≠ .stepD) : PlainLoops s' := by
  cases hs <;> first | exact absurd rfl h.1 | exact absurd rfl h.2.1 | exact absurd rfl h.2.2 | skip
  case recvM he => exact ⟨plain_recv hp.mx he, hp.nf, hp.fl⟩
  case recvN he => exact ⟨hp.mx, plain_recv hp.nf he, hp.fl⟩
  case recvD he => exact ⟨hp.mx, hp.nf, plain_recv hp.fl he⟩
  case tickM he => exact ⟨plain_tick he, hp.nf, hp.fl⟩
  case tickN he => exact ⟨hp.mx, plain_tick he, hp.fl⟩
  case tickD he => exact ⟨hp.mx, hp.nf, plain_tick he⟩
  all_goals first | exact plainLoops_stop _ _ | exact ⟨hp.mx, hp.nf, hp.fl⟩

theorem plainLoops_kill (s : BDisk) : PlainLoops s.kill.d := plainLoops_stop _ _

theorem plainLoops_merge {z : Bytes → Bytes} {s s' : BDisk} (hp : PlainLoops s.d) (he : s.mergeStep z root = some s') : PlainLoops s'.d := by
  have same : ∀ {ix : IxState}, PlainLoops { s.d with ix := ix } := ⟨hp.mx, hp.nf, hp.fl⟩
  have err : ∀ {t : BDisk}, PlainLoops t.d → PlainLoops t.loadError.d := by
    intro t ht
    unfold BDisk.loadError
    split
    · exact plainLoops_kill _
    · exact ⟨ht.mx, ht.nf, ht.fl⟩
  unfold BDisk.mergeStep at he
  repeat' split at he
  all_goals first
    | (cases he; done)
    | (cases he; first | exact plainLoops_kill _ | exact same | exact err hp | exact hp)

theorem plainLoops_exec {z : Bytes → Bytes} {s s' : BDisk} {act : CDisk.Act} (hp : PlainLoops s.d) (he : s.exec z root act = some s') : PlainLoops s'.d := by
  have one : ∀ {act : CDisk.Act} {s' : BDisk}, (act ≠ .stepM ∧ act ≠ .stepN ∧ act ≠ .stepD) → (s.d.exec act).map (fun d => { s with d := d }) = some s' → PlainLoops s'.d := by
    intro act s' hn he
    obtain ⟨d', h1, rfl⟩ := Option.map_eq_some_iff.1 he
    exact plainLoops_step hp (CDisk.exec_step h1) hn
  cases act with
  | client i k =>
    simp only [BDisk.exec] at he
    split at he
    · split at he
      · cases he
        unfold BDisk.readDoc
        split
        · exact plainLoops_kill _
        · exact ⟨hp.mx, hp.nf, hp.fl⟩
        · exact ⟨hp.mx, hp.nf, hp.fl⟩
      · cases he
    · exact one (by simp) he
  | recvM i => exact one (by simp) he
  | recvN i => exact one (by simp) he
  | recvD i => exact one (by simp) he
  | tickM o => exact one (by simp) he
  | tickN o => exact one (by simp) he
  | tickD o => exact one (by simp) he
  | stepM =>
    obtain ⟨⟨fs', r⟩, hf, rfl⟩ := Option.map_eq_some_iff.1 he
    cases r with
    | none => exact plainLoops_kill _
    | some x => exact ⟨plain_flush hp.mx hf, hp.nf, hp.fl⟩
  | stepN =>
    obtain ⟨⟨fs', r⟩, hf, rfl⟩ := Option.map_eq_some_iff.1 he
    cases r with
    | none => exact plainLoops_kill _
    | some x => exact ⟨hp.mx, plain_flush hp.nf hf, hp.fl⟩
  | stepD =>
    obtain ⟨⟨fs', r⟩, hf, rfl⟩ := Option.map_eq_some_iff.1 he
    cases r with
    | none => exact plainLoops_kill _
    | some x => exact ⟨hp.mx, hp.nf, plain_flush hp.fl hf⟩
  | crash =>
    simp only [BDisk.exec] at he
    split at he <;> cases he
    exact plainLoops_kill _
  | open_ =>
    simp only [BDisk.exec] at he
    split at he <;> cases he
    exact ⟨hp.mx, hp.nf, hp.fl⟩
  | openRest n progs =>
    simp only [BDisk.exec] at he
    repeat' split at he
    all_goals first
      | (cases he; done)
      | (cases he; first | exact plainLoops_kill _ | exact ⟨hp.mx, hp.nf, hp.fl⟩)
  | ix b =>
    simp only [BDisk.exec] at he
    split at he
    · cases b with
      | recv => exact one (by simp) he
      | tick o => exact one (by simp) he
      | flushed => exact one (by simp) he
      | merge => exact plainLoops_merge hp he
      | startMerge =>
        simp only [BDisk.ixExec] at he
        split at he <;> cases he
        exact ⟨hp.mx, hp.nf, hp.fl⟩
      | create n =>
        simp only [BDisk.ixExec, BDisk.create] at he
        repeat' split at he
        all_goals first
          | (cases he; done)
          | (cases he; first | exact plainLoops_kill _ | exact ⟨hp.mx, hp.nf, hp.fl⟩)
      | write =>
        simp only [BDisk.ixExec, BDisk.write] at he
        split at he
        · split at he
          · cases he; exact hp
          · cases he; exact ⟨hp.mx, hp.nf, hp.fl⟩
        · cases he
      | _ => cases he
    · cases he

/-- while the index writer writes a fragment, it is known which. -/
def FragOk (s : BDisk) : Prop := ∀ l n, s.d.ix.writer = .flushing l (some n) → s.frag ≠ none

theorem fragOk_kill (s : BDisk) : FragOk s.kill := fun _ _ e => by cases e

theorem fragOk_same {s s' : BDisk} (h : FragOk s) (e1 : s'.d.ix.writer = s.d.ix.writer) (e2 : s'.frag = s.frag) : FragOk s' := fun l n e => by rw [e2]; exact h l n (e1 ▸ e)

theorem writer_step {s s' : CDisk} {act : CDisk.Act} (hs : CDisk.Step s act s') (hc : act ≠ .crash ∧ act ≠ .open_) (h : ∀ b, act = .ix b → b = .recv ∨ (∃ o, b = .tick o) ∨ b = .flushed) :
    s'.ix.writer = s.ix.writer ∨ ∀ l n, s'.ix.writer ≠ .flushing l (some n) := by
  have ix : ∀ {b : IxState.Act} {x : IxState}, (b = .recv ∨ (∃ o, b = .tick o) ∨ b = .flushed) → s.ix.exec b = some x → x.writer = s.ix.writer ∨ ∀ l n, x.writer ≠ .flushing l (some n) := by
    intro b x hb he
    rcases hb with rfl | ⟨o, rfl⟩ | rfl <;> (simp only [IxState.exec] at he; split at he <;> cases he)
    · exact .inl rfl
    · exact .inr fun _ _ e => by cases e
    · exact .inr fun _ _ e => by cases e
  cases hs with
  | sendI hu hi hc he =>
    simp only [IxState.exec] at he
    split at he
    · cases he; exact .inl rfl
    · cases he
  | ix hb hu he hp => exact ix (h _ rfl) he
  | ixDown hb hu he hp => exact ix (h _ rfl) he
  | crash he => exact absurd rfl hc.1
  | open_ he => exact absurd rfl hc.2
  | _ => exact .inl rfl

theorem fragOk_merge {z : Bytes → Bytes} {s s' : BDisk} (hp : FragOk s) (he : s.mergeStep z root = some s') : FragOk s' := by
  have err : ∀ {t : BDisk}, FragOk t → FragOk t.loadError := by
    intro t ht
    unfold BDisk.loadError
    split
    · exact fragOk_kill _
    · exact ht
  unfold BDisk.mergeStep at he
  repeat' split at he
  all_goals first
    | (cases he; done)
    | (cases he; first | exact fragOk_kill _ | exact err hp | exact hp)

theorem fragOk_exec {z : Bytes → Bytes} {s s' : BDisk} {act : CDisk.Act} (hp : FragOk s) (he : s.exec z root act = some s') : FragOk s' := by
  have one : ∀ {act : CDisk.Act} {s' : BDisk}, (act ≠ .crash ∧ act ≠ .open_) → (∀ b, act = .ix b → b = .recv ∨ (∃ o, b = .tick o) ∨ b = .flushed) → (s.d.exec act).map (fun d => { s with d := d }) = some s' → FragOk s' := by
    intro act s' hn hb he
    obtain ⟨d', h1, rfl⟩ := Option.map_eq_some_iff.1 he
    rcases writer_step (CDisk.exec_step h1) hn hb with e | e
    · exact fragOk_same hp e rfl
    · exact fun l n e' => absurd e' (e l n)
  cases act with
  | client i k =>
    simp only [BDisk.exec] at he
    split at he
    · split at he
      · cases he
        unfold BDisk.readDoc
        split
        · exact fragOk_kill _
        · exact hp
        · exact hp
      · cases he
    · exact one (by simp) (by simp) he
  | recvM i => exact one (by simp) (by simp) he
  | recvN i => exact one (by simp) (by simp) he
  | recvD i => exact one (by simp) (by simp) he
  | tickM o => exact one (by simp) (by simp) he
  | tickN o => exact one (by simp) (by simp) he
  | tickD o => exact one (by simp) (by simp) he
  | stepM =>
    obtain ⟨⟨fs', r⟩, hf, rfl⟩ := Option.map_eq_some_iff.1 he
    cases r with
    | none => exact fragOk_kill _
    | some x => exact hp
  | stepN =>
    obtain ⟨⟨fs', r⟩, hf, rfl⟩ := Option.map_eq_some_iff.1 he
    cases r with
    | none => exact fragOk_kill _
    | some x => exact hp
  | stepD =>
    obtain ⟨⟨fs', r⟩, hf, rfl⟩ := Option.map_eq_some_iff.1 he
    cases r with
    | none => exact fragOk_kill _
    | some x => exact hp
  | crash =>
    simp only [BDisk.exec] at he
    split at he <;> cases he
    exact fragOk_kill _
  | open_ =>
    simp only [BDisk.exec] at he
    split at he <;> cases he
    exact hp
  | openRest n progs =>
    simp only [BDisk.exec] at he
    repeat' split at he
    all_goals first
      | (cases he; done)
      | (cases he; first | exact fragOk_kill _ | exact hp)
  | ix b =>
    simp only [BDisk.exec] at he
    split at he
    · cases b with
      | recv => exact one (by simp) (by simp) he
      | tick o => exact one (by simp) (by simp) he
      | flushed => exact one (by simp) (by simp) he
      | merge => exact fragOk_merge hp he
      | startMerge =>
        simp only [BDisk.ixExec] at he
        split at he <;> cases he
        exact hp
      | create n =>
        simp only [BDisk.ixExec, BDisk.create] at he
        repeat' split at he
        all_goals first
          | (cases he; done)
          | (cases he; first | exact fragOk_kill _ | exact fun _ _ _ e => by cases e)
      | write =>
        simp only [BDisk.ixExec, BDisk.write] at he
        repeat' split at he
        all_goals first
          | (cases he; done)
          | (rename_i hlt; cases he; intro l n e; first | (simp at e; done) | simp)
      | _ => cases he
    · cases he

theorem fragOk_run {z : Bytes → Bytes} {as : List CDisk.Act} {s s' : BDisk} (hp : FragOk s) (h : s.run z root as = some s') : FragOk s' := by
  induction as generalizing s with
  | nil => cases h; exact hp
  | cons act as ih =>
    obtain ⟨t, h1, h2⟩ := brun_cons.1 h
    exact ih (fragOk_exec hp h1) h2

theorem plainLoops_run {z : Bytes → Bytes} {as : List CDisk.Act} {s s' : BDisk} (hp : PlainLoops s.d) (h : s.run z root as = some s') : PlainLoops s'.d := by
  induction as generalizing s with
  | nil => cases h; exact hp
  | cons act as ih =>
    obtain ⟨t, h1, h2⟩ := brun_cons.1 h
    exact ih (plainLoops_exec hp h1) h2

end

namespace BDisk
open CDisk
variable {root : Path} {D : String → Prop} {s : BDisk} {a : CDisk}

/-- something that waits to be written is larger than a serializer can make (1 GiB, C111). -/
def TooBig (s : BDisk) : Prop :=
  (∃ f v, s.d.mx.buf.get? f = some v ∧ FBB.serializeFieldSizeLength f (toInt32 v.1) (toInt32 v.2) = none) ∨
  (∃ f v, s.d.nf.buf.get? f = some v ∧ FBB.serializeNumberFieldTerm v = none) ∨
  (∃ d r, s.d.fl.buf.get? d = some r ∧ FBB.serializeFieldMap (s.d.mem.docCells r) = none) ∨
  (∃ f p, (f, p) ∈ s.d.ix.buf ∧ FBB.serializeIndex p = none)

/-- in every folder of fragments there is a name that is not in use. -/
def NamesLeft (root : Path) (s : BDisk) : Prop := ∀ f, ∃ u, IsUuid u ∧ s.fs.get? (join (tempDir root f) u) = none

theorem exec_plain {z : Bytes → Bytes} {i k : Nat} (hl : ∀ ids name id todo out, s.d.curOf i ≠ some (.read ids name (.load id todo out))) :
    s.exec z root (.client i k) = (s.d.exec (.client i k)).map fun d => { s with d := d } := by
  simp only [BDisk.exec]

theorem step_up {s s' : CDisk} {act : Act} (ht : talk act = true) (h : s.exec act = some s') : s'.up = s.up := (talk_frame ht (exec_step h)).2.2.2.2

/-- a step that serves client `i` and is possible with objects: on the bytes, too, there is one. -/
theorem serves_back (hD : Ids D) (h : BRel root D s a) (hi : AInv D a) (hp : PlainLoops s.d) (hfr : FragOk s) (hu : s.d.up = true) (hleft : NamesLeft root s) (z : Bytes → Bytes) {i : Nat} {act : Act} {a' : CDisk} (hs : serves i act = true)
    (he : a.exec act = some a') : ∃ act' s', serves i act' = true ∧ s.exec z root act' = some s' ∧ (s'.d.up = true ∨ TooBig s) := by
  have hproc : s.d.ix.proc = .up := by rw [← h.iproc]; exact hi.ok.proc (by rw [h.up]; exact hu)
  cases act with
  | client j k =>
    by_cases hl : ∃ ids name id todo out, s.d.curOf j = some (.read ids name (.load id todo out))
    · obtain ⟨ids, name, id, todo, out, hc⟩ := hl
      refine ⟨.client j k, s.readDoc root j ids name id todo out, hs, by simp only [BDisk.exec, hc]; rw [if_pos hu], .inl ?_⟩
      obtain ⟨cl, h1, h2⟩ := CDisk.curOf_some hc
      have h1' : a.clients[j]? = some cl := by rw [h.clients]; exact h1
      have hmem := List.mem_of_getElem? h1'
      have hid : D id := hi.names.rd cl hmem ids name _ h2 id ((hi.ok.cur cl hmem _ h2 : CDisk.RLocOk ids (.load id todo out)).1)
      have hload := h.loadDoc hD hid
      cases hx : a.load id with
      | none =>
        simp only [CDisk.exec, show a.up = true by rw [h.up]; exact hu, if_true, CDisk.client, h1', h2, CDisk.rexec, hx] at he
        cases he
      | some o =>
        rw [hx] at hload
        unfold BDisk.readDoc
        rw [hload]
        cases o <;> exact hu
    · have hl : ∀ ids name id todo out, s.d.curOf j ≠ some (.read ids name (.load id todo out)) := fun ids name id todo out e => hl ⟨ids, name, id, todo, out, e⟩
      obtain ⟨d', h1⟩ := client_back h hl he
      exact ⟨.client j k, { s with d := d' }, hs, by rw [exec_plain hl, h1]; rfl, .inl (by rw [show ({ s with d := d' } : BDisk).d = d' from rfl, step_up rfl h1]; exact hu)⟩
  | recvM j =>
    have hst := exec_step he
    cases hst with
    | recvM hj hc he' =>
      obtain ⟨x, e⟩ := h.mx.recv_back he'
      have h1 := step_exec (.recvM (by rw [← h.clients]; exact hj) hc e)
      obtain ⟨d', h1, h2⟩ : ∃ d', s.d.exec (.recvM j) = some d' ∧ d'.up = s.d.up := ⟨_, h1, rfl⟩
      exact ⟨.recvM j, { s with d := d' }, hs, by simp only [BDisk.exec]; rw [h1, Option.map_some], .inl (h2.trans hu)⟩
  | recvN j =>
    have hst := exec_step he
    cases hst with
    | recvN hj hc he' =>
      obtain ⟨x, e⟩ := h.nf.recv_back he'
      have h1 := step_exec (.recvN (by rw [← h.clients]; exact hj) hc e)
      obtain ⟨d', h1, h2⟩ : ∃ d', s.d.exec (.recvN j) = some d' ∧ d'.up = s.d.up := ⟨_, h1, rfl⟩
      exact ⟨.recvN j, { s with d := d' }, hs, by simp only [BDisk.exec]; rw [h1, Option.map_some], .inl (h2.trans hu)⟩
  | recvD j =>
    have hst := exec_step he
    cases hst with
    | recvD hj hc he' =>
      obtain ⟨x, e⟩ := h.fl.recv_back he'
      have h1 := step_exec (.recvD (by rw [← h.clients]; exact hj) hc e)
      obtain ⟨d', h1, h2⟩ : ∃ d', s.d.exec (.recvD j) = some d' ∧ d'.up = s.d.up := ⟨_, h1, rfl⟩
      exact ⟨.recvD j, { s with d := d' }, hs, by simp only [BDisk.exec]; rw [h1, Option.map_some], .inl (h2.trans hu)⟩
  | stepM =>
    simp only [CDisk.exec] at he
    obtain ⟨mx, he, -⟩ := Option.map_eq_some_iff.1 he
    obtain ⟨fs', r, h1, h2⟩ := flush_back (mk := .mx) (dir := join root) (name := fun _ => "metrics") (ser := fun f v => FBB.serializeFieldSizeLength f (toInt32 v.1) (toInt32 v.2)) hD z h.mx h.files
      (fun k hk => by rw [join_plain hk.1]; obtain ⟨fs1, e, -⟩ := FRel.mkdir_field hD h.files hk; exact ⟨fs1, e⟩) (fun k v hv => hi.names.mx k v hv) hp.mx he
    refine ⟨.stepM, _, rfl, by simp only [BDisk.exec]; rw [h1]; rfl, ?_⟩
    rcases h2 with h2 | h2
    · obtain ⟨x, rfl⟩ := Option.isSome_iff_exists.1 h2; exact .inl hu
    · exact .inr (.inl h2)
  | stepN =>
    simp only [CDisk.exec] at he
    obtain ⟨nf, he, -⟩ := Option.map_eq_some_iff.1 he
    obtain ⟨fs', r, h1, h2⟩ := flush_back (mk := .nf) (dir := join root) (name := fun _ => "nfterm") (ser := fun _ v => FBB.serializeNumberFieldTerm v) hD z h.nf h.files
      (fun k hk => by rw [join_plain hk.1]; obtain ⟨fs1, e, -⟩ := FRel.mkdir_field hD h.files hk; exact ⟨fs1, e⟩) (fun k v hv => hi.names.nf k v hv) hp.nf he
    refine ⟨.stepN, _, rfl, by simp only [BDisk.exec]; rw [h1]; rfl, ?_⟩
    rcases h2 with h2 | h2
    · obtain ⟨x, rfl⟩ := Option.isSome_iff_exists.1 h2; exact .inl hu
    · exact .inr (.inr (.inl h2))
  | stepD =>
    simp only [CDisk.exec] at he
    obtain ⟨fl, he, -⟩ := Option.map_eq_some_iff.1 he
    obtain ⟨fs', r, h1, h2⟩ := flush_back (mk := .doc) (dir := fun _ => docDir root) (name := id) (ser := fun _ r => FBB.serializeFieldMap (s.d.mem.docCells r)) hD z h.fl h.files
      (fun k hk => by
        have e : BDisk.docDir root = root ++ ["docs", "metrics"] := by unfold BDisk.docDir; rw [join_plain (by decide), join_plain (by decide)]; simp
        rw [e]; obtain ⟨fs1, e, -⟩ := FRel.mkdir_docs hD h.files; exact ⟨fs1, e⟩) (fun k v hv => hi.names.fl k v hv) hp.fl he
    refine ⟨.stepD, _, rfl, by simp only [BDisk.exec]; rw [h1]; rfl, ?_⟩
    rcases h2 with h2 | h2
    · obtain ⟨x, rfl⟩ := Option.isSome_iff_exists.1 h2; exact .inl hu
    · exact .inr (.inr (.inr (.inl h2)))
  | ix b =>
    simp only [CDisk.exec] at he
    split at he
    · obtain ⟨ix, he, -⟩ := Option.map_eq_some_iff.1 he
      -- the index writer is in its loop: while it writes a fragment the next byte can be written
      have wr := h.writer
      cases hf : s.frag with
      | some x =>
        obtain ⟨bs, n⟩ := x
        rw [hf] at wr
        obtain ⟨f, p, rest, name, raw, b', w1, -⟩ := wr
        have hx : ∃ s', s.write root = some s' ∧ s'.d.up = s.d.up := by
          simp only [BDisk.write, w1, hf]
          split <;> exact ⟨_, rfl, rfl⟩
        obtain ⟨s', g1, g2⟩ := hx
        exact ⟨.ix .write, s', rfl, by simp only [BDisk.exec, BDisk.ixExec]; rw [if_pos (.inl hu)]; exact g1, .inl (by rw [g2]; exact hu)⟩
      | none =>
        rw [hf] at wr
        have wr : a.ix.writer = s.d.ix.writer := wr
        cases b with
        | recv =>
          simp only [IxState.exec] at he
          split at he
          · rename_i f t d rest e1 e2 e3
            have g : s.d.exec (.ix .recv) = some { s.d with ix := { s.d.ix with chan := rest, buf := IxState.bufAdd s.d.ix.buf f t d } } := by
              refine step_exec (.ix (by rfl) (.inl hu) ?_ ?_)
              · simp only [IxState.exec]; rw [← h.iproc, ← wr, ← h.ichan, e1, e2, e3]
              · simp only; rw [hproc]; exact fun e => by cases e
            obtain ⟨d', g, g2⟩ : ∃ d', s.d.exec (.ix .recv) = some d' ∧ d'.up = s.d.up := ⟨_, g, rfl⟩
            exact ⟨.ix .recv, { s with d := d' }, rfl, by simp only [BDisk.exec, BDisk.ixExec]; rw [if_pos (.inl hu), g, Option.map_some], .inl (g2.trans hu)⟩
          · cases he
        | flushed =>
          simp only [IxState.exec] at he
          split at he
          · rename_i e1
            have g : s.d.exec (.ix .flushed) = some { s.d with ix := { s.d.ix with buf := [], writer := .idle } } := by
              refine step_exec (.ix (by rfl) (.inl hu) ?_ ?_)
              · simp only [IxState.exec]; rw [← wr, e1]
              · simp only; rw [hproc]; exact fun e => by cases e
            obtain ⟨d', g, g2⟩ : ∃ d', s.d.exec (.ix .flushed) = some d' ∧ d'.up = s.d.up := ⟨_, g, rfl⟩
            exact ⟨.ix .flushed, { s with d := d' }, rfl, by simp only [BDisk.exec, BDisk.ixExec]; rw [if_pos (.inl hu), g, Option.map_some], .inl (g2.trans hu)⟩
          · cases he
        | write =>
          simp only [IxState.exec] at he
          split at he
          · rename_i f p rest n e1
            exact absurd hf (hfr _ _ (by rw [← wr]; exact e1))
          · cases he
        | create n =>
          simp only [IxState.exec] at he
          split at he
          · rename_i f p rest hw
            have hfn : FieldName f := hi.names.wr (f, p) (by rw [hw]; exact List.mem_cons_self)
            obtain ⟨u, hu1, hu2⟩ := hleft f
            obtain ⟨fs1, m1, m2, m3, m4⟩ := FRel.mkdir_temp hD h.files hfn
            have ej : join (tempDir root f) u = fragPath root f u := by rw [tempDir_eq hfn, join_plain hu1.plain]; simp [fragPath]
            rw [ej] at hu2
            have hnew : fs1.get? (fragPath root f u) = none := (m2.frag f u hfn).none_iff.1 (((h.files.frag f u hfn).none_iff).2 hu2)
            have hin : (f, p) ∈ s.d.ix.buf := by
              have := hi.ok.ix.writer
              unfold IxState.WriterOk at this
              rw [hw] at this
              rw [← h.ibuf]; exact this.2.1 (f, p) List.mem_cons_self
            cases hr : FBB.serializeIndex p with
            | none =>
              exact ⟨.ix (.create u), s.kill, rfl, by simp only [BDisk.exec, BDisk.ixExec, BDisk.create]; rw [if_pos (.inl hu), ← wr, hw, hf]; simp only [hr], .inr (.inr (.inr (.inr ⟨f, p, hin, hr⟩)))⟩
            | some raw =>
              have ec : FS.create fs1 (fragPath root f u) = some (GoMap.set fs1 (fragPath root f u) (.file [])) := by
                have e1 : (fragPath root f u).dropLast = root ++ [f, "temp"] := by
                  have : fragPath root f u = (root ++ [f, "temp"]) ++ [u] := by simp [fragPath]
                  rw [this, List.dropLast_concat]
                unfold FS.create
                rw [if_pos]
                exact ⟨by rw [e1]; simp [FS.isDir, m4], by rw [hnew]; exact fun e => (by cases e), by simp [fragPath]⟩
              refine ⟨.ix (.create u), { s with fs := GoMap.set fs1 (fragPath root f u) (.file []), d := { s.d with ix := { s.d.ix with writer := .flushing ((f, p) :: rest) (some u) } }, frag := some (z raw, 0) }, rfl, ?_, .inl hu⟩
              simp only [BDisk.exec, BDisk.ixExec, BDisk.create]
              rw [if_pos (.inl hu), ← wr, hw, hf]
              simp only [hr]
              rw [ej, tempDir_eq hfn, m1]
              simp only
              rw [if_pos ⟨hu1, hnew⟩, ec]
          · cases he
        | _ => cases hs
    · cases he
  | _ => cases hs

end BDisk
end Goir
