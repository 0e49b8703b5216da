import Verif.Lemmas.Counters
/-!
# C31, C32, C34, C72, C73: counters across restarts

Statements about `CtState.run {} as`: any sequence of client calls, writer steps, crashes and openings starting from an empty
folder.
-/
namespace Goir
open GoMap CtState Flusher

/-- the metrics writer has received and written everything. -/
def MetricsFlushed (s : CtState) : Prop := s.sendM = none ∧ s.mx.pc = .idle ∧ s.mx.buf = []

/-- the document-frequency writer has received and written everything. -/
def TermsFlushed (s : CtState) : Prop := s.sendN = none ∧ s.nf.pc = .idle ∧ s.nf.buf = []

instance (s : CtState) : Decidable (MetricsFlushed s) := inferInstanceAs (Decidable (_ ∧ _))
instance (s : CtState) : Decidable (TermsFlushed s) := inferInstanceAs (Decidable (_ ∧ _))

/-- to exhibit a run: the result exists and has the property. -/
theorem exists_of_run {α : Type} {o : Option α} {P : α → Prop} [DecidablePred P]
    (h : (match o with | some s => decide (P s) | none => false) = true) : ∃ s, o = some s ∧ P s := by
  cases o with
  | none => cases h
  | some s => exact ⟨s, rfl, of_decide_eq_true h⟩

namespace CtState

/-- opening: what the new store answers, in terms of the files. -/
theorem open_spec {s : CtState} (h : CInv s) (hu : s.up = false) : ∃ s', s.exec .open_ = some s' ∧ s'.up = true ∧
    (∀ f c x y, s.mx.cur f = some c → FileM c f x y → s'.getFieldSize f = x ∧ s'.getFieldLength f = y) ∧
    (∀ f, s.mx.cur f = none → s'.getFieldSize f = 0 ∧ s'.getFieldLength f = 0) ∧
    (∀ f t n, FileN s f t n → s'.getNumberFieldTerm f t = n) ∧
    (∀ f t, (∀ n, ¬ FileN s f t n) → s'.getNumberFieldTerm f t = 0) ∧
    s'.mx = s.mx ∧ s'.nf = s.nf ∧ s'.sendM = s.sendM ∧ s'.sendN = s.sendN := by
  obtain ⟨sz, ln, h1, h2⟩ := loadM_spec h
  obtain ⟨nft, h3, h4⟩ := loadN_spec h
  refine ⟨{ s with up := true, size := sz, length := ln, nft := nft }, ?_, rfl, ?_, ?_, ?_, ?_, rfl, rfl, rfl, rfl⟩
  · simp [exec, hu, h1, h3]
  · intro f c x y hc hf
    obtain ⟨x', y', g1, g2, g3⟩ := (h2 f).1 c hc
    obtain ⟨rfl, rfl⟩ := fileM_unique g1 hf
    simp [getFieldSize, getFieldLength, GoMap.getD, g2, g3]
  · intro f hc
    obtain ⟨g2, g3⟩ := (h2 f).2 hc
    simp [getFieldSize, getFieldLength, GoMap.getD, g2, g3]
  · rintro f t n ⟨b, m, g1, g2, g3⟩
    obtain ⟨m', e1, e2⟩ := (h4 f).1 b g1
    rw [g2] at e1; cases e1
    simp [getNumberFieldTerm, e2, GoMap.getD, g3]
  · intro f t hn
    cases hc : s.nf.cur f with
    | none => simp [getNumberFieldTerm, (h4 f).2 hc, GoMap.getD]
    | some c =>
      obtain ⟨b, m, rfl, g2, -⟩ := h.sn f c hc
      obtain ⟨m', e1, e2⟩ := (h4 f).1 b hc
      rw [g2] at e1; cases e1
      cases hm : m.get? t with
      | none => simp [getNumberFieldTerm, e2, GoMap.getD, hm]
      | some n => exact absurd ⟨b, m, hc, g2, hm⟩ (hn n)

end CtState

/-- Whatever happened before and wherever the process died, the counters can be loaded: opening does not panic on them. -/
theorem c72_counters_always_load {as : List Act} {s : CtState} (h : run {} as = some s) (hd : s.up = false) :
    ∃ s', run s [.open_] = some s' ∧ s'.up = true := by
  obtain ⟨s', h1, h2, _⟩ := open_spec (run_cinv init_cinv h) hd
  exact ⟨s', (run_cons _ _ _ _).2 ⟨s', h1, (run_nil _ _).2 rfl⟩, h2⟩

example : ∃ s, run {} [.open_, .addField "title" 7, .recvM, .tickM ["title"], .stepM, .stepM, .stepM, .stepM, .crash] = some s ∧
    s.up = false ∧ s.mx.file "title" ≠ {} := exists_of_run (by decide +kernel)

/-- reopening after the metrics are flushed: every size and length comes back cut to 32 bits. -/
theorem c34_sizes_after_restart {as : List Act} {s : CtState} (h : run {} as = some s) (hu : s.up = true) (hf : MetricsFlushed s) :
    ∃ s', run s [.crash, .open_] = some s' ∧ s'.up = true ∧
      ∀ f, s'.getFieldSize f = toInt32 (s.getFieldSize f) ∧ s'.getFieldLength f = toInt32 (s.getFieldLength f) := by
  have hi := run_cinv init_cinv h
  have hc : s.exec .crash = some { mx := s.mx.killed, nf := s.nf.killed } := by simp [exec, hu]
  obtain ⟨s', h1, h2, h3, h4, -⟩ := open_spec (exec_cinv hi hc) rfl
  refine ⟨s', (run_cons _ _ _ _).2 ⟨_, hc, (run_cons _ _ _ _).2 ⟨s', h1, (run_nil _ _).2 rfl⟩⟩, h2, fun f => ?_⟩
  have hm := hi.m hu f (by rw [hf.1]; simp)
  unfold MOk at hm
  rw [hf.2.2] at hm
  simp only [get?_nil] at hm
  cases hcur : s.mx.cur f with
  | none =>
    rw [hcur] at hm
    have := h4 f hcur
    simp only [getFieldSize, getFieldLength, GoMap.getD, hm.1, hm.2] at this ⊢
    simpa [show toInt32 0 = 0 from rfl] using this
  | some c =>
    rw [hcur] at hm
    exact h3 f c _ _ hcur hm

/-- **C31.** If everything sent to the metrics writer is on disk, closing (in any way) and reopening the store yields the same
sizes and lengths, as long as they fit in 32 bits. -/
theorem c31_clean_restart {as : List Act} {s : CtState} (h : run {} as = some s) (hu : s.up = true) (hf : MetricsFlushed s)
    (hfit : ∀ f, FitsInt32 (s.getFieldSize f) ∧ FitsInt32 (s.getFieldLength f)) :
    ∃ s', run s [.crash, .open_] = some s' ∧ s'.up = true ∧
      ∀ f, s'.getFieldSize f = s.getFieldSize f ∧ s'.getFieldLength f = s.getFieldLength f := by
  obtain ⟨s', h1, h2, h3⟩ := c34_sizes_after_restart h hu hf
  refine ⟨s', h1, h2, fun f => ?_⟩
  obtain ⟨e1, e2⟩ := h3 f
  rw [toInt32_fits (hfit f).1] at e1
  rw [toInt32_fits (hfit f).2] at e2
  exact ⟨e1, e2⟩

/-- the actions of the metrics writer from a ticker firing to the end of a flush of the field `f`. -/
def flushM (f : String) : List Act := .tickM [f] :: List.replicate 8 .stepM
/-- as `flushM`, for the document-frequency writer. -/
def flushN (f : String) : List Act := .tickN [f] :: List.replicate 8 .stepN

/-- a run that meets the hypotheses of C31. -/
def c31Run : List Act := [.open_, .addField "title" 7, .recvM, .addField "title" 5, .recvM] ++ flushM "title"

example : ∃ s, run {} c31Run = some s ∧ s.up = true ∧ MetricsFlushed s ∧ s.getFieldSize "title" = 2 ∧ s.getFieldLength "title" = 12 :=
  exists_of_run (by decide +kernel)

/-! ### C32 -/

/-- **C32 is false of the code**: the file of a field holds only the terms received since the flush before, so terms of the
first of two flushes are lost. -/
theorem c32_restart_refuted : ∃ as s, run {} as = some s ∧ s.up = true ∧ TermsFlushed s ∧ s.getNumberFieldTerm "title" "a" = 1 ∧
    ∃ s', run s [.crash, .open_] = some s' ∧ s'.getNumberFieldTerm "title" "a" = 0 := by
  obtain ⟨s, h, h1, h2, h3, h4⟩ := exists_of_run (o := run {} ([.open_, .addTerm "title" "a", .recvN] ++ flushN "title" ++
      [.addTerm "title" "b", .recvN] ++ flushN "title")) (P := fun s => s.up = true ∧ TermsFlushed s ∧
      s.getNumberFieldTerm "title" "a" = 1 ∧ (run s [.crash, .open_]).map (fun s' => s'.getNumberFieldTerm "title" "a") = some 0)
    (by decide +kernel)
  obtain ⟨s', h5, h6⟩ := Option.map_eq_some_iff.1 h4
  exact ⟨_, s, h, h1, h2, h3, s', h5, h6⟩

/-- the terms received since the last tick and the terms each field's last non-empty batch had; computed from the actions
alone. -/
structure Batches where
  sent    : Option (String × String) := none
  pending : List (String × String) := []
  last    : List (String × String) := []

/-- effect of an action on the batches. -/
def Batches.act (b : Batches) : Act → Batches
  | .addTerm f t => { b with sent := some (f, t) }
  | .recvN => { b with sent := none, pending := b.sent.toList ++ b.pending }
  | .tickN _ => { b with pending := [], last := b.pending ++ b.last.filter fun p => !(b.pending.any fun q => q.1 == p.1) }
  | _ => b

/-- the batches after a list of actions. -/
def Batches.of (as : List Act) : Batches := as.foldl Batches.act {}

namespace CtState

/-- the buffer has an entry for `t` in field `f`. -/
def BufN (s : CtState) (f t : String) : Prop := ∃ m n, s.nf.buf.get? f = some m ∧ m.get? t = some n

/-- the batches agree with buffer and files. -/
structure BInv (s : CtState) (b : Batches) : Prop where
  sent : b.sent = s.sendN
  ne   : ∀ f m, s.nf.buf.get? f = some m → ∃ t n, m.get? t = some n
  idle : s.nf.pc = .idle → (∀ f t, BufN s f t ↔ (f, t) ∈ b.pending) ∧ ∀ f t, (∃ n, FileN s f t n) ↔ (f, t) ∈ b.last
  busy : s.nf.pc ≠ .idle → b.pending = [] ∧ ∀ f t, (f ∈ s.nf.buf.keys → (BufN s f t ↔ (f, t) ∈ b.last)) ∧
    (f ∉ s.nf.buf.keys → ((∃ n, FileN s f t n) ↔ (f, t) ∈ b.last))

theorem binv_of_nf {s s' : CtState} {b : Batches} (h : BInv s b) (h1 : s'.nf = s.nf) (h2 : s'.sendN = s.sendN) : BInv s' b := by
  refine ⟨by rw [h2]; exact h.sent, by rw [h1]; exact h.ne, ?_, ?_⟩
  · intro hp; unfold BufN FileN; rw [h1]; rw [h1] at hp; exact h.idle hp
  · intro hp; unfold BufN FileN; rw [h1]; rw [h1] at hp; exact h.busy hp

theorem bufN_keys {s : CtState} {f t : String} (h : BufN s f t) : f ∈ s.nf.buf.keys := by
  obtain ⟨m, _, h, _⟩ := h
  exact (mem_keys_iff _ _).2 ⟨m, h⟩

theorem step_binv {s s' : CtState} {b : Batches} (hi : CInv s) (h : BInv s b) (he : s.exec .stepN = some s') : BInv s' b := by
  simp only [exec] at he
  cases hr : s.nf.step serN with
  | none => simp [hr] at he
  | some nf =>
    simp only [hr, Option.map_some, Option.some.injEq] at he
    subst he
    obtain ⟨hf, hc⟩ := step_spec hi.fn hr
    obtain ⟨hp, hb⟩ := h.busy (up_of_step hr)
    have hserf : ∀ k v b, s.nf.buf.get? k = some v → serN k v = some b →
        deserializeNumberFieldTerm b = some (v.map fun p => (p.1, toInt32 p.2)) := by
      intro k v b hv hb
      obtain ⟨b', h1, h2⟩ := serN_spec k v (hi.wn k v hv)
      rw [hb] at h1; cases h1
      exact h2
    -- the busy clause holds afterwards
    have key : ∀ f t, (f ∈ nf.buf.keys → ((∃ m n, nf.buf.get? f = some m ∧ m.get? t = some n) ↔ (f, t) ∈ b.last)) ∧
        (f ∉ nf.buf.keys → ((∃ n b' m, nf.cur f = some (.full b') ∧ deserializeNumberFieldTerm b' = some m ∧ m.get? t = some n) ↔
          (f, t) ∈ b.last)) := by
      have unch : nf.buf = s.nf.buf → ∀ k v, s.nf.buf.get? k = some v → (∀ j, j ≠ k → nf.cur j = s.nf.cur j) → ∀ f t,
          (f ∈ nf.buf.keys → ((∃ m n, nf.buf.get? f = some m ∧ m.get? t = some n) ↔ (f, t) ∈ b.last)) ∧
          (f ∉ nf.buf.keys → ((∃ n b' m, nf.cur f = some (.full b') ∧ deserializeNumberFieldTerm b' = some m ∧ m.get? t = some n) ↔
            (f, t) ∈ b.last)) := by
        intro e k v hv hcc f t
        rw [e]
        refine ⟨(hb f t).1, fun hk => ?_⟩
        rw [hcc f (by rintro rfl; exact hk ((mem_keys_iff _ _).2 ⟨v, hv⟩))]
        exact (hb f t).2 hk
      cases hc with
      | same hb' hcc => intro f t; rw [hb', hcc]; exact hb f t
      | away k v hv hb' hk hcc => exact unch hb' k v hv hcc
      | install k v _ hv _ hb' hk hcc => exact unch hb' k v hv hcc
      | forget k v b' hv hs hk hb' hcc =>
        intro f t
        rw [hb', hcc, mem_keys_del, get?_del]
        by_cases e : k = f
        · subst e
          refine ⟨fun hx => absurd rfl hx.1, fun _ => ?_⟩
          rw [← (hb k t).1 ((mem_keys_iff _ _).2 ⟨v, hv⟩), hk]
          constructor
          · rintro ⟨n, b2, m, h1, h2, h3⟩
            cases h1
            rw [hserf k v _ hv hs] at h2; cases h2
            rw [get?_cut] at h3
            cases hx : v.get? t with
            | none => rw [hx] at h3; cases h3
            | some x => exact ⟨v, x, hv, hx⟩
          · rintro ⟨m, n, h1, h2⟩
            rw [hv] at h1; cases h1
            exact ⟨toInt32 n, b', _, rfl, hserf k v _ hv hs, by rw [get?_cut, h2]; rfl⟩
        · rw [if_neg e]
          exact ⟨fun hx => (hb f t).1 hx.2, fun hx => (hb f t).2 fun hk' => hx ⟨fun e' => e e'.symm, hk'⟩⟩
    refine ⟨h.sent, ?_, ?_, fun _ => ⟨hp, key⟩⟩
    · intro f m hm
      have hm : nf.buf.get? f = some m := hm
      cases hc with
      | same hb' _ => rw [hb'] at hm; exact h.ne f m hm
      | away k v hv hb' hk hcc => rw [hb'] at hm; exact h.ne f m hm
      | install k v _ hv _ hb' hk hcc => rw [hb'] at hm; exact h.ne f m hm
      | forget k v b' hv hs hk hb' hcc =>
        rw [hb', get?_del] at hm; split at hm
        · cases hm
        · exact h.ne f m hm
    · intro hidle
      -- the loop was left: the buffer is empty
      have hemp : nf.buf = [] := by
        have hidle : nf.pc = .idle := hidle
        unfold Flusher.step at hr
        match hpc : s.nf.pc with
        | .idle => rw [hpc] at hr; cases hr
        | .flushing [] =>
          rw [hpc] at hr; cases hr
          exact flushed_empty (s := s.nf) hi.fn hpc
        | .flushing (k :: rest) =>
          rw [hpc] at hr
          simp only at hr
          split at hr
          · cases hr
          · split at hr
            · cases hr
            · cases hr; cases hidle
        | .saving k rest b pc =>
          rw [hpc] at hr
          cases pc <;> (cases hr; cases hidle)
      constructor
      · intro f t
        rw [hp]
        refine ⟨?_, fun hx => by cases hx⟩
        rintro ⟨m, n, h1, h2⟩
        have h1 : nf.buf.get? f = some m := h1
        rw [hemp] at h1; cases h1
      · intro f t
        exact (key f t).2 (by rw [hemp]; simp [GoMap.keys])

theorem exec_binv {s s' : CtState} {b : Batches} {a : Act} (hi : CInv s) (h : BInv s b) (ha : a ≠ .crash) (hu : s.up = true)
    (he : s.exec a = some s') : BInv s' (b.act a) ∧ s'.up = true := by
  have hup : ∀ {s'' : CtState}, s'' = s' → s''.up = true → s'.up = true := fun e h => e ▸ h
  cases a with
  | crash => exact absurd rfl ha
  | open_ => simp [exec, hu] at he
  | addField f len =>
    simp only [exec] at he; split at he
    · cases he; exact ⟨binv_of_nf h rfl rfl, hu⟩
    · cases he
  | recvM =>
    simp only [exec] at he; split at he
    · cases he
    · rename_i f hs
      cases hr : s.mx.recv f fun _ => (s.size.getD f 0, s.length.getD f 0) with
      | none => simp [hr] at he
      | some mx => simp only [hr, Option.map_some, Option.some.injEq] at he; subst he; exact ⟨binv_of_nf h rfl rfl, hu⟩
  | addTerm f t =>
    simp only [exec] at he; split at he
    · cases he
      exact ⟨⟨rfl, h.ne, fun hp => h.idle hp, fun hp => h.busy hp⟩, hu⟩
    · cases he
  | tickM o =>
    simp only [exec] at he
    rw [if_pos hu] at he
    cases hr : s.mx.tick o with
    | none => simp [hr] at he
    | some mx => simp only [hr, Option.map_some, Option.some.injEq] at he; subst he; exact ⟨binv_of_nf h rfl rfl, hu⟩
  | stepM =>
    simp only [exec] at he
    cases hr : s.mx.step serM with
    | none => simp [hr] at he
    | some mx => simp only [hr, Option.map_some, Option.some.injEq] at he; subst he; exact ⟨binv_of_nf h rfl rfl, hu⟩
  | stepN =>
    refine ⟨step_binv hi h he, ?_⟩
    simp only [exec] at he
    cases hr : s.nf.step serN with
    | none => simp [hr] at he
    | some nf => simp only [hr, Option.map_some, Option.some.injEq] at he; subst he; exact hu
  | recvN =>
    simp only [exec] at he; split at he
    · cases he
    · rename_i f t hs
      cases hr : s.nf.recv f (putN t (((s.nft.get? f).getD []).getD t 0)) with
      | none => simp [hr] at he
      | some nf =>
        simp only [hr, Option.map_some, Option.some.injEq] at he
        subst he
        obtain ⟨hpc, rfl⟩ := recv_some hr
        obtain ⟨hb, hf⟩ := h.idle hpc
        have hsent : b.sent = some (f, t) := by rw [h.sent, hs]
        refine ⟨⟨rfl, ?_, fun _ => ⟨?_, hf⟩, fun hp => absurd hpc hp⟩, hu⟩
        · intro g m hm
          simp only [get?_set] at hm
          split at hm
          · cases hm; exact ⟨t, _, by rw [get?_putN, if_pos rfl]⟩
          · exact h.ne g m hm
        · intro g u
          show _ ↔ (g, u) ∈ b.sent.toList ++ b.pending
          rw [hsent, List.mem_append, ← hb]
          simp only [Option.toList_some, List.mem_singleton, Prod.mk.injEq]
          unfold BufN
          simp only [get?_set]
          by_cases e : f = g
          · subst e
            simp only [if_true, true_and]
            by_cases e2 : t = u
            · subst e2
              simp [get?_putN]
            · have e2' : ¬ u = t := fun e => e2 e.symm
              simp only [e2', false_or]
              constructor
              · rintro ⟨m, n, h1, h2⟩
                cases h1
                rw [get?_putN, if_neg e2] at h2
                cases hbuf : s.nf.buf.get? f with
                | none => rw [hbuf] at h2; simp at h2
                | some m' => rw [hbuf] at h2; exact ⟨m', n, rfl, h2⟩
              · rintro ⟨m, n, h1, h2⟩
                exact ⟨_, n, rfl, by rw [get?_putN, if_neg e2, h1]; exact h2⟩
          · have e' : ¬ g = f := fun x => e x.symm
            simp [e, e']
  | tickN o =>
    simp only [exec] at he
    rw [if_pos hu] at he
    cases hr : s.nf.tick o with
    | none => simp [hr] at he
    | some nf =>
      simp only [hr, Option.map_some, Option.some.injEq] at he
      subst he
      obtain ⟨hpc, hq, rfl⟩ := tick_some hr
      obtain ⟨hb, hf⟩ := h.idle hpc
      refine ⟨⟨h.sent, h.ne, fun hp => (by cases hp), fun _ => ⟨rfl, fun f t => ?_⟩⟩, hu⟩
      show (f ∈ s.nf.buf.keys → (BufN s f t ↔ (f, t) ∈ b.pending ++ b.last.filter fun p => !(b.pending.any fun q => q.1 == p.1))) ∧
        (f ∉ s.nf.buf.keys → ((∃ n, FileN s f t n) ↔ (f, t) ∈ b.pending ++ b.last.filter fun p => !(b.pending.any fun q => q.1 == p.1)))
      simp only [List.mem_append, List.mem_filter, Bool.not_eq_true', List.any_eq_false, beq_iff_eq]
      constructor
      · intro hk
        rw [hb]
        refine ⟨.inl, ?_⟩
        rintro (hx | ⟨-, hx⟩)
        · exact hx
        · obtain ⟨m, hm⟩ := (mem_keys_iff _ _).1 hk
          obtain ⟨t', n, htn⟩ := h.ne f m hm
          exact absurd rfl (hx (f, t') ((hb f t').1 ⟨m, n, hm, htn⟩))
      · intro hk
        rw [hf]
        constructor
        · intro hx
          refine .inr ⟨hx, ?_⟩
          rintro ⟨g, u⟩ hgu e
          have e : g = f := e
          subst e
          exact hk (bufN_keys ((hb g u).2 hgu))
        · rintro (hx | hx)
          · exact absurd (bufN_keys ((hb f t).2 hx)) hk
          · exact hx.1

theorem run_binv {s s' : CtState} {b : Batches} {as : List Act} (hi : CInv s) (h : BInv s b) (hu : s.up = true)
    (ha : .crash ∉ as) (hr : run s as = some s') : BInv s' (as.foldl Batches.act b) := by
  induction as generalizing s b with
  | nil => rw [run_nil] at hr; exact hr ▸ h
  | cons a as ih =>
    obtain ⟨s₁, h1, h2⟩ := (run_cons _ _ _ _).1 hr
    obtain ⟨h3, h4⟩ := exec_binv hi h (fun e => ha (e ▸ List.mem_cons_self)) hu h1
    exact ih (exec_cinv hi h1) h3 h4 (fun e => ha (List.mem_cons_of_mem _ e)) h2

end CtState

/-- **C32, what holds instead (1).** For every history, with any number of crashes: after a flush and a restart each document
frequency is what it was (cut to 32 bits), or has been reset to 0. -/
theorem c32_same_or_reset_partial {as : List Act} {s : CtState} (h : run {} as = some s) (hu : s.up = true) (hf : TermsFlushed s) :
    ∃ s', run s [.crash, .open_] = some s' ∧ s'.up = true ∧
      ∀ f t, s'.getNumberFieldTerm f t = toInt32 (s.getNumberFieldTerm f t) ∨ s'.getNumberFieldTerm f t = 0 := by
  have hi := run_cinv init_cinv h
  have hc : s.exec .crash = some { mx := s.mx.killed, nf := s.nf.killed } := by simp [exec, hu]
  obtain ⟨s', h1, h2, -, -, h3, h4, -⟩ := open_spec (exec_cinv hi hc) rfl
  refine ⟨s', (run_cons _ _ _ _).2 ⟨_, hc, (run_cons _ _ _ _).2 ⟨s', h1, (run_nil _ _).2 rfl⟩⟩, h2, fun f t => ?_⟩
  by_cases hx : ∃ n, FileN s f t n
  · obtain ⟨n, hn⟩ := hx
    refine .inl ?_
    rw [h3 f t n hn]
    exact (hi.n hu f t (by rw [hf.1]; simp)).file n hn (by rw [hf.2.2]; intro m hm; cases hm)
  · exact .inr (h4 f t fun n hn => hx ⟨n, hn⟩)

/-- **C32, what holds instead (2).** Exactly which document frequencies survive: on a store that ran since its folder was
created, after a flush and a restart the frequency of `t` in field `f` is what it was (cut to 32 bits) if `t` was among the terms
of the last non-empty batch of `f`, and 0 otherwise. -/
theorem c32_exact_partial {as : List Act} {s : CtState} (h : run {} (.open_ :: as) = some s) (ha : .crash ∉ as) (hf : TermsFlushed s) :
    ∃ s', run s [.crash, .open_] = some s' ∧ s'.up = true ∧
      ∀ f t, s'.getNumberFieldTerm f t = if (f, t) ∈ (Batches.of as).last then toInt32 (s.getNumberFieldTerm f t) else 0 := by
  have hi := run_cinv init_cinv h
  obtain ⟨s₀, h0, hr⟩ := (run_cons _ _ _ _).1 h
  have e0 : s₀ = { up := true } := by cases h0; rfl
  subst e0
  have hi0 : CInv { up := true } := exec_cinv init_cinv h0
  have hb0 : BInv { up := true } {} := by
    refine ⟨rfl, ?_, fun _ => ⟨?_, ?_⟩, fun hp => absurd rfl hp⟩
    · intro f m hm; cases hm
    · intro f t; constructor
      · rintro ⟨m, n, h1, _⟩; cases h1
      · intro h; cases h
    · intro f t; constructor
      · rintro ⟨n, b, m, h1, _⟩; cases h1
      · intro h; cases h
  have hb : BInv s (Batches.of as) := run_binv hi0 hb0 rfl ha hr
  have hu : s.up = true := by
    have : ∀ (l : List Act) (s s' : CtState), CInv s → s.up = true → .crash ∉ l → run s l = some s' → ∀ b, BInv s b → s'.up = true := by
      intro l
      induction l with
      | nil => intro s s' _ hu _ hr _ _; rw [run_nil] at hr; exact hr ▸ hu
      | cons a l ih =>
        intro s s' hi hu ha hr b hb
        obtain ⟨s₁, h1, h2⟩ := (run_cons _ _ _ _).1 hr
        obtain ⟨h3, h4⟩ := exec_binv hi hb (fun e => ha (e ▸ List.mem_cons_self)) hu h1
        exact ih s₁ s' (exec_cinv hi h1) h4 (fun e => ha (List.mem_cons_of_mem _ e)) h2 _ h3
    exact this as _ _ hi0 rfl ha hr _ hb0
  have hc : s.exec .crash = some { mx := s.mx.killed, nf := s.nf.killed } := by simp [exec, hu]
  obtain ⟨s', h1, h2, -, -, h3, h4, -⟩ := open_spec (exec_cinv hi hc) rfl
  refine ⟨s', (run_cons _ _ _ _).2 ⟨_, hc, (run_cons _ _ _ _).2 ⟨s', h1, (run_nil _ _).2 rfl⟩⟩, h2, fun f t => ?_⟩
  have hlast := (hb.idle hf.2.1).2 f t
  by_cases hx : ∃ n, FileN s f t n
  · obtain ⟨n, hn⟩ := hx
    rw [if_pos (hlast.1 ⟨n, hn⟩), h3 f t n hn]
    exact (hi.n hu f t (by rw [hf.1]; simp)).file n hn (by rw [hf.2.2]; intro m hm; cases hm)
  · rw [if_neg (fun e => hx (hlast.2 e))]
    exact h4 f t fun n hn => hx ⟨n, hn⟩

/-- a run that meets the hypotheses: the restart keeps `b` and loses `a`. -/
def c32Run : List Act :=
  [.addTerm "title" "a", .recvN] ++ flushN "title" ++ [.addTerm "title" "b", .recvN] ++ flushN "title"

example : ∃ s, run {} (.open_ :: c32Run) = some s ∧ .crash ∉ c32Run ∧ TermsFlushed s ∧ s.getNumberFieldTerm "title" "a" = 1 ∧
    (Batches.of c32Run).last = [("title", "b")] := exists_of_run (by decide +kernel)

end Goir
