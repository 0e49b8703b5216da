import Verif.Model.Flusher
import Verif.Lemmas.Postings
/-! # Invariant of a buffering writer -/
namespace Goir.Flusher
open GoMap
variable {B : Type} {ser : String → B → Option FB.Buf} {R : String → B → FB.Buf → Prop}

/-- the file under the key's own name. -/
def cur (s : Flusher B) (k : String) : Option Content := (s.file k).cur

/-- what holds while key `k` is being saved. -/
def SavingOk (s : Flusher B) (k : String) (b : FB.Buf) : SPc → Prop
  | .start => True
  | .writing => True
  | .written => (s.file k).tmp = some (.full b)
  | .moved => (s.file k).cur = none ∧ (s.file k).tmp = some (.full b)
  | .installed => (s.file k).cur = some (.full b)
  | .done => (s.file k).cur = some (.full b)

/-- where the writer is agrees with the buffer. -/
def PcOkR (R : String → B → FB.Buf → Prop) (s : Flusher B) : Prop :=
  match s.pc with
  | .idle => True
  | .flushing todo => todo.Nodup ∧ ∀ k, k ∈ todo ↔ k ∈ s.buf.keys
  | .saving k rest b pc => (k :: rest).Nodup ∧ (∀ j, j ∈ k :: rest ↔ j ∈ s.buf.keys) ∧
      (∃ v, s.buf.get? k = some v ∧ R k v b) ∧ SavingOk s k b pc

/-- the invariant; `R k v b` is what is known of a buffer `b` made from the entry `v` of key `k` while it is being saved. -/
structure FInvR (R : String → B → FB.Buf → Prop) (s : Flusher B) : Prop where
  bw : s.buf.WF
  fw : s.files.WF
  pc : PcOkR R s

/-- the buffer being saved is the serialized entry. -/
abbrev PcOk (ser : String → B → Option FB.Buf) (s : Flusher B) : Prop := PcOkR (fun k v b => ser k v = some b) s
/-- the invariant when entries do not change while they are saved. -/
abbrev FInv (ser : String → B → Option FB.Buf) (s : Flusher B) : Prop := FInvR (fun k v b => ser k v = some b) s

theorem FInvR.mono {R R' : String → B → FB.Buf → Prop} {s : Flusher B} (h : FInvR R s)
    (hr : ∀ k v b, s.buf.get? k = some v → R k v b → R' k v b) : FInvR R' s := by
  refine ⟨h.bw, h.fw, ?_⟩
  have := h.pc
  unfold PcOkR at this ⊢
  match hp : s.pc with
  | .idle => trivial
  | .flushing todo => rw [hp] at this; exact this
  | .saving k rest b pc =>
    rw [hp] at this
    obtain ⟨h1, h2, ⟨v, hv, h3⟩, h4⟩ := this
    exact ⟨h1, h2, ⟨v, hv, hr k v b hv h3⟩, h4⟩

theorem finv_init : FInvR R ({} : Flusher B) := ⟨by simp, by simp, trivial⟩

theorem finv_killed {s : Flusher B} (h : FInvR R s) : FInvR R s.killed := ⟨by simp [killed], h.fw, trivial⟩

theorem recv_some {s s' : Flusher B} {k : String} {put : Option B → B} (h : s.recv k put = some s') :
    s.pc = .idle ∧ s' = { s with buf := s.buf.set k (put (s.buf.get? k)) } := by
  unfold recv at h; split at h
  · rename_i hp; cases h; exact ⟨hp, rfl⟩
  · cases h

theorem finv_recv {s s' : Flusher B} {k : String} {put : Option B → B} (h : FInvR R s) (hr : s.recv k put = some s') :
    FInvR R s' := by
  obtain ⟨hp, rfl⟩ := recv_some hr
  exact ⟨h.bw.set _ _, h.fw, by unfold PcOkR; simp only [hp]⟩

theorem tick_some {s s' : Flusher B} {order : List String} (h : s.tick order = some s') :
    s.pc = .idle ∧ order.Perm s.buf.keys ∧ s' = { s with pc := .flushing order } := by
  unfold tick at h; split at h
  · rename_i hp; cases h; exact ⟨hp.1, hp.2, rfl⟩
  · cases h

theorem finv_tick {s s' : Flusher B} {order : List String} (h : FInvR R s) (hr : s.tick order = some s') : FInvR R s' := by
  obtain ⟨hp, hq, rfl⟩ := tick_some hr
  exact ⟨h.bw, h.fw, hq.nodup_iff.2 h.bw, fun k => hq.mem_iff⟩

/-- what a step of the flush does to the buffer and to the files under their own names. -/
inductive ChangeR (R : String → B → FB.Buf → Prop) (s s' : Flusher B) : Prop where
  | same (hb : s'.buf = s.buf) (hc : ∀ j, s'.cur j = s.cur j)
  | away (k : String) (v : B) (hv : s.buf.get? k = some v) (hb : s'.buf = s.buf) (hk : s'.cur k = none)
      (hc : ∀ j, j ≠ k → s'.cur j = s.cur j) (hp : ∃ rest b, s'.pc = .saving k rest b .moved)
  | install (k : String) (v : B) (b : FB.Buf) (hv : s.buf.get? k = some v) (hs : R k v b) (hb : s'.buf = s.buf)
      (hk : s'.cur k = some (.full b)) (hc : ∀ j, j ≠ k → s'.cur j = s.cur j)
  | forget (k : String) (v : B) (b : FB.Buf) (hv : s.buf.get? k = some v) (hs : R k v b) (hk : s.cur k = some (.full b))
      (hb : s'.buf = s.buf.del k) (hc : ∀ j, s'.cur j = s.cur j)

/-- the same when entries do not change while they are saved. -/
abbrev Change (ser : String → B → Option FB.Buf) (s s' : Flusher B) : Prop := ChangeR (fun k v b => ser k v = some b) s s'

theorem file_set (s : Flusher B) (k : String) (f : SFile) (p : FlushPc) (j : String) :
    ({ s with files := s.files.set k f, pc := p } : Flusher B).file j = if k = j then f else s.file j := by
  unfold file; simp only [get?_set]; by_cases h : k = j <;> simp [h]

theorem step_spec_rel {s s' : Flusher B} (h : FInvR R s) (hR : ∀ k v b, s.buf.get? k = some v → ser k v = some b → R k v b)
    (he : s.step ser = some s') : FInvR R s' ∧ ChangeR R s s' := by
  have hpc := h.pc
  unfold PcOkR at hpc
  unfold step at he
  match hp : s.pc with
  | .idle => rw [hp] at he; cases he
  | .flushing [] =>
    rw [hp] at he; cases he
    exact ⟨⟨h.bw, h.fw, trivial⟩, .same rfl fun _ => rfl⟩
  | .flushing (k :: rest) =>
    rw [hp] at he hpc
    simp only at he
    split at he
    · cases he
    · rename_i v hv
      split at he
      · cases he
      · rename_i b hb
        cases he
        exact ⟨⟨h.bw, h.fw, hpc.1, hpc.2, ⟨v, hv, hR k v b hv hb⟩, trivial⟩, .same rfl fun _ => rfl⟩
  | .saving k rest b pc =>
    rw [hp] at he hpc
    obtain ⟨h1, h2, ⟨v, hv, hs⟩, h4⟩ := hpc
    have hfs : ∀ f p, FInvR R { s with files := s.files.set k f, pc := p } ↔ PcOkR R ({ s with files := s.files.set k f, pc := p } : Flusher B) :=
      fun f p => ⟨fun h => h.pc, fun hp => ⟨h.bw, h.fw.set _ _, hp⟩⟩
    have hne : ∀ f p j, j ≠ k → ({ s with files := s.files.set k f, pc := p } : Flusher B).cur j = s.cur j := by
      intro f p j hj; unfold cur; rw [file_set, if_neg (Ne.symm hj)]
    have hself : ∀ f p, ({ s with files := s.files.set k f, pc := p } : Flusher B).file k = f := by
      intro f p; rw [file_set, if_pos rfl]
    cases pc with
    | start =>
      cases he
      refine ⟨(hfs _ _).2 ⟨h1, h2, ⟨v, hv, hs⟩, trivial⟩, .same rfl fun j => ?_⟩
      by_cases hj : j = k
      · subst hj; unfold cur; rw [hself]; rfl
      · exact hne _ _ j hj
    | writing =>
      cases he
      refine ⟨(hfs _ _).2 ⟨h1, h2, ⟨v, hv, hs⟩, ?_⟩, .same rfl fun j => ?_⟩
      · show (file _ k).tmp = _; rw [hself]; rfl
      · by_cases hj : j = k
        · subst hj; unfold cur; rw [hself]; rfl
        · exact hne _ _ j hj
    | written =>
      cases he
      have hnone : ((s.file k).step b .written).cur = none := by
        cases hc : (s.file k).cur <;> simp [SFile.step, hc]
      have htmp : ((s.file k).step b .written).tmp = some (.full b) := by
        have h4 : (s.file k).tmp = some (.full b) := h4
        cases hc : (s.file k).cur <;> simp [SFile.step, hc, h4]
      refine ⟨(hfs _ _).2 ⟨h1, h2, ⟨v, hv, hs⟩, ?_, ?_⟩, .away k v hv rfl ?_ (hne _ _) ⟨rest, b, rfl⟩⟩
      · rw [hself]; exact hnone
      · rw [hself]; exact htmp
      · unfold cur; rw [hself]; exact hnone
    | moved =>
      cases he
      have hcur : ((s.file k).step b .moved).cur = some (.full b) := h4.2
      refine ⟨(hfs _ _).2 ⟨h1, h2, ⟨v, hv, hs⟩, ?_⟩, .install k v b hv hs rfl ?_ (hne _ _)⟩
      · show (file _ k).cur = _; rw [hself]; exact hcur
      · unfold cur; rw [hself]; exact hcur
    | installed =>
      cases he
      refine ⟨(hfs _ _).2 ⟨h1, h2, ⟨v, hv, hs⟩, ?_⟩, .same rfl fun j => ?_⟩
      · show (file _ k).cur = _; rw [hself]; exact h4
      · by_cases hj : j = k
        · subst hj; unfold cur; rw [hself]; rfl
        · exact hne _ _ j hj
    | done =>
      cases he
      refine ⟨⟨h.bw.del k, h.fw, (List.nodup_cons.1 h1).2, ?_⟩, .forget k v b hv hs h4 rfl fun _ => rfl⟩
      intro j
      rw [mem_keys_del, ← h2]
      constructor
      · intro hj
        refine ⟨?_, List.mem_cons_of_mem _ hj⟩
        rintro rfl; exact (List.nodup_cons.1 h1).1 hj
      · rintro ⟨h3, h4⟩
        rcases List.mem_cons.1 h4 with rfl | h4
        · exact absurd rfl h3
        · exact h4

theorem step_spec {s s' : Flusher B} (h : FInv ser s) (he : s.step ser = some s') : FInv ser s' ∧ Change ser s s' :=
  step_spec_rel h (fun _ _ _ _ h => h) he

/-- when the flush loop is left, the buffer is empty. -/
theorem flushed_empty {s : Flusher B} (h : FInvR R s) (hp : s.pc = .flushing []) : s.buf = [] := by
  have := h.pc
  unfold PcOkR at this
  rw [hp] at this
  cases hb : s.buf with
  | nil => rfl
  | cons e m =>
    have := (this.2 e.1).2 (by rw [hb]; simp)
    cases this

/-- the flush loop can always go on, if the values can be serialized. -/
theorem step_enabled {s : Flusher B} (h : FInvR R s) (hs : ∀ k v, s.buf.get? k = some v → ∃ b, ser k v = some b)
    (hp : s.pc ≠ .idle) : ∃ s', s.step ser = some s' := by
  have hpc := h.pc
  unfold PcOkR at hpc
  unfold step
  match hpc' : s.pc with
  | .idle => exact absurd hpc' hp
  | .flushing [] => exact ⟨_, rfl⟩
  | .flushing (k :: rest) =>
    rw [hpc'] at hpc
    obtain ⟨v, hv⟩ := (mem_keys_iff _ _).1 ((hpc.2 k).1 (by simp))
    obtain ⟨b, hb⟩ := hs k v hv
    simp only [hv, hb]
    exact ⟨_, rfl⟩
  | .saving k rest b pc => cases pc <;> exact ⟨_, rfl⟩

end Goir.Flusher
