import Verif.Lemmas.DiskBytesOpen
/-!
# The store with bytes follows the store with objects
-/
namespace Goir
open GoMap

/-- opening a store. -/
def isOpen : CDisk.Act → Bool
  | .openRest .. => true
  | _ => false

theorem Quiet.opens {bs : List CDisk.Act} (h : Quiet bs) : bs.filter isOpen = [] := by
  rw [List.filter_eq_nil_iff]
  intro b hb e
  cases b <;> first | exact absurd rfl (h _ hb _ _) | cases e

theorem AInv.run {D : String → Prop} {a a' : CDisk} {bs : List CDisk.Act} (h : AInv D a) (hr : a.run bs = some a') (ho : ∀ n progs, CDisk.Act.openRest n progs ∈ bs → ∀ p ∈ progs, ∀ o ∈ p, OpNames D o) : AInv D a' := by
  induction bs generalizing a with
  | nil => cases hr; exact h
  | cons b bs ih =>
    obtain ⟨t, h1, h2⟩ := CDisk.run_cons.1 hr
    exact ih (h.step h1 fun n progs e => ho n progs (by rw [e]; exact List.mem_cons_self)) h2 fun n progs hm => ho n progs (List.mem_cons_of_mem _ hm)

section
variable {root : Path} {D : String → Prop} {s : BDisk} {a : CDisk}

theorem crash_sim (h : BRel root D s a) {z : Bytes → Bytes} {s' : BDisk} (he : s.exec z root .crash = some s') : ∃ a', a.exec .crash = some a' ∧ BRel root D s' a' := by
  simp only [BDisk.exec] at he
  split at he
  · cases he
  · rename_i hp
    cases he
    exact ⟨_, crash_exec (by rw [h.iproc]; exact hp), kill_rel h.files h.earlier h.begun h.ihist h.uuids⟩

theorem open_sim (h : BRel root D s a) (hi : AInv D a) {z : Bytes → Bytes} {s' : BDisk} (he : s.exec z root .open_ = some s') : ∃ a', a.exec .open_ = some a' ∧ BRel root D s' a' := by
  simp only [BDisk.exec] at he
  split at he
  · rename_i hp
    cases he
    have hp' : a.ix.proc = .down := by rw [h.iproc]; exact hp
    have hdn := hi.ok.ix.down hp'
    have hsv : s.saveI = none := by
      have := h.merger
      rw [hdn.merger] at this
      cases hs : s.saveI with
      | none => rfl
      | some x =>
        rw [hs] at this
        obtain ⟨c, pc⟩ := x
        obtain ⟨f, rest, seen, td, acc, b, apc, _, h2, _⟩ := this
        cases h2
    refine ⟨{ a with ix := { a.ix with proc := .opening, panicked := false, merger := .atField a.ix.dirs.keys [] } }, by simp [CDisk.exec, IxState.exec, hp'], ?_⟩
    rw [h.files.dirs]
    exact { h with
      iproc := rfl
      merger := by
        show MgRel root s.fs (.atField _ _) s.saveI _
        rw [hsv]; rfl
      inDirs := fun _ h => h }
  · cases he

/-- every step of the store with bytes is some steps of the store with objects. -/
theorem sim_step (h : BRel root D s a) (hi : AInv D a) (hD : Ids D) {z : Bytes → Bytes} (hz : ∀ d, Spec.Gz.Written d (z d)) {act : CDisk.Act} {s' : BDisk} (he : s.exec z root act = some s') :
    ∃ bs a', a.run bs = some a' ∧ BRel root D s' a' ∧ bs.filter isOpen = [act].filter isOpen := by
  have quiet : isOpen act = false → (∃ bs a', a.run bs = some a' ∧ BRel root D s' a' ∧ Quiet bs) → ∃ bs a', a.run bs = some a' ∧ BRel root D s' a' ∧ bs.filter isOpen = [act].filter isOpen := by
    rintro e ⟨bs, a', h1, h2, h3⟩
    exact ⟨bs, a', h1, h2, by rw [h3.opens]; simp [e]⟩
  have one : (∃ a', a.exec act = some a' ∧ BRel root D s' a') → ∃ bs a', a.run bs = some a' ∧ BRel root D s' a' ∧ bs.filter isOpen = [act].filter isOpen := by
    rintro ⟨a', h1, h2⟩
    exact ⟨_, a', run_one h1, h2, rfl⟩
  cases act with
  | client i k =>
    simp only [BDisk.exec] at he
    split at he
    · rename_i ids name id todo out hc
      split at he
      · rename_i hu
        cases he
        obtain ⟨b, a', h1, h2, h3⟩ := readDoc_sim (k := k) h hi hD hu hc
        refine quiet rfl ⟨_, a', run_one h1, h2, quiet_one ?_⟩
        rcases h3 with rfl | rfl <;> intro _ _ e <;> cases e
      · cases he
    · rename_i hc
      obtain ⟨d', h1, rfl⟩ := Option.map_eq_some_iff.1 he
      exact one (client_sim h (fun ids name id todo out e => hc ids name id todo out e) h1)
  | recvM i =>
    obtain ⟨d', h1, rfl⟩ := Option.map_eq_some_iff.1 he
    exact one (loops_sim h (.inl ⟨i, .inl rfl⟩) h1)
  | recvN i =>
    obtain ⟨d', h1, rfl⟩ := Option.map_eq_some_iff.1 he
    exact one (loops_sim h (.inl ⟨i, .inr (.inl rfl)⟩) h1)
  | recvD i =>
    obtain ⟨d', h1, rfl⟩ := Option.map_eq_some_iff.1 he
    exact one (loops_sim h (.inl ⟨i, .inr (.inr rfl)⟩) h1)
  | tickM o =>
    obtain ⟨d', h1, rfl⟩ := Option.map_eq_some_iff.1 he
    exact one (loops_sim h (.inr ⟨o, .inl rfl⟩) h1)
  | tickN o =>
    obtain ⟨d', h1, rfl⟩ := Option.map_eq_some_iff.1 he
    exact one (loops_sim h (.inr ⟨o, .inr (.inl rfl)⟩) h1)
  | tickD o =>
    obtain ⟨d', h1, rfl⟩ := Option.map_eq_some_iff.1 he
    exact one (loops_sim h (.inr ⟨o, .inr (.inr rfl)⟩) h1)
  | stepM => exact quiet rfl (stepM_sim h hi hD hz he)
  | stepN => exact quiet rfl (stepN_sim h hi hD hz he)
  | stepD => exact quiet rfl (stepD_sim h hi hD hz he)
  | ix b =>
    simp only [BDisk.exec] at he
    split at he
    · rename_i hg
      cases b with
      | create name => exact quiet rfl (create_sim h hi hD hz hg he)
      | write => exact quiet rfl (write_sim h hi hg he)
      | merge =>
        obtain ⟨bs, a', h1, h2, h3⟩ := merge_sim h hi hD hz hg he
        exact quiet rfl ⟨bs, a', h1, h2, h3.quiet⟩
      | startMerge =>
        simp only [BDisk.ixExec] at he
        split at he
        · rename_i hc
          cases he
          obtain ⟨hg', hnd⟩ := live h hi hg
          obtain ⟨h1, h2⟩ := h.merger.none (by rw [hc.2]; intro _ _ _ _ _ e; cases e)
          have hd := h.files.dirs
          refine one ⟨_, ix_exec (ix := { a.ix with merger := .atField a.ix.dirs.keys [] }) rfl hg' ?_ hnd, by rw [hd]; exact h.place (m := .atField a.ix.dirs.keys []) h1 (fun _ h => h)⟩
          simp only [IxState.exec]
          rw [if_pos ⟨by rw [h.iproc]; exact hc.1, by rw [h2]; exact hc.2⟩]
        · cases he
      | recv =>
        obtain ⟨d', h1, rfl⟩ := Option.map_eq_some_iff.1 he
        exact one (ixloop_sim h hi (.inl rfl) hg h1)
      | tick o =>
        obtain ⟨d', h1, rfl⟩ := Option.map_eq_some_iff.1 he
        exact one (ixloop_sim h hi (.inr (.inl ⟨o, rfl⟩)) hg h1)
      | flushed =>
        obtain ⟨d', h1, rfl⟩ := Option.map_eq_some_iff.1 he
        exact one (ixloop_sim h hi (.inr (.inr rfl)) hg h1)
      | _ => cases he
    · cases he
  | crash => exact one (crash_sim h he)
  | open_ => exact one (open_sim h hi he)
  | openRest n progs => exact one (openRest_sim h hi he)

theorem brun_cons {z : Bytes → Bytes} {s s' : BDisk} {act : CDisk.Act} {as : List CDisk.Act} : s.run z root (act :: as) = some s' ↔ ∃ t, s.exec z root act = some t ∧ t.run z root as = some s' := by
  unfold BDisk.run; rw [List.foldlM_cons]; cases s.exec z root act <;> simp

theorem sim_run (hD : Ids D) {z : Bytes → Bytes} (hz : ∀ d, Spec.Gz.Written d (z d)) {as : List CDisk.Act} {s' : BDisk} (h : BRel root D s a) (hi : AInv D a)
    (ho : ∀ n progs, CDisk.Act.openRest n progs ∈ as → ∀ p ∈ progs, ∀ o ∈ p, OpNames D o) (he : s.run z root as = some s') :
    ∃ bs a', a.run bs = some a' ∧ BRel root D s' a' ∧ bs.filter isOpen = as.filter isOpen := by
  induction as generalizing s a with
  | nil => cases he; exact ⟨[], a, rfl, h, rfl⟩
  | cons act as ih =>
    obtain ⟨t, h1, h2⟩ := brun_cons.1 he
    obtain ⟨bs, a1, r1, r2, r3⟩ := sim_step h hi hD hz h1
    have hi1 : AInv D a1 := hi.run r1 fun n progs hm => by
      have : CDisk.Act.openRest n progs ∈ bs.filter isOpen := List.mem_filter.2 ⟨hm, rfl⟩
      rw [r3] at this
      have := (List.mem_filter.1 this).1
      simp only [List.mem_singleton] at this
      exact ho n progs (by rw [this]; exact List.mem_cons_self)
    obtain ⟨bs', a', q1, q2, q3⟩ := ih r2 hi1 (fun n progs hm => ho n progs (List.mem_cons_of_mem _ hm)) h2
    refine ⟨bs ++ bs', a', by rw [CDisk.run_append, r1]; exact q1, q2, ?_⟩
    rw [List.filter_append, r3, q3, ← List.filter_append]
    rfl

/-- an empty root folder: its own path is there, nothing is below it. -/
structure EmptyRoot (root : Path) (fs : FS) : Prop where
  wf : fs.WF
  above : ∀ i < root.length, fs.get? (root.take (i + 1)) = some .dir
  empty : ∀ x l, fs.get? (root ++ x :: l) = none

theorem brel_init {fs : FS} (h : EmptyRoot root fs) : BRel root D { fs := fs } {} := by
  have hlist : ∀ l x, fs.get? (root ++ l ++ [x]) = none := by
    intro l x
    cases l with
    | nil => simpa using h.empty x []
    | cons y l => simpa using h.empty y (l ++ [x])
  have hls : ∀ l, fs.listFiles (root ++ l) = [] := by
    intro l
    rw [List.eq_nil_iff_forall_not_mem]
    intro n hn
    obtain ⟨c, hc⟩ := (FS.mem_listFiles fs h.wf _ _).1 hn
    rw [hlist] at hc; cases hc
  refine { up := rfl, mem := MemEq.refl _, cache := rfl, clients := rfl, earlier := rfl, begun := rfl, returned := rfl, answers := rfl, iproc := rfl, imem := rfl, ichan := rfl, ibuf := rfl, ihist := rfl,
           files := ?_, uuids := fun _ _ _ h => (by cases h), mx := ⟨rfl, rfl⟩, nf := ⟨rfl, rfl⟩, fl := ⟨rfl, rfl⟩, writer := rfl, merger := rfl, inDirs := fun _ h => by cases h }
  refine { wf := h.wf, above := h.above, folder := ?_, slot := ?_, frags := ?_, frag := ?_, dirs := ?_, names := fun _ h => (by cases h), absent := fun _ _ => ⟨rfl, rfl, rfl⟩ }
  · intro p hp
    cases hp with
    | above hi => exact .inr (h.above _ hi)
    | field hf => exact .inl (h.empty _ _)
    | temp hf => exact .inl (h.empty _ _)
    | docs => exact .inl (h.empty _ _)
    | docs' => exact .inl (h.empty _ _)
  · intro σ _
    have hd : ∀ x, fs.get? (σ.dir root ++ [x]) = none := by
      intro x
      cases σ <;> exact hlist _ x
    have hA : slots {} σ = {} := by cases σ <;> rfl
    rw [hA]
    constructor <;> (rw [hd]; trivial)
  · intro f _
    exact hls [f, "temp"]
  · intro f n _
    rw [show fs.get? (fragPath root f n) = none from h.empty _ _]
    trivial
  · show fs.listDirectories root = []
    rw [List.eq_nil_iff_forall_not_mem]
    intro n hn
    have := ((FS.mem_listDirectories fs h.wf _ _).1 hn).1
    have e := hlist [] n
    simp only [List.append_nil] at e
    rw [e] at this; cases this

end
end Goir
