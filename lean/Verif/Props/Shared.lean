import Verif.Model.Shared
import Verif.Props.OpeningKillSearch
/-!
# C131: several processes that have one folder open
-/
namespace Goir
open GoMap Spec Spec.Opening Opening

namespace Shared
open BDisk

variable {root : Path} {z : Bytes → Bytes} {fs0 : FS}

/-- the process is merging an index: it is being opened, or its background goroutine is at it. -/
def Merging (p : BDisk) : Prop := p.d.ix.merger ≠ .idle ∧ p.d.ix.merger ≠ .dead

/-- no two processes are merging. -/
def OneMerges (s : Shared) : Prop := ∀ (i j : Nat) (p q : BDisk), i ≠ j → s.procs[i]? = some p → s.procs[j]? = some q → Merging p → ¬ Merging q

/-- field `f` has had an index file during the run. -/
def HadIndex (z : Bytes → Bytes) (root : Path) (t : Shared) (xs : List (Nat × CDisk.Act)) (f : String) : Prop :=
  ∃ (xs0 xs1 : List (Nat × CDisk.Act)) (s0 : Shared) (b : Bytes), xs = xs0 ++ xs1 ∧ t.run z root xs0 = some s0 ∧ s0.fs.get? (root ++ [f, "index"]) = some (.file b)

/-- in no state of the run are two processes merging. -/
def InTurn (z : Bytes → Bytes) (root : Path) (t : Shared) (xs : List (Nat × CDisk.Act)) : Prop :=
  ∀ (xs0 xs1 : List (Nat × CDisk.Act)) (s0 : Shared), xs = xs0 ++ xs1 → t.run z root xs0 = some s0 → OneMerges s0

/-- whenever no process is merging, every index file is there that was there before. -/
def NoneMissing (z : Bytes → Bytes) (root : Path) (t : Shared) (xs : List (Nat × CDisk.Act)) : Prop :=
  ∀ (xs0 xs1 : List (Nat × CDisk.Act)) (s0 : Shared), xs = xs0 ++ xs1 → t.run z root xs0 = some s0 → (∀ p ∈ s0.procs, ¬ Merging p) → ∀ f, HadIndex z root t xs0 f → ∃ b, s0.fs.get? (root ++ [f, "index"]) = some (.file b)

theorem not_merging {p : BDisk} : ¬ Merging p ↔ p.d.ix.merger = .idle ∨ p.d.ix.merger = .dead := by
  unfold Merging
  constructor
  · intro h
    by_cases e : p.d.ix.merger = .idle
    · exact .inl e
    · exact .inr (by_contra fun e' => h ⟨e, e'⟩)
  · rintro (e | e) ⟨h, h'⟩
    · exact h e
    · exact h' e

/-- a step that touches the files is a step of the merge. -/
theorem exec_still {s s' : BDisk} {act : CDisk.Act} (hc : Calm fs0 root s) (ho : OnlyReads act) (he : s.exec z root act = some s') : s'.fs = s.fs ∨ s.mergeStep z root = some s' := by
  have hcur : ∀ i c, s.d.curOf i = some c → ∃ ids name loc, c = .read ids name loc := fun i c hc' => by
    unfold CDisk.curOf at hc'
    obtain ⟨cl, hcl, hcur⟩ := Option.bind_eq_some_iff.1 hc'
    obtain ⟨ids, name, loc, e, -⟩ := (hc.readers.clients cl (List.mem_of_getElem? hcl)).cur _ hcur
    exact ⟨ids, name, loc, e⟩
  cases act with
  | client i k =>
    simp only [BDisk.exec] at he
    split at he
    · split at he
      · cases he
        unfold BDisk.readDoc
        split <;> exact .inl rfl
      · cases he
    · obtain ⟨d', h1, rfl⟩ := Option.map_eq_some_iff.1 he
      exact .inl rfl
  | stepM =>
    simp only [BDisk.exec] at he
    obtain ⟨x, h1, h2⟩ := Option.map_eq_some_iff.1 he
    obtain rfl := flush_still hc.still.mp hc.still.ms h1
    cases h2; exact .inl rfl
  | stepN =>
    simp only [BDisk.exec] at he
    obtain ⟨x, h1, h2⟩ := Option.map_eq_some_iff.1 he
    obtain rfl := flush_still hc.still.np hc.still.ns h1
    cases h2; exact .inl rfl
  | stepD =>
    simp only [BDisk.exec] at he
    obtain ⟨x, h1, h2⟩ := Option.map_eq_some_iff.1 he
    obtain rfl := flush_still hc.still.dp hc.still.ds h1
    cases h2; exact .inl rfl
  | ix a =>
    simp only [BDisk.exec] at he
    split at he
    · cases a with
      | merge => exact .inr he
      | create name => rcases hc.still.iw with hw | hw <;> simp [BDisk.ixExec, BDisk.create, hw] at he
      | write => rcases hc.still.iw with hw | hw <;> simp [BDisk.ixExec, BDisk.write, hw] at he
      | startMerge =>
        simp only [BDisk.ixExec] at he
        split at he
        · cases he; exact .inl rfl
        · cases he
      | recv => obtain ⟨d', h1, rfl⟩ := Option.map_eq_some_iff.1 he; exact .inl rfl
      | tick o => obtain ⟨d', h1, rfl⟩ := Option.map_eq_some_iff.1 he; exact .inl rfl
      | flushed => obtain ⟨d', h1, rfl⟩ := Option.map_eq_some_iff.1 he; exact .inl rfl
      | _ => simp [BDisk.ixExec] at he
    · cases he
  | crash =>
    simp only [BDisk.exec] at he
    split at he <;> cases he
    exact .inl rfl
  | open_ =>
    simp only [BDisk.exec] at he
    split at he <;> cases he
    exact .inl rfl
  | openRest n progs =>
    simp only [BDisk.exec] at he
    split at he
    · split at he <;> cases he <;> exact .inl rfl
    · cases he
  | _ => obtain ⟨d', h1, rfl⟩ := Option.map_eq_some_iff.1 he; exact .inl rfl

/-- a step of a process that is not merging does not touch the files. -/
theorem exec_quiet {s s' : BDisk} {act : CDisk.Act} (hc : Calm fs0 root s) (hq : ¬ Merging s) (ho : OnlyReads act) (he : s.exec z root act = some s') : s'.fs = s.fs := by
  rcases exec_still hc ho he with h | h
  · exact h
  · rw [not_merging] at hq
    unfold BDisk.mergeStep at h
    rcases hq with e | e <;> rw [e] at h <;> cases h

/-- other files, seen by a process that is not merging. -/
theorem Calm.seeing {p : BDisk} {fs fs' : FS} (h : Calm fs0 root { p with fs := fs }) (hq : ¬ Merging p) (ht : Tree root fs') (hd : ∀ id, fs'.get? (root ++ ["docs", "metrics", id]) = fs0.get? (root ++ ["docs", "metrics", id])) :
    Calm fs0 root { p with fs := fs' } := by
  rw [not_merging] at hq
  refine ⟨⟨ht, hd, ?_⟩, h.still.of rfl rfl rfl rfl rfl rfl rfl rfl rfl, h.readers, h.down⟩
  have ha := h.folder.aside
  show Aside root fs' p.d.ix.merger p.saveI
  have ha : Aside root fs p.d.ix.merger p.saveI := ha
  rcases hq with e | e <;> rw [e] at ha ⊢ <;> cases hs : p.saveI with
  | none => trivial
  | some x => rw [hs] at ha; exact ha.elim

/-- the processes are reading, and one of them is responsible for the state of the index files. -/
structure Inv (fs0 : FS) (root : Path) (z : Bytes → Bytes) (had : String → Prop) (s : Shared) : Prop where
  calm : ∀ (i : Nat) (p : BDisk), s.procs[i]? = some p → Calm fs0 root (s.sees p)
  kept : ∃ (i : Nat) (p : BDisk), s.procs[i]? = some p ∧ KeptState fs0 root z had (s.sees p) ∧ ∀ (j : Nat) (q : BDisk), j ≠ i → s.procs[j]? = some q → ¬ Merging q

theorem KeptState.quiet {had : String → Prop} {p q : BDisk} (h : KeptState fs0 root z had p) (hp : ¬ Merging p) (hq : ¬ Merging q) (e : q.fs = p.fs) : KeptState fs0 root z had q := by
  rw [not_merging] at hp hq
  refine ⟨by rw [e]; exact h.rest, ?_⟩
  have hk := h.keep
  have hk : ∀ g, SaysSame fs0 root p.fs g := by
    rcases hp with e' | e' <;> rw [e'] at hk <;> exact hk
  rw [e]
  rcases hq with e' | e' <;> rw [e'] <;> exact hk

theorem step_inv (hz : ∀ d, Gz.Written d (z d)) {had : String → Prop} {s s' : Shared} {i : Nat} {act : CDisk.Act} (h : Inv fs0 root z had s) (ho : OnlyReads act) (h1 : OneMerges s) (h1' : OneMerges s') (he : s.exec z root (i, act) = some s')
    (hh : ∀ g b, s.fs.get? (root ++ [g, "index"]) = some (.file b) → had g) (hd : (∀ p ∈ s'.procs, ¬ Merging p) → ∀ g, had g → ∃ b, s'.fs.get? (root ++ [g, "index"]) = some (.file b)) : Inv fs0 root z had s' := by
  unfold Shared.exec at he
  simp only at he
  split at he
  · cases he
  rename_i p hp
  obtain ⟨p', hx, rfl⟩ := Option.map_eq_some_iff.1 he
  have hcp := h.calm i p hp
  have hcp' := exec_calm hcp ho hx
  have hlt : i < s.procs.length := (List.getElem?_eq_some_iff.1 hp).1
  have hi' : (s.procs.set i p')[i]? = some p' := by rw [List.getElem?_set_self hlt]
  have hj' : ∀ (j : Nat) (q : BDisk), j ≠ i → ((s.procs.set i p')[j]? = some q ↔ s.procs[j]? = some q) := fun j q hne => by rw [List.getElem?_set_ne hne.symm]
  have esee : (⟨p'.fs, s.procs.set i p'⟩ : Shared).sees p' = p' := rfl
  obtain ⟨o, po, hpo, hko, hother⟩ := h.kept
  by_cases hown : (∀ (j : Nat) (q : BDisk), j ≠ i → s.procs[j]? = some q → ¬ Merging q)
  · -- nobody else is merging
    have hkp : KeptState fs0 root z had (s.sees p) := by
      by_cases e : o = i
      · subst e; rw [hp] at hpo; cases hpo; exact hko
      · exact KeptState.quiet hko (hown o po e hpo) (hother i p (Ne.symm e) hp) rfl
    have hkp' : KeptState fs0 root z had p' := by
      refine exec_kept hz hcp hkp ho hh hx fun hdn => hd fun q hq => ?_
      obtain ⟨j, hj⟩ := List.getElem?_of_mem hq
      by_cases e : j = i
      · subst e; rw [hi'] at hj; cases hj
        exact not_merging.2 (.inl (hcp'.down hdn))
      · exact hown j q e ((hj' j q e).1 hj)
    refine ⟨fun j q hq => ?_, i, p', hi', hkp', fun j q hne hq => hown j q hne ((hj' j q hne).1 hq)⟩
    by_cases e : j = i
    · subst e
      rw [show (s.procs.set j p')[j]? = some p' from hi'] at hq
      cases hq
      exact hcp'
    · have hq := (hj' j q e).1 hq
      exact Calm.seeing (fs := s.fs) (h.calm j q hq) (hown j q e hq) hcp'.folder.tree hcp'.folder.docs
  · -- somebody else is: this step does not touch the files
    push Not at hown
    obtain ⟨k, pk, hne, hpk, hmk⟩ := hown
    have hko' : k = o := by
      by_contra e
      exact hother k pk e hpk hmk
    subst hko'
    rw [hpk] at hpo
    obtain rfl := Option.some.inj hpo
    have hq : ¬ Merging p := h1 k i pk p hne hpk hp hmk
    have hfs : p'.fs = s.fs := exec_quiet hcp hq ho hx
    have hpk' : (s.procs.set i p')[k]? = some pk := (hj' k pk hne).2 hpk
    have hq' : ¬ Merging p' := h1' k i pk p' hne hpk' hi' hmk
    refine ⟨fun j q hjq => ?_, k, pk, hpk', ?_, fun j q hjk hjq => ?_⟩
    · by_cases e : j = i
      · subst e
        rw [show (s.procs.set j p')[j]? = some p' from hi'] at hjq
        obtain rfl := Option.some.inj hjq
        exact hcp'
      · have hjq := (hj' j q e).1 hjq
        show Calm fs0 root { q with fs := p'.fs }
        rw [hfs]
        exact h.calm j q hjq
    · show KeptState fs0 root z had { pk with fs := p'.fs }
      rw [hfs]
      exact hko
    · by_cases e : j = i
      · subst e
        rw [show (s.procs.set j p')[j]? = some p' from hi'] at hjq
        obtain rfl := Option.some.inj hjq
        exact hq'
      · exact hother j q hjk ((hj' j q e).1 hjq)

theorem run_snoc {t s : Shared} {xs : List (Nat × CDisk.Act)} {x : Nat × CDisk.Act} (h : t.run z root (xs ++ [x]) = some s) : ∃ s1, t.run z root xs = some s1 ∧ s1.exec z root x = some s := by
  unfold Shared.run at h ⊢
  rw [List.foldlM_append] at h
  obtain ⟨s1, h1, h2⟩ := Option.bind_eq_some_iff.1 h
  refine ⟨s1, h1, ?_⟩
  rw [List.foldlM_cons] at h2
  obtain ⟨s2, h3, h4⟩ := Option.bind_eq_some_iff.1 h2
  cases h4; exact h3

theorem run_prefix {t s : Shared} {xs ys : List (Nat × CDisk.Act)} (h : t.run z root (xs ++ ys) = some s) : ∃ s1, t.run z root xs = some s1 ∧ s1.run z root ys = some s := by
  unfold Shared.run at h ⊢
  rw [List.foldlM_append] at h
  exact Option.bind_eq_some_iff.1 h

theorem Inv.mono {had had' : String → Prop} {s : Shared} (hm : ∀ g, had g → had' g) (h : Inv fs0 root z had s) : Inv fs0 root z had' s := by
  obtain ⟨i, p, h1, h2, h3⟩ := h.kept
  exact ⟨h.calm, i, p, h1, ⟨h2.rest, h2.keep.mono hm⟩, h3⟩

theorem start_get {fs : FS} {n i : Nat} {p : BDisk} (h : (start fs n).procs[i]? = some p) : p = ({ fs := fs } : BDisk).kill := by
  unfold start at h
  exact List.eq_of_mem_replicate (List.mem_of_getElem? h)

theorem run_inv {fs : FS} {n : Nat} (h0 : Tree root fs) (hz : ∀ d, Gz.Written d (z d)) (xs : List (Nat × CDisk.Act)) : ∀ {s : Shared}, (start fs (n + 1)).run z root xs = some s → (∀ x ∈ xs, OnlyReads x.2) →
    InTurn z root (start fs (n + 1)) xs → NoneMissing z root (start fs (n + 1)) xs → Inv fs root z (HadIndex z root (start fs (n + 1)) xs) s := by
  induction xs using List.reverseRecOn with
  | nil =>
    intro s h _ _ _
    cases h
    refine ⟨fun i p hp => ?_, 0, ({ fs := fs } : BDisk).kill, rfl, ⟨fun _ _ => rfl, fun _ _ _ => Iff.rfl⟩, fun j q _ hq => ?_⟩
    · obtain rfl := start_get hp
      exact Calm.kill (s := { fs := fs }) h0 fun _ => rfl
    · obtain rfl := start_get hq
      exact not_merging.2 (.inl rfl)
  | append_singleton xs x ih =>
    intro s h ho ht hw
    obtain ⟨s1, h1, h2⟩ := run_snoc h
    have hs1 := ih h1 (fun y hy => ho y (by simp [hy])) (fun xs0 xs1 s0 e => ht xs0 (xs1 ++ [x]) s0 (by simp [e])) (fun xs0 xs1 s0 e => hw xs0 (xs1 ++ [x]) s0 (by simp [e]))
    refine step_inv (i := x.1) (act := x.2) hz (hs1.mono fun g => ?_) (ho x (by simp)) (ht xs [x] s1 rfl h1) (ht (xs ++ [x]) [] s (by simp) h) h2 (fun g b hb => ⟨xs, [x], s1, b, rfl, h1, hb⟩) fun hq g hg => hw (xs ++ [x]) [] s (by simp) h hq g hg
    rintro ⟨xs0, xs1, s0, b, rfl, hr⟩
    exact ⟨xs0, xs1 ++ [x], s0, b, by simp, hr⟩

/-- **C131.** Any number of processes that only read have one folder, and are opened and killed at any byte. If no two of them merge at the same time, and none ends while an index file is missing, the folder says of every field what it said at first —
but for the field that the one process that merges has between its two renames: of this the file `index_temp` holds all. -/
theorem c131_shared_partial {fs : FS} {n : Nat} {s : Shared} {xs : List (Nat × CDisk.Act)} (h0 : Tree root fs) (hz : ∀ d, Gz.Written d (z d)) (h : (start fs (n + 1)).run z root xs = some s) (ho : ∀ x ∈ xs, OnlyReads x.2)
    (ht : InTurn z root (start fs (n + 1)) xs) (hw : NoneMissing z root (start fs (n + 1)) xs) (f : String) :
    (∀ term d, Says s.fs root f term d ↔ Says fs root f term d) ∨
    (s.fs.get? (root ++ [f, "index"]) = none ∧ HadIndex z root (start fs (n + 1)) xs f ∧ ∃ buf m, s.fs.get? (root ++ [f, "index_temp"]) = some (.file buf) ∧ HoldsIndex buf m ∧ ∀ term d, hasPosting m term d = true ↔ Says fs root f term d) := by
  have hi := run_inv h0 hz xs h ho ht hw
  obtain ⟨i, p, hp, hk, -⟩ := hi.kept
  have ha := (hi.calm i p hp).folder.aside
  by_cases hg : RenameGap p.d.ix.merger p.saveI f
  · by_cases hh : HadIndex z root (start fs (n + 1)) xs f
    · exact .inr ⟨RenameGap.absent hk hg, hh, RenameGap.holds hz hk ha hg⟩
    · exact .inl (KeptFolder.same hz hk ha (.inr hh))
  · exact .inl (KeptFolder.same hz hk ha (.inl hg))

/-- … and it changes nothing but index files and fragments. -/
theorem c131_untouched_partial {fs : FS} {n : Nat} {s : Shared} {xs : List (Nat × CDisk.Act)} (h0 : Tree root fs) (hz : ∀ d, Gz.Written d (z d)) (h : (start fs (n + 1)).run z root xs = some s) (ho : ∀ x ∈ xs, OnlyReads x.2)
    (ht : InTurn z root (start fs (n + 1)) xs) (hw : NoneMissing z root (start fs (n + 1)) xs) (p : Path) (hp : ∀ f, ¬ Mine root f p) : s.fs.get? p = fs.get? p := by
  obtain ⟨i, q, hq, hk, -⟩ := (run_inv h0 hz xs h ho ht hw).kept
  exact hk.rest p hp

/-- … and the GetFields of every process answer with the fields of the documents as they were stored. -/
theorem c131_fields_partial {fs : FS} {n : Nat} {s : Shared} {xs : List (Nat × CDisk.Act)} (h0 : Tree root fs) (hz : ∀ d, Gz.Written d (z d)) (h : (start fs (n + 1)).run z root xs = some s) (ho : ∀ x ∈ xs, OnlyReads x.2)
    (ht : InTurn z root (start fs (n + 1)) xs) (hw : NoneMissing z root (start fs (n + 1)) xs) {i : Nat} {p : BDisk} (hp : s.procs[i]? = some p) {ids : List String} {name : String} {out : GoMap String Field}
    (ha : (ids, name, out) ∈ p.d.answers) {id : String} (hid : PlainName id) : (∀ fd, out.get? id = some fd ↔ id ∈ ids ∧ Stored fs root id name fd) ∧ (id ∈ ids → ¬ DamagedDocument fs root id) := by
  obtain ⟨h1, h2⟩ := ((run_inv h0 hz xs h ho ht hw).calm i p hp).readers.answers _ ha id hid
  have hd := damaged_iff (fs := fs) (root := root) hid
  refine ⟨fun fd => ?_, fun hx hdm => h2 hx (hd.2 hdm)⟩
  rw [h1, ← stored_iff hid]
  by_cases hx : id ∈ ids <;> simp [hx]

end Shared
end Goir
