import Verif.Model.FS
/-! # Helper lemmas about paths and SecureSaveFile -/
namespace Goir
open GoMap

/-- a name that is one path component: no slash, not empty, not "." or "..". -/
def PlainName (s : String) : Prop := '/' ∉ s.toList ∧ s ≠ "" ∧ s ≠ "." ∧ s ≠ ".."

instance (s : String) : Decidable (PlainName s) := inferInstanceAs (Decidable (_ ∧ _))

theorem splitSlash_of_not_mem {cs : List Char} (h : '/' ∉ cs) : splitSlash cs = [cs] := by
  induction cs with
  | nil => rfl
  | cons c cs ih =>
    simp only [List.mem_cons, not_or] at h
    simp [splitSlash, Ne.symm h.1, ih h.2]

theorem join_plain {base : Path} {s : String} (h : PlainName s) : join base s = base ++ [s] := by
  obtain ⟨h1, h2, h3, h4⟩ := h
  simp [join, components, splitSlash_of_not_mem h1, cleanStep, h2, h3, h4]

theorem plain_suffix {s t : String} (h : '/' ∉ s.toList) (ht : '/' ∉ t.toList) (h2 : 2 < t.length) : PlainName (s ++ t) := by
  have hl : 2 < (s ++ t).length := by simp; omega
  refine ⟨by simp [h, ht], ?_, ?_, ?_⟩ <;> intro e <;> rw [e] at hl <;> revert hl <;> decide

namespace SaveCall

/-- the situation in which `SecureSaveFile` is called: the folder exists, the name is a plain name, and none of the three
paths is a directory. -/
structure Ready (c : SaveCall) (fs : FS) : Prop where
  plain : PlainName c.name
  dir   : fs.isDir c.path = true
  ncur  : fs.get? (c.path ++ [c.name]) ≠ some .dir
  ntmp  : fs.get? (c.path ++ [c.name ++ "_temp"]) ≠ some .dir
  nold  : fs.get? (c.path ++ [c.name ++ "_old"]) ≠ some .dir

variable {c : SaveCall} {fs0 : FS}

theorem cur_eq (h : PlainName c.name) : c.cur = c.path ++ [c.name] := join_plain h
theorem tmp_eq (h : PlainName c.name) : c.tmp = c.path ++ [c.name ++ "_temp"] :=
  join_plain (plain_suffix h.1 (by decide) (by decide))
theorem old_eq (h : PlainName c.name) : c.old = c.path ++ [c.name ++ "_old"] :=
  join_plain (plain_suffix h.1 (by decide) (by decide))

theorem append_ne_self {s t : String} (h : 0 < t.length) : s ≠ s ++ t := by
  intro e
  have := congrArg String.length e
  simp at this; subst this; revert h; decide

theorem cur_ne_tmp (h : PlainName c.name) : c.cur ≠ c.tmp := by
  rw [cur_eq h, tmp_eq h]
  intro e
  have := (List.append_right_inj _).1 e
  simp only [List.cons.injEq, and_true] at this
  exact append_ne_self (by decide) this
theorem cur_ne_old (h : PlainName c.name) : c.cur ≠ c.old := by
  rw [cur_eq h, old_eq h]
  intro e
  have := (List.append_right_inj _).1 e
  simp only [List.cons.injEq, and_true] at this
  exact append_ne_self (by decide) this
theorem tmp_ne_old (h : PlainName c.name) : c.tmp ≠ c.old := by
  rw [tmp_eq h, old_eq h]
  intro e
  have := (List.append_right_inj _).1 e
  simp only [List.cons.injEq, and_true] at this
  have := congrArg String.length this
  simp only [String.length_append] at this
  revert this
  rw [show "_temp".length = 5 from by decide, show "_old".length = 4 from by decide]
  omega

/-- what `name_old` holds once the current file was moved away. -/
def movedOld (c : SaveCall) (fs0 : FS) : Option Node :=
  match fs0.get? c.cur with
  | some n => some n
  | none => fs0.get? c.old

/-- the file system at each point of the call, relative to the one it started from. -/
def At (c : SaveCall) (fs0 : FS) : FS × SavePc → Prop
  | (fs, .start) => fs = fs0
  | (fs, .writing n) => n ≤ c.buf.length ∧ ∀ p, fs.get? p = if p = c.tmp then some (.file (c.buf.take n)) else fs0.get? p
  | (fs, .written) => ∀ p, fs.get? p = if p = c.tmp then some (.file c.buf) else fs0.get? p
  | (fs, .moved) => ∀ p, fs.get? p = if p = c.tmp then some (.file c.buf) else if p = c.cur then none
      else if p = c.old then movedOld c fs0 else fs0.get? p
  | (fs, .installed) => ∀ p, fs.get? p = if p = c.tmp then none else if p = c.cur then some (.file c.buf)
      else if p = c.old then movedOld c fs0 else fs0.get? p
  | (fs, .done) => ∀ p, fs.get? p = if p = c.tmp then none else if p = c.cur then some (.file c.buf)
      else if p = c.old then none else fs0.get? p
  | (_, .failed) => False

theorem dropLast_cur (h : PlainName c.name) : c.cur.dropLast = c.path := by rw [cur_eq h]; simp
theorem dropLast_tmp (h : PlainName c.name) : c.tmp.dropLast = c.path := by rw [tmp_eq h]; simp
theorem dropLast_old (h : PlainName c.name) : c.old.dropLast = c.path := by rw [old_eq h]; simp
theorem cur_ne_nil (h : PlainName c.name) : c.cur ≠ [] := by rw [cur_eq h]; simp
theorem tmp_ne_nil (h : PlainName c.name) : c.tmp ≠ [] := by rw [tmp_eq h]; simp
theorem old_ne_nil (h : PlainName c.name) : c.old ≠ [] := by rw [old_eq h]; simp

theorem path_ne {x : String} : c.path ≠ c.path ++ [x] := by
  intro h; have := congrArg List.length h; simp at this

/-- the folder stays a directory. -/
theorem isDir_of {fs : FS} (hd : fs0.isDir c.path = true)
    (h : fs.get? c.path = fs0.get? c.path) : fs.isDir c.path = true := by
  unfold FS.isDir at *; rw [h]; exact hd

theorem movedOld_not_dir (hr : c.Ready fs0) : movedOld c fs0 ≠ some .dir := by
  have h1 := hr.ncur
  have h2 := hr.nold
  rw [← cur_eq hr.plain] at h1
  rw [← old_eq hr.plain] at h2
  unfold movedOld
  cases h : fs0.get? c.cur with
  | none => simpa using h2
  | some n => simpa [h] using h1

theorem file_of {n : Option Node} (h : n ≠ some .dir) (h2 : n.isSome = true) : ∃ b, n = some (.file b) := by
  match n with
  | some (.file b) => exact ⟨b, rfl⟩
  | some .dir => exact absurd rfl h
  | none => simp at h2

theorem step_at (hr : c.Ready fs0) (s s' : FS × SavePc) (h : At c fs0 s) (hs : c.step s = some s') : At c fs0 s' := by
  have hp := hr.plain
  have e1 := cur_ne_tmp hp
  have e2 := cur_ne_old hp
  have e3 := tmp_ne_old hp
  have d1 := dropLast_cur hp
  have d2 := dropLast_tmp hp
  have d3 := dropLast_old hp
  have n1 := cur_ne_nil hp
  have n2 := tmp_ne_nil hp
  have n3 := old_ne_nil hp
  have p1 : c.path ≠ c.cur := by rw [cur_eq hp]; exact path_ne
  have p2 : c.path ≠ c.tmp := by rw [tmp_eq hp]; exact path_ne
  have p3 : c.path ≠ c.old := by rw [old_eq hp]; exact path_ne
  have r1 := hr.ncur; rw [← cur_eq hp] at r1
  have r2 := hr.ntmp; rw [← tmp_eq hp] at r2
  have r3 := hr.nold; rw [← old_eq hp] at r3
  obtain ⟨fs, pc⟩ := s
  match pc, h with
  | .start, h =>
    simp only [At] at h; subst h
    simp only [step, FS.create, d2, hr.dir, n2, true_and, ne_eq, not_false_eq_true, and_true, r2, if_true,
      Option.some.injEq] at hs
    subst hs
    simp only [At, Nat.zero_le, true_and, List.take_zero]
    intro p
    rw [get?_set]
    by_cases e : c.tmp = p
    · simp [e]
    · simp [e, Ne.symm e]
  | .writing n, h =>
    simp only [At] at h
    simp only [step] at hs
    split at hs
    · rename_i hn
      cases hs
      simp only [At]
      refine ⟨hn, fun p => ?_⟩
      rw [FS.writeTo, get?_set, h.2 p]
      by_cases e : c.tmp = p
      · simp [e]
      · simp [e, Ne.symm e]
    · rename_i hn
      cases hs
      simp only [At]
      intro p
      have : n = c.buf.length := by omega
      rw [h.2 p, this, List.take_length]
  | .written, h =>
    simp only [At] at h
    have hc : fs.get? c.cur = fs0.get? c.cur := by rw [h, if_neg e1]
    have ho : fs.get? c.old = fs0.get? c.old := by rw [h, if_neg (Ne.symm e3)]
    have hd : fs.isDir c.path = true := isDir_of hr.dir (by rw [h, if_neg p2])
    simp only [step, FS.exists_, hc] at hs
    split at hs
    · rename_i hex
      obtain ⟨b, hb⟩ := file_of r1 hex
      simp only [FS.rename, hc, hb, d3, hd, ho, r3, n3, ne_eq, not_false_eq_true, and_self, if_true,
        Option.some.injEq] at hs
      subst hs
      simp only [At]
      intro p
      rw [get?_set, get?_del, h p, movedOld, hb]
      by_cases a1 : c.old = p
      · subst a1; simp [e3.symm, e2.symm]
      · by_cases a2 : c.cur = p
        · subst a2; simp [e1, a1]
        · simp [a1, a2, Ne.symm a1, Ne.symm a2]
    · rename_i hex
      cases hs
      simp only [At]
      intro p
      have hn : fs0.get? c.cur = none := by cases hh : fs0.get? c.cur <;> simp_all
      rw [h p, movedOld, hn]
      by_cases a0 : p = c.tmp
      · simp [a0]
      · by_cases a2 : p = c.cur
        · subst a2; simp [e1, hn]
        · by_cases a1 : p = c.old
          · subst a1; simp [a0, a2]
          · simp [a0, a1, a2]
  | .moved, h =>
    simp only [At] at h
    have ht : fs.get? c.tmp = some (.file c.buf) := by rw [h, if_pos rfl]
    have hc : fs.get? c.cur = none := by rw [h, if_neg e1, if_pos rfl]
    have hd : fs.isDir c.path = true := isDir_of hr.dir (by rw [h, if_neg p2, if_neg p1, if_neg p3])
    simp only [step, FS.rename, ht, d1, hd, hc, n1, ne_eq, not_false_eq_true, and_self, if_true, reduceCtorEq,
      Option.some.injEq] at hs
    subst hs
    simp only [At]
    intro p
    rw [get?_set, get?_del, h p]
    by_cases a1 : c.cur = p
    · subst a1; simp [e1]
    · by_cases a2 : c.tmp = p
      · subst a2; simp [e1]
      · simp [a1, a2, Ne.symm a1, Ne.symm a2]
  | .installed, h =>
    simp only [At] at h
    have ho : fs.get? c.old = movedOld c fs0 := by rw [h, if_neg (Ne.symm e3), if_neg (Ne.symm e2), if_pos rfl]
    simp only [step, FS.exists_, ho] at hs
    split at hs
    · rename_i hex
      obtain ⟨b, hb⟩ := file_of (movedOld_not_dir hr) hex
      simp only [FS.remove, ho, hb, Option.some.injEq] at hs
      subst hs
      simp only [At]
      intro p
      rw [get?_del, h p]
      by_cases a1 : c.old = p
      · subst a1; simp [Ne.symm e3, Ne.symm e2]
      · simp [a1, Ne.symm a1]
    · rename_i hex
      cases hs
      simp only [At]
      intro p
      have hn : movedOld c fs0 = none := by cases hh : movedOld c fs0 <;> simp_all
      rw [h p, hn]
  | .done, h => simp [step] at hs
  | .failed, h => simp [step] at hs

theorem after_at (hr : c.Ready fs0) (n : Nat) (s : FS × SavePc) (h : At c fs0 s) : At c fs0 (c.after n s) := by
  induction n generalizing s with
  | zero => exact h
  | succ n ih =>
    simp only [after]
    split
    · rename_i s' hs; exact ih _ (step_at hr _ _ h hs)
    · exact h

/-- remaining system calls. -/
def left (c : SaveCall) : SavePc → Nat
  | .start => c.buf.length + 5
  | .writing n => c.buf.length - n + 4
  | .written => 3
  | .moved => 2
  | .installed => 1
  | .done => 0
  | .failed => 0

theorem step_left (hr : c.Ready fs0) (s : FS × SavePc) (h : At c fs0 s) (hl : 0 < left c s.2) :
    ∃ s', c.step s = some s' ∧ left c s'.2 + 1 = left c s.2 := by
  obtain ⟨fs, pc⟩ := s
  have key : ∃ s', c.step (fs, pc) = some s' := by
    match pc with
    | .start => simp only [step]; split <;> exact ⟨_, rfl⟩
    | .writing n => simp only [step]; split <;> exact ⟨_, rfl⟩
    | .written => simp only [step]; (repeat' split) <;> exact ⟨_, rfl⟩
    | .moved => simp only [step]; split <;> exact ⟨_, rfl⟩
    | .installed => simp only [step]; (repeat' split) <;> exact ⟨_, rfl⟩
    | .done => simp [left] at hl
    | .failed => simp [left] at hl
  obtain ⟨s', hs⟩ := key
  refine ⟨s', hs, ?_⟩
  have hat := step_at hr _ _ h hs
  obtain ⟨fs', pc'⟩ := s'
  match pc with
  | .start =>
    simp only [step] at hs
    split at hs <;> cases hs
    · simp [left]
    · exact absurd hat id
  | .writing n =>
    simp only [step] at hs
    simp only [At] at h
    split at hs <;> cases hs <;> simp only [left] <;> omega
  | .written =>
    simp only [step] at hs
    split at hs
    · split at hs <;> cases hs
      · simp [left]
      · exact absurd hat id
    · cases hs; simp [left]
  | .moved =>
    simp only [step] at hs
    split at hs <;> cases hs
    · simp [left]
    · exact absurd hat id
  | .installed =>
    simp only [step] at hs
    split at hs
    · split at hs <;> cases hs
      · simp [left]
      · exact absurd hat id
    · cases hs; simp [left]
  | .done => simp [left] at hl
  | .failed => simp [left] at hl

theorem after_done (hr : c.Ready fs0) (n : Nat) (s : FS × SavePc) (h : At c fs0 s) (hl : left c s.2 ≤ n) :
    (c.after n s).2 = .done := by
  induction n generalizing s with
  | zero =>
    obtain ⟨fs, pc⟩ := s
    match pc with
    | .done => rfl
    | .failed => exact absurd h id
    | .start => simp [left] at hl
    | .writing n => simp [left] at hl
    | .written => simp [left] at hl
    | .moved => simp [left] at hl
    | .installed => simp [left] at hl
  | succ n ih =>
    simp only [after]
    split
    · rename_i s' hs
      refine ih s' (step_at hr _ _ h hs) ?_
      by_cases h0 : 0 < left c s.2
      · obtain ⟨s'', hs', hl'⟩ := step_left hr s h h0
        rw [hs] at hs'; cases hs'; omega
      · obtain ⟨fs, pc⟩ := s
        match pc with
        | .done => simp [step] at hs
        | .failed => simp [step] at hs
        | .start => simp [left] at h0
        | .writing n => simp [left] at h0
        | .written => simp [left] at h0
        | .moved => simp [left] at h0
        | .installed => simp [left] at h0
    · rename_i hs
      obtain ⟨fs, pc⟩ := s
      by_cases h0 : 0 < left c pc
      · obtain ⟨s'', hs', hl'⟩ := step_left hr _ h h0
        rw [hs] at hs'; cases hs'
      · match pc with
        | .done => rfl
        | .failed => exact absurd h id
        | .start => simp [left] at h0
        | .writing n => simp [left] at h0
        | .written => simp [left] at h0
        | .moved => simp [left] at h0
        | .installed => simp [left] at h0

end SaveCall
end Goir
