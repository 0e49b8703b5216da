import Verif.Lemmas.FlatBytes
/-!
# Tables and vtables of a FlatBuffers buffer
-/
namespace Goir
namespace FBB
open FB (Obj Slot)

/-- a table with `sl` slots is being built, after `c` slot operations. -/
structure RelTab (c : Nat) (offs : List Nat) (objs : List Obj) (sl : List (Option Slot)) (b : Builder) : Prop where
  core : Core offs objs b
  nested : b.nested = true
  len : b.vtable.length = sl.length
  slots : ∀ i, match sl.getD i none with
    | none => b.vtable.getD i 0 = 0
    | some s => ∃ so, b.vtable[i]? = some so ∧ 0 < so ∧ so ≤ b.used.length ∧ b.used.length ≤ so + 8 * c ∧ EncSlot offs b.used so s

theorem startObject_tab {offs : List Nat} {objs : List Obj} {b : Builder} (h : Idle offs objs b) (n : Nat) :
    FB.startObject n ⟨objs, .idle⟩ = some ((), ⟨objs, .tab (List.replicate n none)⟩) ∧
    ∃ b', startObject n b = some ((), b') ∧ RelTab 0 offs objs (List.replicate n none) b' ∧ b'.used = b.used := by
  refine ⟨rfl, { b with nested := true, vtable := List.replicate n 0, objectEnd := b.offset }, by simp [startObject, h.nested], ?_, rfl⟩
  refine ⟨h.core.extend (List.suffix_refl _) h.core.cap h.core.room h.core.align rfl, rfl, by simp, fun i => ?_⟩
  have : (List.replicate n (none : Option Slot)).getD i none = none := by
    rw [List.getD_eq_getElem?_getD, List.getElem?_replicate]; split <;> rfl
  rw [this]
  show (List.replicate n 0).getD i 0 = 0
  rw [List.getD_eq_getElem?_getD, List.getElem?_replicate]; split <;> rfl

/-- a slot operation. -/
inductive Op where
  | off (i a o : Nat)
  | i32 (i : Nat) (x : Int)

/-- the object-level operation. -/
def Op.runA : Op → FB.M Unit
  | .off i a _ => FB.offsetSlot i a
  | .i32 i x => FB.int32Slot i x

/-- the byte-level operation. -/
def Op.runB : Op → M Unit
  | .off i _ o => offsetSlot i o
  | .i32 i x => int32Slot i x

/-- the operation is legal in a table with `n` slots. -/
def Op.OK (offs : List Nat) (n : Nat) : Op → Prop
  | .off i a o => i < n ∧ OffAt offs a o
  | .i32 i x => i < n ∧ -2147483648 ≤ x ∧ x ≤ 2147483647

theorem RelTab.set {c : Nat} {offs : List Nat} {objs : List Obj} {sl : List (Option Slot)} {b b' : Builder} (h : RelTab c offs objs sl b)
    (hc : Core offs objs b') (hn : b'.nested = true) {i : Nat} (hi : i < sl.length) (s : Slot) (hvt : b'.vtable = b.vtable.set i b'.used.length)
    (hs : b.used <:+ b'.used) (h1 : b.used.length < b'.used.length) (h2 : b'.used.length ≤ b.used.length + 8)
    (he : EncSlot offs b'.used b'.used.length s) : RelTab (c + 1) offs objs (sl.set i (some s)) b' := by
  refine ⟨hc, hn, by rw [hvt]; simp [h.len], fun j => ?_⟩
  by_cases hj : j = i
  · subst hj
    have : (sl.set j (some s)).getD j none = some s := by
      rw [List.getD_eq_getElem?_getD, List.getElem?_set_self hi]; rfl
    rw [this]
    refine ⟨b'.used.length, ?_, by omega, le_refl _, by omega, he⟩
    rw [hvt, List.getElem?_set_self (by rw [h.len]; exact hi)]
  · have e1 : (sl.set i (some s)).getD j none = sl.getD j none := by
      rw [List.getD_eq_getElem?_getD, List.getElem?_set_ne (by omega), ← List.getD_eq_getElem?_getD]
    rw [e1]
    have := h.slots j
    cases hsl : sl.getD j none with
    | none =>
      rw [hsl] at this
      rw [hvt, List.getD_eq_getElem?_getD, List.getElem?_set_ne (by omega), ← List.getD_eq_getElem?_getD]
      exact this
    | some t =>
      rw [hsl] at this
      obtain ⟨so, g1, g2, g3, g4, g5⟩ := this
      refine ⟨so, ?_, g2, by omega, by omega, by simpa using g5.mono [] hs⟩
      rw [hvt, List.getElem?_set_ne (by omega)]; exact g1

theorem RelTab.same {c : Nat} {offs : List Nat} {objs : List Obj} {sl : List (Option Slot)} {b : Builder} (h : RelTab c offs objs sl b) :
    RelTab (c + 1) offs objs sl b := by
  refine ⟨h.core, h.nested, h.len, fun j => ?_⟩
  have := h.slots j
  cases hsl : sl.getD j none with
  | none => rw [hsl] at this; exact this
  | some t =>
    rw [hsl] at this
    obtain ⟨so, g1, g2, g3, g4, g5⟩ := this
    exact ⟨so, g1, g2, g3, by omega, g5⟩

theorem op_ref {c : Nat} {offs : List Nat} {objs : List Obj} {sl : List (Option Slot)} {b : Builder} (h : RelTab c offs objs sl b) (op : Op)
    (hop : op.OK offs sl.length) :
    (op.runB b = none ∧ 1073741824 ≤ b.used.length + 8) ∨
    ∃ sl' b', op.runA ⟨objs, .tab sl⟩ = some ((), ⟨objs, .tab sl'⟩) ∧ op.runB b = some ((), b') ∧ RelTab (c + 1) offs objs sl' b' ∧ sl'.length = sl.length ∧
      b'.used.length ≤ b.used.length + 8 := by
  cases op with
  | off i a o =>
    obtain ⟨hi, hao⟩ := hop
    obtain ⟨ho1, ho2, ha1, ha2, _⟩ := h.core.sim.offAt hao
    have hb : Op.runB (.off i a o) b = ((do prep 4 0; let b ← get; place (le32 (b.offset - o + 4)) : M Unit) b).bind fun p => slot i p.2 := by
      show (offsetSlot i o) b = _
      unfold offsetSlot
      rw [if_pos (by omega), run_bind, prependUOffset_eq ho2]
    rcases prepend4_spec h.core (fun x => x - o + 4) with ⟨g1, g2⟩ | ⟨b', pre, g1, g2, g3, g4, g5, g6, g7, g8, g9, g10, g11, g12⟩
    · left; exact ⟨by rw [hb, g1]; rfl, g2⟩
    · right
      refine ⟨sl.set i (some (.off a)), { b' with vtable := b'.vtable.set i b'.offset }, ?_, ?_, ?_, by simp, by simp only; omega⟩
      · rw [Op.runA]
        unfold FB.offsetSlot
        simp only
        rw [if_neg (by omega), if_pos ⟨ha1, hi⟩]
      · rw [hb, g1]
        show slot i b' = _
        unfold slot
        rw [if_pos (by rw [g5, h.len]; exact hi)]
      · have hsuf : b.used <:+ b'.used := ⟨le32 (b'.used.length - 4 - o + 4) ++ pre, by rw [List.append_assoc]; exact g3.symm⟩
        have hval : b'.used.length - 4 - o + 4 = b'.used.length - o := by omega
        rw [hval] at g3
        refine h.set (b' := { b' with vtable := b'.vtable.set i b'.offset }) (g2.extend (List.suffix_refl _) g2.cap g2.room g2.align rfl) (by rw [← h.nested, ← g7]) hi (.off a) (by simp only [g5]; rfl) hsuf (show b.used.length < b'.used.length by omega) (show b'.used.length ≤ b.used.length + 8 by omega) ?_
        refine ⟨o, hao, show o < b'.used.length by omega, ?_⟩
        have := At.here (le32 (b'.used.length - o)) (pre ++ b.used)
        rw [← g3] at this
        exact this
  | i32 i x =>
    obtain ⟨hi, hx1, hx2⟩ := hop
    by_cases hx : x = 0
    · right
      refine ⟨sl, b, ?_, ?_, h.same, rfl, by omega⟩
      · rw [Op.runA]
        unfold FB.int32Slot
        simp [hx]
      · show int32Slot i x b = _
        unfold int32Slot
        simp [hx]
    · have hb : Op.runB (.i32 i x) b = ((do prep 4 0; let b ← get; place (le32 ((fun _ => bits32 x) b.offset)) : M Unit) b).bind fun p => slot i p.2 := by
        show (int32Slot i x) b = _
        unfold int32Slot prependInt32
        rw [if_pos hx, run_bind]
        simp only [run_bind]
        cases prep 4 0 b <;> rfl
      rcases prepend4_spec h.core (fun _ => bits32 x) with ⟨g1, g2⟩ | ⟨b', pre, g1, g2, g3, g4, g5, g6, g7, g8, g9, g10, g11, g12⟩
      · left; exact ⟨by rw [hb, g1]; rfl, g2⟩
      · right
        refine ⟨sl.set i (some (.i32 x)), { b' with vtable := b'.vtable.set i b'.offset }, ?_, ?_, ?_, by simp, by simp only; omega⟩
        · rw [Op.runA]
          unfold FB.int32Slot
          simp only
          rw [if_neg hx, if_pos hi]
        · rw [hb, g1]
          show slot i b' = _
          unfold slot
          rw [if_pos (by rw [g5, h.len]; exact hi)]
        · have hsuf : b.used <:+ b'.used := ⟨le32 (bits32 x) ++ pre, by rw [List.append_assoc]; exact g3.symm⟩
          refine h.set (b' := { b' with vtable := b'.vtable.set i b'.offset }) (g2.extend (List.suffix_refl _) g2.cap g2.room g2.align rfl) (by rw [← h.nested, ← g7]) hi (.i32 x) (by simp only [g5]; rfl) hsuf (show b.used.length < b'.used.length by omega) (show b'.used.length ≤ b.used.length + 8 by omega) ?_
          refine ⟨hx1, hx2, ?_⟩
          have := At.here (le32 (bits32 x)) (pre ++ b.used)
          rw [← g3] at this
          exact this

theorem ops_ref {offs : List Nat} {objs : List Obj} (ops : List Op) : ∀ {c : Nat} {sl : List (Option Slot)} {b : Builder}, RelTab c offs objs sl b →
    (∀ op ∈ ops, op.OK offs sl.length) →
    ((ops.forM Op.runB : M Unit) b = none ∧ 1073741824 ≤ b.used.length + 8 * ops.length) ∨
    ∃ sl' b', (ops.forM Op.runA : FB.M Unit) ⟨objs, .tab sl⟩ = some ((), ⟨objs, .tab sl'⟩) ∧ (ops.forM Op.runB : M Unit) b = some ((), b') ∧
      RelTab (c + ops.length) offs objs sl' b' ∧ sl'.length = sl.length ∧ b'.used.length ≤ b.used.length + 8 * ops.length := by
  induction ops with
  | nil => intro c sl b h _; right; exact ⟨sl, b, rfl, rfl, h, rfl, by simp⟩
  | cons op ops ih =>
    intro c sl b h hok
    have eB : ∀ b, ((op :: ops).forM Op.runB : M Unit) b = (op.runB b).bind fun p => (ops.forM Op.runB : M Unit) p.2 := by
      intro b; show (op.runB >>= fun _ => ops.forM Op.runB) b = _; rw [run_bind]
    have eA : ∀ b, ((op :: ops).forM Op.runA : FB.M Unit) b = (op.runA b).bind fun p => (ops.forM Op.runA : FB.M Unit) p.2 := by
      intro b; show (op.runA >>= fun _ => ops.forM Op.runA) b = _; rw [FB_run_bind]
    rcases op_ref h op (hok op (by simp)) with ⟨g1, g2⟩ | ⟨sl', b', g1, g2, g3, g4, g5⟩
    · left; exact ⟨by rw [eB, g1]; rfl, by simp only [List.length_cons]; omega⟩
    · rcases ih g3 (fun op' h' => by rw [g4]; exact hok op' (by simp [h'])) with ⟨k1, k2⟩ | ⟨sl'', b'', k1, k2, k3, k4, k5⟩
      · left; exact ⟨by rw [eB, g2]; exact k1, by simp only [List.length_cons]; omega⟩
      · right
        refine ⟨sl'', b'', by rw [eA, g1]; exact k1, by rw [eB, g2]; exact k2, ?_, by omega, by simp only [List.length_cons]; omega⟩
        have : c + (op :: ops).length = c + 1 + ops.length := by simp only [List.length_cons]; omega
        rw [this]; exact k3

/-! ### vtables -/

theorem trim_spec (vt : List Nat) : ∃ k, vt = trim vt ++ List.replicate k 0 := by
  unfold trim
  have h := List.takeWhile_append_dropWhile (p := (· = 0 : Nat → Bool)) (l := vt.reverse)
  refine ⟨(vt.reverse.takeWhile (· = 0)).length, ?_⟩
  have e : vt.reverse.takeWhile (· = 0) = List.replicate (vt.reverse.takeWhile (· = 0)).length 0 := by
    rw [List.eq_replicate_iff]
    refine ⟨rfl, fun x hx => ?_⟩
    have := List.all_takeWhile (p := (· = 0 : Nat → Bool)) (l := vt.reverse)
    rw [List.all_eq_true] at this
    simpa using this x hx
  have h2 : vt = (vt.reverse.dropWhile (· = 0)).reverse ++ (vt.reverse.takeWhile (· = 0)).reverse := by
    rw [← List.reverse_append, h, List.reverse_reverse]
  conv_lhs => rw [h2]
  congr 1
  conv_lhs => rw [e]
  simp

theorem trim_getD (vt : List Nat) (i : Nat) : (trim vt).getD i 0 = vt.getD i 0 := by
  obtain ⟨k, hk⟩ := trim_spec vt
  conv_rhs => rw [hk]
  rw [List.getD_eq_getElem?_getD, List.getD_eq_getElem?_getD]
  by_cases h : i < (trim vt).length
  · rw [List.getElem?_append_left h]
  · rw [List.getElem?_append_right (by omega), List.getElem?_eq_none (by omega), List.getElem?_replicate]
    split <;> rfl

theorem trim_get {vt : List Nat} {i w : Nat} (h : vt[i]? = some w) (hw : 0 < w) : (trim vt)[i]? = some w := by
  have e := trim_getD vt i
  have e2 : vt.getD i 0 = w := by rw [List.getD_eq_getElem?_getD, h]; rfl
  rw [e2, List.getD_eq_getElem?_getD] at e
  cases hg : (trim vt)[i]? with
  | none => rw [hg] at e; simp at e; omega
  | some x => rw [hg] at e; simp at e; rw [e]

theorem trim_length (vt : List Nat) : (trim vt).length ≤ vt.length := by
  obtain ⟨k, hk⟩ := trim_spec vt
  have := congrArg List.length hk
  simp at this; omega

/-- the words a vtable for a table at offset `o` must have. -/
def words (o : Nat) (vt : List Nat) : List Nat := (trim vt).map fun w => if w ≠ 0 then o - w else 0

theorem flatMap_le16_length (l : List Nat) : (l.flatMap le16).length = 2 * l.length := by
  induction l with
  | nil => rfl
  | cons y l ih => simp only [List.flatMap_cons, List.length_append, ih, le16_length, List.length_cons]; omega

theorem vtableEqual_words {vt xs : List Nat} {o v : Nat} (hv : v < o) (hx : ∀ x ∈ xs, x < v ∧ x < 65536) (hw : ∀ w ∈ trim vt, w < o)
    (h : vtableEqual (trim vt) o (xs.flatMap le16) = true) : xs = words o vt := by
  unfold vtableEqual at h
  rw [flatMap_le16_length] at h
  simp only [Bool.and_eq_true, decide_eq_true_eq, List.all_eq_true, List.mem_range] at h
  obtain ⟨h1, h2⟩ := h
  have hl : (trim vt).length = xs.length := by omega
  refine List.ext_getElem (by simp [words, hl]) fun i hi1 hi2 => ?_
  have hi : i < (trim vt).length := by omega
  have := h2 i hi
  have hu : getU16 (xs.flatMap le16) (i * 2) = some xs[i] := by
    have hA : At (xs.flatMap le16) (2 * xs.length) ([] ++ xs.flatMap le16) := by
      have := At.here (xs.flatMap le16) []
      rw [List.append_nil, flatMap_le16_length] at this
      exact this
    have hw := hA.word (List.getElem?_eq_getElem hi1)
    have hr := hw.u16 (hx _ (List.getElem_mem hi1)).2
    rw [flatMap_le16_length] at hr
    have : 2 * xs.length - (2 * xs.length - (([] : Bytes).length + 2 * i)) = i * 2 := by simp; omega
    rw [this] at hr; exact hr
  rw [hu] at this
  simp only [Bool.or_eq_true, Bool.and_eq_true, beq_iff_eq, decide_eq_true_eq] at this
  have hd : (trim vt).getD i 0 = (trim vt)[i] := by simp [List.getD_eq_getElem?_getD, hi]
  rw [hd] at this
  simp only [words, List.getElem_map]
  have hxv := (hx _ (List.getElem_mem hi1)).1
  have hwo := hw _ (List.getElem_mem hi)
  rcases this with ⟨a, b⟩ | a
  · simp [a, b]
  · split <;> omega

theorem findVtable_spec {u u0 : Bytes} {vt : List Nat} {o : Nat} (hs : u0 <:+ u) (ho : u0.length < o) (hw : ∀ w ∈ trim vt, w < o) :
    ∀ vs : List Nat, (∀ v ∈ vs, VtOK u0 v) → findVtable u (trim vt) o vs = some none ∨
      ∃ v sz, findVtable u (trim vt) o vs = some (some v) ∧ v ∈ vs ∧ At u0 v ((le16 (4 + 2 * (words o vt).length) ++ le16 sz) ++ (words o vt).flatMap le16) := by
  intro vs
  induction vs with
  | nil => intro _; left; rfl
  | cons v vs ih =>
    intro hv
    obtain ⟨sz, xs, h1, h2, h3⟩ := hv v (by simp)
    have h1' := h1.suffix hs
    have hle := h1.1
    have hle' := h1'.1
    have hlen : 4 + 2 * xs.length ≤ v := by
      have := h1.length
      simp only [List.length_append, flatMap_le16_length, le16_length] at this
      omega
    have hu : getU16 u (u.length - v) = some (4 + 2 * xs.length) := h1'.fst.fst.u16 h2
    have hbytes : (u.drop (u.length - v + 4)).take (4 + 2 * xs.length - 4) = xs.flatMap le16 := by
      obtain ⟨r, hr⟩ := h1'.2
      have e : u.drop (u.length - v + 4) = (u.drop (u.length - v)).drop 4 := by rw [List.drop_drop]
      rw [e, ← hr]
      have e2 : ((le16 (4 + 2 * xs.length) ++ le16 sz ++ xs.flatMap le16) ++ r).drop 4 = xs.flatMap le16 ++ r := by simp [le16]
      rw [e2, List.take_append_of_le_length (by rw [flatMap_le16_length]; omega), List.take_of_length_le (by rw [flatMap_le16_length]; omega)]
    have hstep : findVtable u (trim vt) o (v :: vs) =
        if vtableEqual (trim vt) o (xs.flatMap le16) then some (some v) else findVtable u (trim vt) o vs := by
      conv_lhs => unfold findVtable
      simp only [hu]
      rw [if_pos (by omega), hbytes]
    rw [hstep]
    split
    · rename_i heq
      right
      have := vtableEqual_words (by omega : v < o) h3 hw heq
      exact ⟨v, sz, rfl, by simp, by rw [← this]; exact h1⟩
    · rcases ih (fun v' h' => hv v' (by simp [h'])) with g | ⟨v', sz', g1, g2, g3⟩
      · left; exact g
      · right; exact ⟨v', sz', g1, by simp [g2], g3⟩

theorem prependVOffset_spec {offs : List Nat} {objs : List Obj} {b : Builder} (h : Core offs objs b) (he : b.used.length % 2 = 0) (x : Nat) :
    (prependVOffset x b = none ∧ 1073741824 ≤ b.used.length + 2) ∨
    ∃ b', prependVOffset x b = some ((), b') ∧ Core offs objs b' ∧ b'.used = le16 x ++ b.used ∧ b'.vtables = b.vtables ∧ b'.objectEnd = b.objectEnd := by
  have hp : padding b.used.length 2 0 = 0 := by unfold padding; omega
  rcases prep_spec 2 0 b h.cap h.room with ⟨h1, h2⟩ | ⟨cap', h1, h2, h3, h4⟩
  · left; exact ⟨by unfold prependVOffset; rw [run_bind, h1]; rfl, by omega⟩
  · right
    rw [hp] at h1 h3
    simp only [List.replicate_zero, List.nil_append] at h1
    refine ⟨{ b with cap := cap', minalign := max 2 b.minalign, used := le16 x ++ b.used }, ?_, ?_, rfl, rfl, rfl⟩
    · unfold prependVOffset place
      rw [run_bind, h1]
      simp only [Option.bind_some]
      rw [if_pos (by rw [le16_length]; omega)]
    · exact h.extend ⟨_, rfl⟩ h2 (by simp [le16_length]; omega) (align_max2 h.align) rfl

theorem vwords_spec {offs : List Nat} {objs : List Obj} (g : Nat → Nat) : ∀ (l : List Nat) (b : Builder), Core offs objs b → b.used.length % 2 = 0 →
    ((l.forM fun v => prependVOffset (g v) : M Unit) b = none ∧ 1073741824 ≤ b.used.length + 2 * l.length) ∨
    ∃ b', (l.forM fun v => prependVOffset (g v) : M Unit) b = some ((), b') ∧ Core offs objs b' ∧ b'.used = (l.reverse.map g).flatMap le16 ++ b.used ∧
      b'.vtables = b.vtables ∧ b'.objectEnd = b.objectEnd := by
  intro l
  induction l with
  | nil => intro b h _; right; exact ⟨b, rfl, h, rfl, rfl, rfl⟩
  | cons v l ih =>
    intro b h he
    have eB : ((v :: l).forM fun v => prependVOffset (g v) : M Unit) b = (prependVOffset (g v) b).bind fun p => (l.forM fun v => prependVOffset (g v) : M Unit) p.2 := by
      show (prependVOffset (g v) >>= fun _ => l.forM fun v => prependVOffset (g v)) b = _; rw [run_bind]
    rcases prependVOffset_spec h he (g v) with ⟨g1, g2⟩ | ⟨b', g1, g2, g3, g4, g5⟩
    · left; exact ⟨by rw [eB, g1]; rfl, by simp only [List.length_cons]; omega⟩
    · have hl : b'.used.length = b.used.length + 2 := by rw [g3, List.length_append, le16_length]; omega
      rcases ih b' g2 (by omega) with ⟨k1, k2⟩ | ⟨b'', k1, k2, k3, k4, k5⟩
      · left; exact ⟨by rw [eB, g1]; exact k1, by simp only [List.length_cons]; omega⟩
      · right
        refine ⟨b'', by rw [eB, g1]; exact k1, k2, ?_, by rw [k4, g4], by rw [k5, g5]⟩
        rw [k3, g3]; simp

theorem patch_spec (b : Builder) (pre ph rest : Bytes) (hu : b.used = pre ++ (ph ++ rest)) (hph : ph.length = 4) (x : Int) :
    patch (ph ++ rest).length x b = some ((), { b with used := pre ++ (le32 (bits32 x) ++ rest) }) := by
  unfold patch
  have hs : b.used.length - (ph ++ rest).length = pre.length := by rw [hu]; simp
  simp only [hs]
  rw [if_pos (by rw [hu]; simp; omega)]
  congr 3
  rw [hu, List.take_left', List.drop_append]
  · rw [List.drop_eq_nil_of_le (by omega), List.nil_append, Nat.add_sub_cancel_left, ← hph, List.drop_left, List.append_assoc]
  · rfl

end FBB
end Goir
