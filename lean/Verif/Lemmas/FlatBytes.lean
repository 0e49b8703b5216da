import Verif.Model.FlatBytes
import Verif.Lemmas.Serialize
import Mathlib.Data.List.Forall2
import Mathlib.Tactic.NormNum
import Mathlib.Tactic.Positivity
/-!
# The bytes of a FlatBuffers buffer hold its objects

`Sim offs objs u`: the bytes `u` hold the objects `objs` of `Verif.Model.Serialize`, object number `a` at offset `offs[a-1]`, counted from the end
as the builder does.
-/
namespace Goir
namespace FBB
open FB (Obj Slot)

/-! ### bytes at an offset -/

/-- the bytes `xs` stand at offset `o` (counted from the end) of `u`. -/
def At (u : Bytes) (o : Nat) (xs : Bytes) : Prop := o ≤ u.length ∧ xs <+: u.drop (u.length - o)

theorem At.prepend {u : Bytes} {o : Nat} {xs : Bytes} (h : At u o xs) (pre : Bytes) : At (pre ++ u) o xs := by
  obtain ⟨h1, h2⟩ := h
  refine ⟨by simp; omega, ?_⟩
  have : (pre ++ u).drop ((pre ++ u).length - o) = u.drop (u.length - o) := by
    rw [List.drop_append]
    have e1 : (pre ++ u).length - o ≥ pre.length := by simp; omega
    rw [List.drop_eq_nil_of_le e1, List.nil_append]
    congr 1; simp; omega
  rw [this]; exact h2

theorem At.here (xs u : Bytes) : At (xs ++ u) (xs ++ u).length xs := ⟨le_refl _, by simp⟩

theorem At.fst {u : Bytes} {o : Nat} {xs ys : Bytes} (h : At u o (xs ++ ys)) : At u o xs :=
  ⟨h.1, (List.prefix_append xs ys).trans h.2⟩

theorem At.length {u : Bytes} {o : Nat} {xs : Bytes} (h : At u o xs) : xs.length ≤ o := by
  have := h.2.length_le
  rw [List.length_drop] at this
  have := h.1
  omega

theorem At.snd {u : Bytes} {o : Nat} {xs ys : Bytes} (h : At u o (xs ++ ys)) : At u (o - xs.length) ys := by
  have hl := h.length
  simp only [List.length_append] at hl
  obtain ⟨h1, h2⟩ := h
  refine ⟨by omega, ?_⟩
  obtain ⟨r, hr⟩ := h2
  have : u.drop (u.length - (o - xs.length)) = (u.drop (u.length - o)).drop xs.length := by
    rw [List.drop_drop]; congr 1; omega
  rw [this, ← hr, List.append_assoc, List.drop_left']
  · exact List.prefix_append _ _
  · rfl

theorem At.suffix {u v : Bytes} {o : Nat} {xs : Bytes} (h : At u o xs) (hs : u <:+ v) : At v o xs := by
  obtain ⟨pre, rfl⟩ := hs; exact h.prepend pre

theorem le32_length (x : Nat) : (le32 x).length = 4 := rfl
theorem le16_length (x : Nat) : (le16 x).length = 2 := rfl

theorem At.u32 {u : Bytes} {o x : Nat} (h : At u o (le32 x)) (hx : x < 4294967296) : getU32 u (u.length - o) = some x := by
  obtain ⟨r, hr⟩ := h.2
  unfold getU32
  rw [← hr]
  simp only [le32, List.cons_append, List.nil_append, UInt8.toNat_ofNat', Option.some.injEq]
  omega

theorem At.u16 {u : Bytes} {o x : Nat} (h : At u o (le16 x)) (hx : x < 65536) : getU16 u (u.length - o) = some x := by
  obtain ⟨r, hr⟩ := h.2
  unfold getU16
  rw [← hr]
  simp only [le16, List.cons_append, List.nil_append, UInt8.toNat_ofNat', Option.some.injEq]
  omega

theorem toInt32_bits32 (x : Int) (h1 : -2147483648 ≤ x) (h2 : x ≤ 2147483647) : toInt32 (bits32 x : Nat) = x := by
  have hn : 0 ≤ x % 4294967296 := Int.emod_nonneg _ (by decide)
  unfold toInt32 bits32
  rw [Int.toNat_of_nonneg hn]
  have e := Int.emod_bmod x 4294967296
  norm_num at e
  rw [e]
  exact Int.bmod_eq_of_le (by omega) (by omega)

theorem bits32_lt (x : Int) : bits32 x < 4294967296 := by unfold bits32; omega

theorem At.i32 {u : Bytes} {o : Nat} {x : Int} (h : At u o (le32 (bits32 x))) (h1 : -2147483648 ≤ x) (h2 : x ≤ 2147483647) :
    getI32 u (u.length - o) = some x := by
  unfold getI32
  rw [h.u32 (bits32_lt x)]
  simp [toInt32_bits32 x h1 h2]

/-- reading entry `i` of a run of 16-bit words. -/
theorem At.word {u : Bytes} {o : Nat} {a : Bytes} {xs : List Nat} (h : At u o (a ++ xs.flatMap le16)) {i x : Nat} (hi : xs[i]? = some x) :
    At u (o - (a.length + 2 * i)) (le16 x) := by
  obtain ⟨hlt, hx⟩ := List.getElem?_eq_some_iff.1 hi
  have e : xs = xs.take i ++ x :: xs.drop (i + 1) := by
    rw [← hx, List.getElem_cons_drop]; simp
  have h' : At u o ((a ++ (xs.take i).flatMap le16) ++ (le16 x ++ (xs.drop (i + 1)).flatMap le16)) := by
    have : a ++ xs.flatMap le16 = (a ++ (xs.take i).flatMap le16) ++ (le16 x ++ (xs.drop (i + 1)).flatMap le16) := by
      conv_lhs => rw [e]
      simp [List.flatMap_append, List.flatMap_cons, List.append_assoc]
    rwa [← this]
  have h2 := h'.snd.fst
  have hlen : ∀ l : List Nat, (l.flatMap le16).length = 2 * l.length := by
    intro l; induction l with
    | nil => rfl
    | cons y l ih => simp only [List.flatMap_cons, List.length_append, ih, le16_length, List.length_cons]; omega
  have : (a ++ (xs.take i).flatMap le16).length = a.length + 2 * i := by
    rw [List.length_append, hlen, List.length_take]; omega
  rwa [this] at h2

/-! ### the objects -/

/-- object number `a` stands at offset `o`. -/
def OffAt (offs : List Nat) (a o : Nat) : Prop := 1 ≤ a ∧ offs[a - 1]? = some o

theorem OffAt.mono {offs : List Nat} {a o : Nat} (h : OffAt offs a o) (more : List Nat) : OffAt (offs ++ more) a o :=
  ⟨h.1, by
    have := (List.getElem?_eq_some_iff.1 h.2).1
    rw [List.getElem?_append_left this]; exact h.2⟩

/-- the bytes of a slot. -/
def EncSlot (offs : List Nat) (u : Bytes) (so : Nat) : Slot → Prop
  | .i32 x => -2147483648 ≤ x ∧ x ≤ 2147483647 ∧ At u so (le32 (bits32 x))
  | .off e => ∃ p, OffAt offs e p ∧ p < so ∧ At u so (le32 (so - p))

/-- the bytes of an object. -/
def EncObj (offs : List Nat) (u : Bytes) (o : Nat) : Obj → Prop
  | .str s => At u o (le32 (utf8 s).length ++ utf8 s)
  | .vec n els => At u o (le32 n) ∧ n < 4294967296 ∧
      ∀ j e, els[j]? = some e → ∃ p, OffAt offs e p ∧ p + 4 + 4 * j < o ∧ At u (o - 4 - 4 * j) (le32 (o - 4 - 4 * j - p))
  | .tab slots => ∃ (v sz : Nat) (xs : List Nat), At u o (le32 (bits32 ((v : Int) - o))) ∧
      At u v ((le16 (4 + 2 * xs.length) ++ le16 sz) ++ xs.flatMap le16) ∧ 4 + 2 * xs.length < 65536 ∧
      (∀ x ∈ xs, x < 65536) ∧
      ∀ i, match slots.getD i none with
        | none => xs.getD i 0 = 0
        | some s => ∃ so, so < o ∧ xs[i]? = some (o - so) ∧ EncSlot offs u so s

theorem EncSlot.mono {offs : List Nat} {u : Bytes} {so : Nat} {s : Slot} (h : EncSlot offs u so s) (more : List Nat) {v : Bytes} (hs : u <:+ v) :
    EncSlot (offs ++ more) v so s := by
  cases s with
  | i32 x => exact ⟨h.1, h.2.1, h.2.2.suffix hs⟩
  | off e => obtain ⟨p, h1, h2, h3⟩ := h; exact ⟨p, h1.mono more, h2, h3.suffix hs⟩

theorem EncObj.mono {offs : List Nat} {u : Bytes} {o : Nat} {x : Obj} (h : EncObj offs u o x) (more : List Nat) {v : Bytes} (hs : u <:+ v) :
    EncObj (offs ++ more) v o x := by
  cases x with
  | str s => exact At.suffix h hs
  | vec n els =>
    refine ⟨h.1.suffix hs, h.2.1, fun j e he => ?_⟩
    obtain ⟨p, h1, h2, h3⟩ := h.2.2 j e he
    exact ⟨p, h1.mono more, h2, h3.suffix hs⟩
  | tab slots =>
    obtain ⟨v', sz, xs, h1, h2, h3, h4, h5⟩ := h
    refine ⟨v', sz, xs, h1.suffix hs, h2.suffix hs, h3, h4, fun i => ?_⟩
    have := h5 i
    cases hsl : slots.getD i none with
    | none => rw [hsl] at this; exact this
    | some s =>
      rw [hsl] at this
      obtain ⟨so, a, b, c⟩ := this
      exact ⟨so, a, b, c.mono more hs⟩

/-- the bytes hold the objects. -/
structure Sim (offs : List Nat) (objs : List Obj) (u : Bytes) : Prop where
  len : offs.length = objs.length
  enc : ∀ (i : Nat) (x : Obj), objs[i]? = some x → ∃ o, offs[i]? = some o ∧ 0 < o ∧ o ≤ u.length ∧ EncObj offs u o x

theorem Sim.suffix {offs : List Nat} {objs : List Obj} {u v : Bytes} (h : Sim offs objs u) (hs : u <:+ v) : Sim offs objs v := by
  refine ⟨h.len, fun i x hx => ?_⟩
  obtain ⟨o, h1, h2, h3, h4⟩ := h.enc i x hx
  refine ⟨o, h1, h2, le_trans h3 hs.length_le, ?_⟩
  have := h4.mono [] hs
  simpa using this

theorem Sim.snoc {offs : List Nat} {objs : List Obj} {u v : Bytes} (h : Sim offs objs u) (hs : u <:+ v) {o : Nat} {x : Obj}
    (ho : 0 < o) (hov : o ≤ v.length) (hx : EncObj offs v o x) : Sim (offs ++ [o]) (objs ++ [x]) v := by
  refine ⟨by simp [h.len], fun i y hy => ?_⟩
  rcases Nat.lt_trichotomy i objs.length with hi | hi | hi
  · rw [List.getElem?_append_left hi] at hy
    obtain ⟨o', h1, h2, h3, h4⟩ := h.enc i y hy
    refine ⟨o', ?_, h2, le_trans h3 hs.length_le, h4.mono [o] hs⟩
    rw [List.getElem?_append_left (by rw [h.len]; exact hi)]; exact h1
  · subst hi
    rw [List.getElem?_append_right (le_refl _)] at hy
    simp only [Nat.sub_self, List.getElem?_cons_zero, Option.some.injEq] at hy
    subst hy
    refine ⟨o, ?_, ho, hov, hx.mono [o] (List.suffix_refl v)⟩
    rw [← h.len, List.getElem?_append_right (le_refl _)]; simp
  · rw [List.getElem?_eq_none (by simp; omega)] at hy; cases hy

theorem Sim.offAt_last {offs : List Nat} {objs : List Obj} (h : offs.length = objs.length) (o : Nat) : OffAt (offs ++ [o]) (objs.length + 1) o :=
  ⟨by omega, by simp [← h]⟩

/-- a written vtable. -/
def VtOK (u : Bytes) (v : Nat) : Prop :=
  ∃ (sz : Nat) (xs : List Nat), At u v ((le16 (4 + 2 * xs.length) ++ le16 sz) ++ xs.flatMap le16) ∧ 4 + 2 * xs.length < 65536 ∧
    ∀ x ∈ xs, x < v ∧ x < 65536

/-- the lengths the builder's slice can have. -/
def IsCap (c : Nat) : Prop := c = 0 ∨ ∃ k, k ≤ 30 ∧ c = 2 ^ k

/-- the parts of the builder that do not depend on what is being built. -/
structure Core (offs : List Nat) (objs : List Obj) (b : Builder) : Prop where
  sim : Sim offs objs b.used
  cap : IsCap b.cap
  room : b.used.length ≤ b.cap
  align : b.minalign = 1 ∨ b.minalign = 2 ∨ b.minalign = 4
  vts : ∀ v ∈ b.vtables, VtOK b.used v

theorem IsCap.le {c : Nat} (h : IsCap c) : c ≤ 1073741824 := by
  rcases h with rfl | ⟨k, hk, rfl⟩
  · omega
  · calc 2 ^ k ≤ 2 ^ 30 := Nat.pow_le_pow_right (by omega) hk
      _ = 1073741824 := by norm_num

theorem growLoop_spec (used need cap : Nat) (hc : IsCap cap) (hr : used ≤ cap) :
    (growLoop used need cap = none ∧ 1073741824 ≤ used + need) ∨
    ∃ cap', growLoop used need cap = some cap' ∧ IsCap cap' ∧ used + need < cap' ∧ cap ≤ cap' := by
  induction cap using growLoop.induct used need with
  | case1 cap h => right; exact ⟨cap, by rw [growLoop]; simp [h], hc, by omega, le_refl _⟩
  | case2 cap h h2 =>
    left
    refine ⟨by rw [growLoop]; simp [h, h2], ?_⟩
    omega
  | case3 cap h h2 ih =>
    rw [growLoop]
    simp only [h, h2, if_false, dite_false]
    have hle : cap ≤ (if h : cap = 0 then 1 else cap * 2) := by split <;> omega
    suffices hc' : IsCap (if h : cap = 0 then 1 else cap * 2) by
      rcases ih hc' (by omega) with h1 | ⟨c, h1, h2, h3, h4⟩
      · exact Or.inl h1
      · exact Or.inr ⟨c, h1, h2, h3, le_trans hle h4⟩
    rcases hc with rfl | ⟨k, hk, rfl⟩
    · right; exact ⟨0, by omega, by simp⟩
    · right
      have : k < 30 := by
        by_contra hk'
        have : k = 30 := by omega
        subst this
        norm_num at h2
      have hp : 2 ^ k ≠ 0 := by positivity
      exact ⟨k + 1, by omega, by simp [pow_succ]⟩

/-! ### running builder code -/

theorem run_bind {α β : Type} (m : M α) (f : α → M β) (b : Builder) : (m >>= f) b = (m b).bind fun p => f p.1 p.2 := by
  show (StateT.bind m f) b = _
  unfold StateT.bind
  cases m b <;> rfl

@[simp] theorem run_pure {α : Type} (a : α) (b : Builder) : (pure a : M α) b = some (a, b) := rfl
@[simp] theorem run_get (b : Builder) : (get : M Builder) b = some (b, b) := rfl
@[simp] theorem run_set (b' b : Builder) : (set b' : M PUnit) b = some (⟨⟩, b') := rfl
@[simp] theorem run_modify (f : Builder → Builder) (b : Builder) : (modify f : M PUnit) b = some (⟨⟩, f b) := rfl
@[simp] theorem run_failure {α : Type} (b : Builder) : (failure : M α) b = none := rfl

theorem prep_spec (size additional : Nat) (b : Builder) (hc : IsCap b.cap) (hr : b.used.length ≤ b.cap) :
    (prep size additional b = none ∧ 1073741824 ≤ b.used.length + (padding b.used.length size additional + size + additional)) ∨
    ∃ cap', prep size additional b = some ((), { b with cap := cap', minalign := max size b.minalign, used := List.replicate (padding b.used.length size additional) 0 ++ b.used }) ∧
      IsCap cap' ∧ b.used.length + (padding b.used.length size additional + size + additional) < cap' ∧ b.cap ≤ cap' := by
  unfold prep
  rcases growLoop_spec b.used.length (padding b.used.length size additional + size + additional) b.cap hc hr with ⟨h1, h2⟩ | ⟨cap', h1, h2, h3, h4⟩
  · left; simp only [h1]; exact ⟨trivial, h2⟩
  · right; refine ⟨cap', ?_, h2, h3, h4⟩; simp only [h1]

theorem padding_lt (used size additional : Nat) (h : 0 < size) : padding used size additional < size := Nat.mod_lt _ h

theorem padding4_aligned (used additional : Nat) : (padding used 4 additional + used + additional) % 4 = 0 := by
  unfold padding; omega

theorem padding4_zero {used additional : Nat} (h : (used + additional) % 4 = 0) : padding used 4 additional = 0 := by
  unfold padding; omega

theorem align_max4 {m : Nat} (h : m = 1 ∨ m = 2 ∨ m = 4) : max 4 m = 4 := by rcases h with rfl | rfl | rfl <;> rfl
theorem align_max2 {m : Nat} (h : m = 1 ∨ m = 2 ∨ m = 4) : max 2 m = 1 ∨ max 2 m = 2 ∨ max 2 m = 4 := by
  rcases h with rfl | rfl | rfl <;> simp

theorem Core.extend {offs : List Nat} {objs : List Obj} {b b' : Builder} (h : Core offs objs b) (hs : b.used <:+ b'.used) (hc : IsCap b'.cap)
    (hr : b'.used.length ≤ b'.cap) (ha : b'.minalign = 1 ∨ b'.minalign = 2 ∨ b'.minalign = 4) (hv : b'.vtables = b.vtables) : Core offs objs b' := by
  refine ⟨h.sim.suffix hs, hc, hr, ha, fun v hv' => ?_⟩
  rw [hv] at hv'
  obtain ⟨sz, xs, h1, h2⟩ := h.vts v hv'
  exact ⟨sz, xs, h1.suffix hs, h2⟩

/-- one of the prepend operations with 4 bytes: aligns, then puts four bytes. -/
theorem prepend4_spec {offs : List Nat} {objs : List Obj} {b : Builder} (h : Core offs objs b) (f : Nat → Nat) :
    ((do prep 4 0; let b ← get; place (le32 (f b.offset)) : M Unit) b = none ∧ 1073741824 ≤ b.used.length + 8) ∨
    ∃ b' pre, (do prep 4 0; let b ← get; place (le32 (f b.offset)) : M Unit) b = some ((), b') ∧ Core offs objs b' ∧
      b'.used = le32 (f (b'.used.length - 4)) ++ (pre ++ b.used) ∧ pre.length = padding b.used.length 4 0 ∧
      b'.vtable = b.vtable ∧ b'.vtables = b.vtables ∧ b'.nested = b.nested ∧ b'.objectEnd = b.objectEnd ∧ b.used.length + 4 ≤ b'.used.length ∧
      b'.used.length ≤ b.used.length + 7 ∧ b'.finished = b.finished ∧ b.cap ≤ b'.cap := by
  have hp := padding_lt b.used.length 4 0 (by omega)
  rcases prep_spec 4 0 b h.cap h.room with ⟨h1, h2⟩ | ⟨cap', h1, h2, h3, h4⟩
  · left; exact ⟨by rw [run_bind, h1]; rfl, by omega⟩
  · right
    refine ⟨{ b with cap := cap', minalign := max 4 b.minalign, used := le32 (f (List.replicate (padding b.used.length 4 0) (0 : UInt8) ++ b.used).length) ++ (List.replicate (padding b.used.length 4 0) 0 ++ b.used) },
      List.replicate (padding b.used.length 4 0) 0, ?_, ?_, ?_, by simp, rfl, rfl, rfl, rfl, ?_, ?_, rfl, h4⟩
    · rw [run_bind, h1]
      simp only [Option.bind_some, run_bind, run_get]
      unfold place
      rw [if_pos]
      · rfl
      · simp [le32_length]; omega
    · refine h.extend ⟨le32 (f (List.replicate (padding b.used.length 4 0) (0 : UInt8) ++ b.used).length) ++ List.replicate (padding b.used.length 4 0) 0, by simp⟩ h2 ?_ ?_ rfl
      · simp [le32_length]; omega
      · right; right; exact align_max4 h.align
    · simp [le32_length]
    · simp [le32_length]; omega
    · simp [le32_length]; omega

/-! ### refinement -/

/-- nothing is being built, and the bytes hold the objects. -/
structure Idle (offs : List Nat) (objs : List Obj) (b : Builder) : Prop where
  core : Core offs objs b
  nested : b.nested = false

/-- the byte-level code `m'` does what the object-level code `m` does, using at most `k` bytes, or panics because the buffer would exceed 2^30
bytes. -/
def Ref {α β : Type} (k : Nat) (m : FB.M α) (m' : M β) (offs : List Nat) (objs : List Obj) (b : Builder) (Q : List Nat → α → β → Prop) : Prop :=
  (m' b = none ∧ 1073741824 ≤ b.used.length + k) ∨
  ∃ new noffs a o b', m ⟨objs, .idle⟩ = some (a, ⟨objs ++ new, .idle⟩) ∧ m' b = some (o, b') ∧ Idle (offs ++ noffs) (objs ++ new) b' ∧
    b'.used.length ≤ b.used.length + k ∧ Q (offs ++ noffs) a o

theorem Ref.weaken {α β : Type} {k k' : Nat} {m : FB.M α} {m' : M β} {offs : List Nat} {objs : List Obj} {b : Builder} {Q : List Nat → α → β → Prop}
    (h : Ref k m m' offs objs b Q) (hk : k ≤ k') : Ref k' m m' offs objs b Q := by
  rcases h with ⟨h1, h2⟩ | ⟨new, noffs, a, o, b', h1, h2, h3, h4, h5⟩
  · left; exact ⟨h1, by omega⟩
  · right; exact ⟨new, noffs, a, o, b', h1, h2, h3, by omega, h5⟩

theorem FB_run_bind {α β : Type} (m : FB.M α) (f : α → FB.M β) (b : FB.Builder) : (m >>= f) b = (m b).bind fun p => f p.1 p.2 := by
  show (StateT.bind m f) b = _
  unfold StateT.bind
  cases m b <;> rfl

theorem Ref.bind {α β γ δ : Type} {k k' : Nat} {m : FB.M α} {m' : M β} {f : α → FB.M γ} {f' : β → M δ} {offs : List Nat} {objs : List Obj}
    {b : Builder} {Q : List Nat → α → β → Prop} {Q' : List Nat → γ → δ → Prop} (h : Ref k m m' offs objs b Q)
    (hf : ∀ noffs new a o b', Idle (offs ++ noffs) (objs ++ new) b' → Q (offs ++ noffs) a o →
      Ref k' (f a) (f' o) (offs ++ noffs) (objs ++ new) b' Q') :
    Ref (k + k') (m >>= f) (m' >>= f') offs objs b Q' := by
  rcases h with ⟨h1, h2⟩ | ⟨new, noffs, a, o, b', h1, h2, h3, h4, h5⟩
  · left; exact ⟨by rw [run_bind, h1]; rfl, by omega⟩
  · rcases hf noffs new a o b' h3 h5 with ⟨g1, g2⟩ | ⟨new', noffs', a', o', b'', g1, g2, g3, g4, g5⟩
    · left; exact ⟨by rw [run_bind, h2]; exact g1, by omega⟩
    · right
      refine ⟨new ++ new', noffs ++ noffs', a', o', b'', ?_, ?_, ?_, by omega, ?_⟩
      · rw [FB_run_bind, h1]; simpa [List.append_assoc] using g1
      · rw [run_bind, h2]; exact g2
      · simpa [List.append_assoc] using g3
      · simpa [List.append_assoc] using g5

theorem Sim.offAt {offs : List Nat} {objs : List Obj} {u : Bytes} (h : Sim offs objs u) {a o : Nat} (ha : OffAt offs a o) :
    0 < o ∧ o ≤ u.length ∧ a ≤ objs.length ∧ 1 ≤ a ∧ ∃ x, FB.objAt objs a = some x ∧ EncObj offs u o x := by
  have h1 := (List.getElem?_eq_some_iff.1 ha.2).1
  have h2 := ha.1
  have h3 : a - 1 < objs.length := by rw [← h.len]; exact h1
  obtain ⟨o', g1, g2, g3, g4⟩ := h.enc (a - 1) objs[a - 1] (List.getElem?_eq_getElem h3)
  rw [ha.2] at g1; cases g1
  refine ⟨g2, g3, by omega, h2, _, ?_, g4⟩
  unfold FB.objAt
  rw [if_neg (by omega), List.getElem?_eq_getElem h3]

theorem createString_ref {offs : List Nat} {objs : List Obj} {b : Builder} (h : Idle offs objs b) (s : String) :
    Ref ((utf8 s).length + 12) (FB.createString s) (createString s) offs objs b OffAt := by
  have hp := padding_lt b.used.length 4 ((utf8 s).length + 1) (by omega)
  rcases prep_spec 4 ((utf8 s).length + 1) { b with nested := true } h.core.cap h.core.room with ⟨h1, h2⟩ | ⟨cap', h1, h2, h3, h4⟩
  · left
    simp only at h2
    refine ⟨?_, by omega⟩
    unfold createString
    simp only [run_bind, run_get, Option.bind_some, h.nested, Bool.false_eq_true, if_false, run_pure, run_set, h1, Option.bind_none]
  · right
    simp only at h3 h4
    refine ⟨[.str s], [(utf8 s).length + 5 + padding b.used.length 4 ((utf8 s).length + 1) + b.used.length], objs.length + 1, (utf8 s).length + 5 + padding b.used.length 4 ((utf8 s).length + 1) + b.used.length,
      { b with cap := cap', minalign := max 4 b.minalign, nested := false, used := le32 (utf8 s).length ++ (utf8 s ++ ([0] ++ (List.replicate (padding b.used.length 4 ((utf8 s).length + 1)) 0 ++ b.used))) }, rfl, ?_, ?_, ?_, ?_⟩
    · unfold createString endVector place
      simp only [run_bind, run_get, Option.bind_some, h.nested, Bool.false_eq_true, if_false, run_pure, run_set, h1]
      rw [if_pos (by simp; omega)]
      simp only [Option.bind_some]
      rw [if_pos (by simp; omega)]
      simp only [Option.bind_some, Bool.true_eq_false, if_false, run_bind]
      rw [if_pos (by simp [le32_length]; omega)]
      simp only [Option.bind_some, run_modify, Builder.offset, Option.some.injEq, Prod.mk.injEq, and_true]
      simp [le32_length]; omega
    · have hs : b.used <:+ le32 (utf8 s).length ++ (utf8 s ++ ([0] ++ (List.replicate (padding b.used.length 4 ((utf8 s).length + 1)) 0 ++ b.used))) :=
        ⟨le32 (utf8 s).length ++ (utf8 s ++ ([0] ++ (List.replicate (padding b.used.length 4 ((utf8 s).length + 1)) 0))), by simp⟩
      have hl : (le32 (utf8 s).length ++ (utf8 s ++ ([0] ++ (List.replicate (padding b.used.length 4 ((utf8 s).length + 1)) 0 ++ b.used)))).length =
          (utf8 s).length + 5 + padding b.used.length 4 ((utf8 s).length + 1) + b.used.length := by simp [le32_length]; omega
      have hc : Core offs objs { b with cap := cap', minalign := max 4 b.minalign, nested := false, used := le32 (utf8 s).length ++ (utf8 s ++ ([0] ++ (List.replicate (padding b.used.length 4 ((utf8 s).length + 1)) 0 ++ b.used))) } :=
        h.core.extend hs h2 (by simp only [hl]; omega) (Or.inr (Or.inr (align_max4 h.core.align))) rfl
      refine ⟨⟨?_, hc.cap, hc.room, hc.align, hc.vts⟩, rfl⟩
      refine h.core.sim.snoc hs (by omega) (by simp only [hl]; omega) ?_
      show At _ _ (le32 (utf8 s).length ++ utf8 s)
      rw [← hl, ← List.append_assoc]
      exact At.here _ _
    · simp [le32_length]; omega
    · exact Sim.offAt_last h.core.sim.len _

theorem prependUOffset_eq {b : Builder} {o : Nat} (h : o ≤ b.used.length) :
    prependUOffset o b = (do prep 4 0; let b ← get; place (le32 (b.offset - o + 4)) : M Unit) b := by
  unfold prependUOffset
  simp only [run_bind]
  cases hp : prep 4 0 b with
  | none => rfl
  | some r =>
    simp only [Option.bind_some, run_get]
    rw [if_pos]
    unfold prep at hp
    simp only at hp
    split at hp
    · cases hp
    · cases hp; simp [Builder.offset]; omega

/-- what stands in a vector being built. -/
def VecOK (offs : List Nat) (u : Bytes) (els : List Nat) : Prop :=
  ∀ (j e : Nat), els[j]? = some e → ∃ p, OffAt offs e p ∧ p + 4 * j < u.length ∧ At u (u.length - 4 * j) (le32 (u.length - 4 * j - p))

theorem vecLoop {offs : List Nat} {objs : List Obj} : ∀ (ras ros : List Nat) (els : List Nat) (b : Builder), List.Forall₂ (OffAt offs) ras ros →
    Core offs objs b → b.nested = true → b.used.length % 4 = 0 → b.used.length + 4 * ros.length + 4 < b.cap → VecOK offs b.used els →
    (ras.forM FB.prependOffset : FB.M Unit) ⟨objs, .vec els⟩ = some ((), ⟨objs, .vec (ras.reverse ++ els)⟩) ∧
    ∃ b', (ros.forM prependUOffset : M Unit) b = some ((), b') ∧ Core offs objs b' ∧ b'.nested = true ∧ b'.used.length = b.used.length + 4 * ros.length ∧
      b'.used.length + 4 < b'.cap ∧ VecOK offs b'.used (ras.reverse ++ els) ∧ b.used <:+ b'.used := by
  intro ras ros els b hf
  induction hf generalizing els b with
  | nil =>
    intro hc hn hal hroom hv
    exact ⟨rfl, b, rfl, hc, hn, by simp, by simpa using hroom, by simpa using hv, List.suffix_refl _⟩
  | @cons a o ras ros hao _ ih =>
    intro hc hn hal hroom hv
    simp only [List.length_cons] at hroom
    obtain ⟨ho1, ho2, ha1, ha2, _⟩ := hc.sim.offAt hao
    have hcl := hc.cap.le
    rcases prepend4_spec hc (fun x => x - o + 4) with ⟨g1, g2⟩ | ⟨b', pre, g1, g2, g3, g4, g5, g6, g7, g8, g9, g10, g11, g12⟩
    · omega
    · have hpad : pre.length = 0 := by rw [g4]; exact padding4_zero (by omega)
      have hpre : pre = [] := List.eq_nil_of_length_eq_zero hpad
      subst hpre
      have hl : b'.used.length = b.used.length + 4 := by rw [g3]; simp [le32_length]; omega
      have hval : b'.used.length - 4 - o + 4 = b'.used.length - o := by omega
      have g3' : b'.used = le32 (b'.used.length - o) ++ b.used := by
        rw [hval] at g3; simpa using g3
      have hsuf : b.used <:+ b'.used := ⟨_, g3'.symm⟩
      have hv' : VecOK offs b'.used (a :: els) := by
        intro j e he
        cases j with
        | zero =>
          simp only [List.getElem?_cons_zero, Option.some.injEq] at he
          subst he
          refine ⟨o, hao, by omega, ?_⟩
          have := At.here (le32 (b'.used.length - o)) b.used
          rw [← g3'] at this
          simpa using this
        | succ j =>
          simp only [List.getElem?_cons_succ] at he
          obtain ⟨p, q1, q2, q3⟩ := hv j e he
          have e1 : b'.used.length - 4 * (j + 1) = b.used.length - 4 * j := by omega
          refine ⟨p, q1, by omega, ?_⟩
          rw [e1]; exact q3.suffix hsuf
      obtain ⟨i1, b'', i2, i3, i4, i5, i6, i7, i8⟩ := ih (a :: els) b' g2 (by rw [g7, hn]) (by omega) (by omega) hv'
      refine ⟨?_, b'', ?_, i3, i4, by simp only [List.length_cons]; omega, i6, by simpa using i7, hsuf.trans i8⟩
      · show (FB.prependOffset a >>= fun _ => ras.forM FB.prependOffset) _ = _
        rw [FB_run_bind]
        have : FB.prependOffset a ⟨objs, .vec els⟩ = some ((), ⟨objs, .vec (a :: els)⟩) := by
          unfold FB.prependOffset; simp only; rw [if_pos (by omega)]
        rw [this]
        simpa using i1
      · show (prependUOffset o >>= fun _ => ros.forM prependUOffset) _ = _
        rw [run_bind, prependUOffset_eq ho2, g1]
        exact i2

theorem offsetVector_ref {offs : List Nat} {objs : List Obj} {b : Builder} (h : Idle offs objs b) {as os : List Nat}
    (ha : List.Forall₂ (OffAt offs) as os) :
    Ref (4 * os.length + 12) (FB.offsetVector as) (offsetVector os) offs objs b OffAt := by
  have hlen := ha.length_eq
  have hp := padding_lt b.used.length 4 (4 * os.length) (by omega)
  rcases prep_spec 4 (4 * os.length) { b with nested := true } h.core.cap h.core.room with ⟨h1, h2⟩ | ⟨cap', h1, h2, h3, h4⟩
  · left
    simp only at h2
    refine ⟨?_, by omega⟩
    unfold offsetVector startVector
    simp only [run_bind, run_get, Option.bind_some, h.nested, Bool.false_eq_true, if_false, run_pure, run_set, h1, Option.bind_none]
  · simp only at h3 h4
    have hc1 : Core offs objs { b with nested := true, cap := cap', minalign := max 4 b.minalign, used := List.replicate (padding b.used.length 4 (4 * os.length)) 0 ++ b.used } :=
      h.core.extend ⟨_, rfl⟩ h2 (by simp; omega) (Or.inr (Or.inr (align_max4 h.core.align))) rfl
    have hal := padding4_aligned b.used.length (4 * os.length)
    have hpz : padding (padding b.used.length 4 (4 * os.length) + b.used.length) 4 (4 * os.length) = 0 := padding4_zero hal
    have hcl := h2.le
    rcases prep_spec 4 (4 * os.length) _ hc1.cap hc1.room with ⟨k1, k2⟩ | ⟨cap'', k1, k2, k3, k4⟩
    · exfalso
      simp only [List.length_append, List.length_replicate, hpz] at k2
      omega
    · simp only [List.length_append, List.length_replicate, hpz, List.replicate_zero, List.nil_append] at k1 k3 k4
      have hc2 : Core offs objs { b with nested := true, cap := cap'', minalign := max 4 (max 4 b.minalign), used := List.replicate (padding b.used.length 4 (4 * os.length)) 0 ++ b.used } :=
        hc1.extend (List.suffix_refl _) k2 (by simp; omega) (Or.inr (Or.inr (by rw [align_max4 h.core.align]; rfl))) rfl
      obtain ⟨l1, b3, l2, l3, l4, l5, l6, l7, l8⟩ := vecLoop as.reverse os.reverse [] _ (List.rel_reverse ha) hc2 rfl (by simp; omega)
        (by simp; omega) (by intro j e he; simp at he)
      simp only [List.reverse_reverse, List.append_nil, List.length_reverse, List.length_append, List.length_replicate] at l1 l5 l7
      right
      refine ⟨[.vec as.length as], [b3.used.length + 4], objs.length + 1, b3.used.length + 4, { b3 with used := le32 os.length ++ b3.used, nested := false }, ?_, ?_, ?_, ?_, ?_⟩
      · unfold FB.offsetVector FB.startVector FB.endVector
        simp only [FB_run_bind, Option.bind_some, l1]
      · unfold offsetVector startVector endVector place
        simp only [run_bind, run_get, Option.bind_some, h.nested, Bool.false_eq_true, if_false, run_pure, run_set, h1, k1, l2, l4, Bool.true_eq_false]
        rw [if_pos (by rw [le32_length]; omega)]
        simp only [Option.bind_some, run_modify, Builder.offset, Option.some.injEq, Prod.mk.injEq, and_true]
        simp [le32_length]; omega
      · have hs : b3.used <:+ le32 os.length ++ b3.used := ⟨_, rfl⟩
        have hl : (le32 os.length ++ b3.used).length = b3.used.length + 4 := by simp [le32_length]; omega
        have hc : Core offs objs { b3 with used := le32 os.length ++ b3.used, nested := false } :=
          l3.extend hs l3.cap (by simp only [hl]; omega) l3.align rfl
        refine ⟨⟨?_, hc.cap, hc.room, hc.align, hc.vts⟩, rfl⟩
        refine l3.sim.snoc hs (by omega) (by simp only [hl]; omega) ?_
        have hcl3 := l3.cap.le
        have hb3 := l3.room
        refine ⟨?_, by omega, fun j e he => ?_⟩
        · rw [← hl, hlen]; exact At.here _ _
        · obtain ⟨p, q1, q2, q3⟩ := l7 j e he
          have e1 : b3.used.length + 4 - 4 - 4 * j = b3.used.length - 4 * j := by omega
          rw [e1]
          exact ⟨p, q1, by omega, q3.suffix hs⟩
      · simp only [List.length_append, le32_length]; omega
      · exact Sim.offAt_last h.core.sim.len _

end FBB
end Goir
