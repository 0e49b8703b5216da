import Verif.Lemmas.FlatRefine
/-!
# Reading the bytes of a FlatBuffers buffer gives what reading its objects gives
-/
namespace Goir

theorem ofUtf8_utf8 (s : String) : ofUtf8 (utf8 s) = some s := by
  unfold ofUtf8 utf8
  have : (⟨s.toByteArray.data.toList.toArray⟩ : ByteArray) = s.toByteArray := by simp
  rw [this]
  unfold String.fromUTF8?
  rw [dif_pos s.isValidUTF8]
  rfl

namespace FBB
open FB (Obj Slot)

section
variable {offs : List Nat} {objs : List Obj} {buf : Bytes}

theorem tOffset_spec (hb : buf.length ≤ 1073741824) {o : Nat} {sl : List (Option Slot)} (h : EncObj offs buf o (.tab sl)) (i : Nat) :
    ∃ x, tOffset buf (buf.length - o) (4 + 2 * i) = some x ∧
      match sl.getD i none with
      | none => x = 0
      | some s => ∃ so, so < o ∧ x = o - so ∧ EncSlot offs buf so s := by
  obtain ⟨v, sz, xs, h1, h2, h3, h4, h5⟩ := h
  have ho := h1.1
  have hv := h2.1
  have hlen := h2.length
  simp only [List.length_append, le16_length, flatMap_le16_length] at hlen
  have e1 := h1.i32 (by omega) (by omega)
  have e2 : sub32 (buf.length - o) ((v : Int) - o) = buf.length - v := by unfold sub32; omega
  have e3 : getU16 buf (buf.length - v) = some (4 + 2 * xs.length) := h2.fst.fst.u16 h3
  have hr : tOffset buf (buf.length - o) (4 + 2 * i) = if 4 + 2 * i < 4 + 2 * xs.length then getU16 buf (add32 (buf.length - v) (4 + 2 * i)) else some 0 := by
    unfold tOffset
    simp only [e1, e2, e3, Option.bind_eq_bind, Option.bind_some]
  by_cases hi : i < xs.length
  · have hw := h2.word (List.getElem?_eq_getElem hi)
    simp only [List.length_append, le16_length] at hw
    have e4 : add32 (buf.length - v) (4 + 2 * i) = buf.length - (v - (2 + 2 + 2 * i)) := by unfold add32; omega
    refine ⟨xs[i], ?_, ?_⟩
    · rw [hr, if_pos (by omega), e4]
      exact hw.u16 (h4 _ (List.getElem_mem hi))
    · have := h5 i
      cases hsl : sl.getD i none with
      | none =>
        rw [hsl] at this
        simpa [List.getD_eq_getElem?_getD, hi] using this
      | some s =>
        rw [hsl] at this
        obtain ⟨so, g1, g2, g3⟩ := this
        rw [List.getElem?_eq_getElem hi] at g2
        exact ⟨so, g1, Option.some.inj g2, g3⟩
  · refine ⟨0, by rw [hr, if_neg (by omega)], ?_⟩
    have := h5 i
    cases hsl : sl.getD i none with
    | none => rfl
    | some s =>
      rw [hsl] at this
      obtain ⟨so, g1, g2, g3⟩ := this
      rw [List.getElem?_eq_none (by omega)] at g2
      cases g2

theorem indirect_spec (hb : buf.length ≤ 1073741824) {so p : Nat} (h : At buf so (le32 (so - p))) (hp : p < so) :
    indirect buf (buf.length - so) = some (buf.length - p) := by
  have h1 := h.1
  unfold indirect
  rw [h.u32 (by omega)]
  simp only [Option.bind_eq_bind, Option.bind_some, Option.pure_def, Option.some.injEq]
  unfold add32; omega

theorem byteVector_spec (hb : buf.length ≤ 1073741824) {so p : Nat} (h : At buf so (le32 (so - p))) (hp : p < so) {s : String}
    (hs : EncObj offs buf p (.str s)) : byteVector buf (buf.length - so) = some s := by
  have hs' : At buf p (le32 (utf8 s).length ++ utf8 s) := hs
  have h1 := hs'.1
  have hl := hs'.length
  simp only [List.length_append, le32_length] at hl
  unfold byteVector
  rw [indirect_spec hb h hp]
  simp only [Option.bind_eq_bind, Option.bind_some]
  rw [hs'.fst.u32 (by omega)]
  simp only [Option.bind_some]
  have e1 : add32 (buf.length - p) 4 = buf.length - p + 4 := by unfold add32; omega
  have e2 : add32 (add32 (buf.length - p) 4) (utf8 s).length = buf.length - p + 4 + (utf8 s).length := by rw [e1]; unfold add32; omega
  rw [e2, e1, if_pos (by omega)]
  have e3 : (buf.drop (buf.length - p + 4)).take (buf.length - p + 4 + (utf8 s).length - (buf.length - p + 4)) = utf8 s := by
    obtain ⟨r, hr⟩ := hs'.2
    have e : buf.drop (buf.length - p + 4) = (buf.drop (buf.length - p)).drop 4 := by rw [List.drop_drop]
    rw [e, ← hr]
    have e2 : ((le32 (utf8 s).length ++ utf8 s) ++ r).drop 4 = utf8 s ++ r := by simp [le32]
    rw [e2, Nat.add_sub_cancel_left, List.take_left']
    rfl
  rw [e3]
  exact ofUtf8_utf8 s

variable (hS : Sim offs objs buf) (hb : buf.length ≤ 1073741824)

include hS hb

/-- the table behind an object number, with the slot. -/
theorem slot_spec {a o : Nat} (ha : OffAt offs a o) {i : Nat} {r : Option Slot} (h : FB.slot? objs a i = some r) :
    ∃ x, tOffset buf (buf.length - o) (4 + 2 * i) = some x ∧
      match r with
      | none => x = 0
      | some s => ∃ so, x ≠ 0 ∧ add32 x (buf.length - o) = buf.length - so ∧ EncSlot offs buf so s := by
  obtain ⟨ho1, ho2, _, _, y, hy, hE⟩ := hS.offAt ha
  unfold FB.slot? at h
  rw [hy] at h
  cases y with
  | str s => cases h
  | vec n els => cases h
  | tab sl =>
    simp only [Option.some.injEq] at h
    obtain ⟨x, h1, h2⟩ := tOffset_spec hb hE i
    rw [h] at h2
    refine ⟨x, h1, ?_⟩
    cases r with
    | none => exact h2
    | some s =>
      obtain ⟨so, g1, g2, g3⟩ := h2
      exact ⟨so, by omega, by unfold add32; omega, g3⟩

theorem getString_spec {a o : Nat} (ha : OffAt offs a o) {i : Nat} {s : String} (h : FB.getString objs a i = some s) :
    getString buf (buf.length - o) i = some s := by
  unfold FB.getString at h
  cases hr : FB.slot? objs a i with
  | none => rw [hr] at h; cases h
  | some r =>
    obtain ⟨x, h1, h2⟩ := slot_spec hS hb ha hr
    rw [hr] at h
    unfold getString
    simp only [h1, Option.bind_eq_bind, Option.bind_some] at h ⊢
    cases r with
    | none => simp only at h2; rw [if_neg (by omega)]; exact h
    | some sl =>
      obtain ⟨so, g1, g2, g3⟩ := h2
      rw [if_pos g1, g2]
      cases sl with
      | i32 v => cases h
      | off e =>
        obtain ⟨p, q1, q2, q3⟩ := g3
        obtain ⟨_, _, _, _, y, hy, hE⟩ := hS.offAt q1
        simp only [hy] at h
        cases y with
        | str t => cases h; exact byteVector_spec hb q3 q2 hE
        | vec n els => cases h
        | tab sl => cases h

theorem getInt32_spec {a o : Nat} (ha : OffAt offs a o) {i : Nat} {v : Int} (h : FB.getInt32 objs a i = some v) :
    getInt32 buf (buf.length - o) i = some v := by
  unfold FB.getInt32 at h
  cases hr : FB.slot? objs a i with
  | none => rw [hr] at h; cases h
  | some r =>
    obtain ⟨x, h1, h2⟩ := slot_spec hS hb ha hr
    rw [hr] at h
    unfold getInt32
    simp only [h1, Option.bind_eq_bind, Option.bind_some] at h ⊢
    cases r with
    | none => simp only at h2; rw [if_neg (by omega)]; exact h
    | some sl =>
      obtain ⟨so, g1, g2, g3⟩ := h2
      rw [if_pos g1, g2]
      cases sl with
      | i32 w => cases h; exact g3.2.2.i32 g3.1 g3.2.1
      | off e => cases h

theorem getVecLen_spec {a o : Nat} (ha : OffAt offs a o) {i n : Nat} (h : FB.getVecLen objs a i = some n) :
    getVecLen buf (buf.length - o) i = some n := by
  unfold FB.getVecLen at h
  cases hr : FB.slot? objs a i with
  | none => rw [hr] at h; cases h
  | some r =>
    obtain ⟨x, h1, h2⟩ := slot_spec hS hb ha hr
    rw [hr] at h
    unfold getVecLen
    simp only [h1, Option.bind_eq_bind, Option.bind_some] at h ⊢
    cases r with
    | none => simp only at h2; rw [if_neg (by omega)]; exact h
    | some sl =>
      obtain ⟨so, g1, g2, g3⟩ := h2
      rw [if_pos g1, g2]
      cases sl with
      | i32 w => cases h
      | off e =>
        obtain ⟨p, q1, q2, q3⟩ := g3
        obtain ⟨_, _, _, _, y, hy, hE⟩ := hS.offAt q1
        simp only [hy] at h
        cases y with
        | str t => cases h
        | vec m els => cases h; rw [indirect_spec hb q3 q2]; exact hE.1.u32 hE.2.1
        | tab sl => cases h

/-- the position of a vector element. -/
theorem vecElem_pos {a o : Nat} (ha : OffAt offs a o) {i j : Nat} {r : Option Nat} (h : FB.getVecElem objs a i j = some r) :
    match r with
    | none => tOffset buf (buf.length - o) (4 + 2 * i) = some 0
    | some e => ∃ x y q p, tOffset buf (buf.length - o) (4 + 2 * i) = some x ∧ x ≠ 0 ∧ vector buf (buf.length - o) x = some y ∧
        add32 y (j * 4) = buf.length - q ∧ OffAt offs e p ∧ p < q ∧ At buf q (le32 (q - p)) := by
  unfold FB.getVecElem at h
  cases hr : FB.slot? objs a i with
  | none => rw [hr] at h; cases h
  | some r' =>
    obtain ⟨x, h1, h2⟩ := slot_spec hS hb ha hr
    rw [hr] at h
    simp only [Option.bind_eq_bind, Option.bind_some] at h
    cases r' with
    | none => simp only at h2; cases h; simp only; rw [h1, h2]
    | some sl =>
      obtain ⟨so, g1, g2, g3⟩ := h2
      cases sl with
      | i32 w => cases h
      | off e =>
        obtain ⟨p, q1, q2, q3⟩ := g3
        obtain ⟨_, hp, _, _, y, hy, hE⟩ := hS.offAt q1
        simp only [hy] at h
        cases y with
        | str t => cases h
        | tab sl => cases h
        | vec m els =>
          simp only at h
          cases he : els[j]? with
          | none => rw [he] at h; cases h
          | some e' =>
            rw [he] at h; cases h
            obtain ⟨p', k1, k2, k3⟩ := hE.2.2 j e' he
            refine ⟨x, buf.length - p + 4, p - 4 - 4 * j, p', h1, g1, ?_, by unfold add32; omega, k1, by omega, k3⟩
            unfold vector
            rw [g2, indirect_spec hb q3 q2]
            simp only [Option.bind_eq_bind, Option.bind_some, Option.pure_def, Option.some.injEq]
            unfold add32; omega

theorem getVecElem_none {a o : Nat} (ha : OffAt offs a o) {i j : Nat} (h : FB.getVecElem objs a i j = some none) :
    getVecElem buf (buf.length - o) i j = some none := by
  have := vecElem_pos hS hb ha h
  simp only at this
  unfold getVecElem
  simp [this]

theorem getVecElem_some {a o : Nat} (ha : OffAt offs a o) {i j e : Nat} (h : FB.getVecElem objs a i j = some (some e)) :
    ∃ p, OffAt offs e p ∧ getVecElem buf (buf.length - o) i j = some (some (buf.length - p)) := by
  obtain ⟨x, y, q, p, h1, h2, h3, h4, h5, h6, h7⟩ := vecElem_pos hS hb ha h
  refine ⟨p, h5, ?_⟩
  unfold getVecElem
  simp only [h1, Option.bind_eq_bind, Option.bind_some]
  rw [if_pos h2]
  simp only [h3, Option.bind_some, h4, indirect_spec hb h7 h6, Option.pure_def]

theorem getVecString_spec {a o : Nat} (ha : OffAt offs a o) {i j : Nat} {s : String} (h : FB.getVecString objs a i j = some s) :
    getVecString buf (buf.length - o) i j = some s := by
  unfold FB.getVecString at h
  cases hr : FB.getVecElem objs a i j with
  | none => rw [hr] at h; cases h
  | some r =>
    rw [hr] at h
    simp only [Option.bind_eq_bind, Option.bind_some] at h
    unfold getVecString
    have hp := vecElem_pos hS hb ha hr
    cases r with
    | none => simp only at hp h; cases h; simp [hp]
    | some e =>
      obtain ⟨x, y, q, p, h1, h2, h3, h4, h5, h6, h7⟩ := hp
      obtain ⟨_, _, _, _, z, hz, hE⟩ := hS.offAt h5
      simp only [hz] at h
      simp only [h1, Option.bind_eq_bind, Option.bind_some]
      rw [if_pos h2]
      simp only [h3, Option.bind_some, h4]
      cases z with
      | str t => cases h; exact byteVector_spec hb h7 h6 hE
      | vec n els => cases h
      | tab sl => cases h

theorem getTable_spec {a o : Nat} (ha : OffAt offs a o) {i : Nat} {old r : Option Nat} {old' : Option Nat}
    (hold : match old with | none => old' = none | some e => ∃ p, OffAt offs e p ∧ old' = some (buf.length - p))
    (h : FB.getTable objs a i old = some r) :
    match r with
    | none => getTable buf (buf.length - o) i old' = some none
    | some e => ∃ p, OffAt offs e p ∧ getTable buf (buf.length - o) i old' = some (some (buf.length - p)) := by
  unfold FB.getTable at h
  cases hr : FB.slot? objs a i with
  | none => rw [hr] at h; cases h
  | some r' =>
    obtain ⟨x, h1, h2⟩ := slot_spec hS hb ha hr
    rw [hr] at h
    have hg : getTable buf (buf.length - o) i old' = if x ≠ 0 then (indirect buf (add32 x (buf.length - o))).bind (fun y => some (some y)) else some old' := by
      unfold getTable
      simp only [h1, Option.bind_eq_bind, Option.bind_some, Option.pure_def]
    simp only [Option.bind_eq_bind, Option.bind_some] at h
    cases r' with
    | none =>
      simp only at h2
      cases h
      rw [if_neg (by omega)] at hg
      cases old with
      | none => simp only at hold ⊢; rw [hg, hold]
      | some e =>
        obtain ⟨p, k1, k2⟩ := hold
        exact ⟨p, k1, by rw [hg, k2]⟩
    | some sl =>
      obtain ⟨so, g1, g2, g3⟩ := h2
      rw [if_pos g1, g2] at hg
      cases sl with
      | i32 w => cases h
      | off e =>
        cases h
        obtain ⟨p, q1, q2, q3⟩ := g3
        refine ⟨p, q1, ?_⟩
        rw [hg, indirect_spec hb q3 q2]; rfl

theorem readCounts_spec {a o : Nat} (ha : OffAt offs a o) (slot : Nat) : ∀ (n j : Nat) (data r : GoMap String Int),
    Goir.readCounts objs a slot j n data = some r → readCounts buf (buf.length - o) slot j n data = some r := by
  intro n
  induction n with
  | zero => intro j data r h; exact h
  | succ n ih =>
    intro j data r h
    unfold Goir.readCounts at h
    unfold readCounts
    cases he : FB.getVecElem objs a slot j with
    | none => rw [he] at h; cases h
    | some e =>
      rw [he] at h
      simp only [Option.bind_eq_bind, Option.bind_some] at h ⊢
      cases e with
      | none => rw [getVecElem_none hS hb ha he]; exact ih _ _ _ h
      | some e =>
        obtain ⟨p, hp, hg⟩ := getVecElem_some hS hb ha he
        rw [hg]
        simp only [Option.bind_some]
        simp only at h
        cases hk : FB.getString objs e 0 with
        | none => rw [hk] at h; cases h
        | some key =>
          cases hv : FB.getInt32 objs e 1 with
          | none => rw [hk, hv] at h; cases h
          | some value =>
            rw [hk, hv] at h
            rw [getString_spec hS hb hp hk, getInt32_spec hS hb hp hv]
            exact ih _ _ _ h

theorem readFieldEntries_spec {a o : Nat} (ha : OffAt offs a o) : ∀ (n i : Nat) (field field' : Option Nat) (data r : GoMap String Field),
    (match field with | none => field' = none | some e => ∃ p, OffAt offs e p ∧ field' = some (buf.length - p)) →
    Goir.readFieldEntries objs a i n field data = some r → readFieldEntries buf (buf.length - o) i n field' data = some r := by
  intro n
  induction n with
  | zero => intro i f f' data r _ h; exact h
  | succ n ih =>
    intro i f f' data r hf h
    unfold Goir.readFieldEntries at h
    unfold readFieldEntries
    cases he : FB.getVecElem objs a 0 i with
    | none => rw [he] at h; cases h
    | some e =>
      rw [he] at h
      simp only [Option.bind_eq_bind, Option.bind_some] at h ⊢
      cases e with
      | none => rw [getVecElem_none hS hb ha he]; exact ih _ _ _ _ _ hf h
      | some e =>
        obtain ⟨p, hp, hg⟩ := getVecElem_some hS hb ha he
        rw [hg]
        simp only [Option.bind_some]
        simp only at h
        cases hk : FB.getString objs e 0 with
        | none => rw [hk] at h; cases h
        | some key =>
          rw [hk] at h
          rw [getString_spec hS hb hp hk]
          simp only [Option.bind_some] at h ⊢
          cases ht : FB.getTable objs e 1 f with
          | none => rw [ht] at h; cases h
          | some t =>
            rw [ht] at h
            simp only [Option.bind_some] at h
            have hts := getTable_spec hS hb hp hf ht
            cases t with
            | none => cases h
            | some t =>
              obtain ⟨q, hq, hgt⟩ := hts
              rw [hgt]
              simp only [Option.bind_some]
              simp only at h
              cases hn : FB.getString objs t 0 with
              | none => rw [hn] at h; cases h
              | some name =>
                cases hl : FB.getInt32 objs t 1 with
                | none => rw [hn, hl] at h; cases h
                | some length =>
                  cases hv : FB.getVecLen objs t 2 with
                  | none => rw [hn, hl, hv] at h; cases h
                  | some m =>
                    cases hc : Goir.readCounts objs t 2 0 m [] with
                    | none => rw [hn, hl, hv] at h; simp only [Option.bind_some, hc] at h; cases h
                    | some tf =>
                      rw [hn, hl, hv] at h
                      simp only [Option.bind_some, hc] at h
                      rw [getString_spec hS hb hq hn, getInt32_spec hS hb hq hl, getVecLen_spec hS hb hq hv]
                      simp only [Option.bind_some]
                      rw [readCounts_spec hS hb hq 2 _ _ _ _ hc]
                      exact ih _ _ _ _ _ (by exact ⟨q, hq, rfl⟩) h

theorem readValues_spec {a o : Nat} (ha : OffAt offs a o) : ∀ (n j : Nat) (values r : GoMap String Bool),
    Goir.readValues objs a j n values = some r → readValues buf (buf.length - o) j n values = some r := by
  intro n
  induction n with
  | zero => intro j data r h; exact h
  | succ n ih =>
    intro j data r h
    unfold Goir.readValues at h
    unfold readValues
    cases he : FB.getVecString objs a 0 j with
    | none => rw [he] at h; cases h
    | some s =>
      rw [he] at h
      rw [getVecString_spec hS hb ha he]
      exact ih _ _ _ h

theorem readTerms_spec {a o : Nat} (ha : OffAt offs a o) : ∀ (n i : Nat) (data r : GoMap String (GoMap String Bool)),
    Goir.readTerms objs a i n data = some r → readTerms buf (buf.length - o) i n data = some r := by
  intro n
  induction n with
  | zero => intro i data r h; exact h
  | succ n ih =>
    intro i data r h
    unfold Goir.readTerms at h
    unfold readTerms
    cases he : FB.getVecElem objs a 0 i with
    | none => rw [he] at h; cases h
    | some e =>
      rw [he] at h
      simp only [Option.bind_eq_bind, Option.bind_some] at h ⊢
      cases e with
      | none => cases h
      | some e =>
        obtain ⟨p, hp, hg⟩ := getVecElem_some hS hb ha he
        rw [hg]
        simp only [Option.bind_some]
        simp only at h
        cases hk : FB.getString objs e 0 with
        | none => rw [hk] at h; cases h
        | some key =>
          rw [hk] at h
          rw [getString_spec hS hb hp hk]
          simp only [Option.bind_some] at h ⊢
          cases ht : FB.getTable objs e 1 none with
          | none => rw [ht] at h; cases h
          | some t =>
            rw [ht] at h
            simp only [Option.bind_some] at h
            have hts := getTable_spec hS hb hp (old := none) (old' := none) rfl ht
            cases t with
            | none => cases h
            | some t =>
              obtain ⟨q, hq, hgt⟩ := hts
              rw [hgt]
              simp only [Option.bind_some]
              simp only at h
              cases hv : FB.getVecLen objs t 0 with
              | none => rw [hv] at h; cases h
              | some m =>
                rw [hv] at h
                simp only [Option.bind_some] at h
                rw [getVecLen_spec hS hb hq hv]
                simp only [Option.bind_some]
                cases hc : Goir.readValues objs t 0 m [] with
                | none => rw [hc] at h; cases h
                | some vs =>
                  rw [hc] at h
                  rw [readValues_spec hS hb hq _ _ _ _ hc]
                  exact ih _ _ _ h

end

theorem getRoot_spec {buf : Bytes} (hb : buf.length ≤ 1073741824) {o : Nat} (h : At buf buf.length (le32 (buf.length - o))) :
    getRoot buf = some (buf.length - o) := by
  unfold getRoot
  have := h.u32 (by omega)
  rw [Nat.sub_self] at this
  rw [this]
  simp only [Option.bind_eq_bind, Option.bind_some, Option.pure_def, Option.some.injEq]
  unfold add32; omega

end FBB
end Goir
