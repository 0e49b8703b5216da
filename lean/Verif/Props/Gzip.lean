import Verif.Props.GzipCrc
/-!
# C117: DecompressData accepts exactly the gzip files, and what CompressData writes comes back
-/
namespace Goir
namespace Gzip
open Spec.Gz

/-! ### numbers in bytes -/

theorem littleEndian_length (n : Nat) : ∀ v, (littleEndian n v).length = n := by
  induction n with
  | zero => intro v; rfl
  | succ n ih => intro v; simp [littleEndian, ih]

theorem le_littleEndian (n : Nat) : ∀ v, le (littleEndian n v) = v % 256 ^ n := by
  induction n with
  | zero => intro v; simp [littleEndian, le, Nat.mod_one]
  | succ n ih =>
    intro v
    have := ih (v / 256)
    unfold le at this ⊢
    have e : v % 256 ^ (n + 1) = v % 256 + 256 * (v / 256 % 256 ^ n) := by rw [Nat.pow_succ', Nat.mod_mul]
    rw [littleEndian, List.foldr_cons, this, UInt8.toNat_ofNat', e]

theorem le_inj : ∀ {a b : List UInt8}, a.length = b.length → le a = le b → a = b
  | [], [], _, _ => rfl
  | x :: a, y :: b, h, e => by
    unfold le at e
    rw [List.foldr_cons, List.foldr_cons] at e
    have hx := x.toNat_lt
    have hy := y.toNat_lt
    have e1 : x.toNat = y.toNat := by omega
    have e2 : le a = le b := by unfold le; omega
    rw [le_inj (by simpa using h) e2, UInt8.toNat_inj.1 e1]
  | [], _ :: _, h, _ => by simp at h
  | _ :: _, [], h, _ => by simp at h

theorem le_iff {bs : List UInt8} {n v : Nat} (h : bs.length = n) : le bs = v % 256 ^ n ↔ bs = littleEndian n v := by
  constructor
  · intro e
    exact le_inj (by rw [littleEndian_length, h]) (by rw [e, le_littleEndian])
  · rintro rfl; exact le_littleEndian n v

theorem le_lt (bs : List UInt8) : le bs < 256 ^ bs.length := by
  induction bs with
  | nil => simp [le]
  | cons b bs ih =>
    unfold le at ih ⊢
    rw [List.foldr_cons, List.length_cons, Nat.pow_succ]
    have := b.toNat_lt
    omega

/-! ### the parts of a header -/

theorem readFull_iff {n : Nat} {bs a r : List UInt8} : readFull n bs = some (a, r) ↔ a.length = n ∧ bs = a ++ r := by
  unfold readFull
  split
  · rename_i h
    simp only [Option.some.injEq, Prod.mk.injEq]
    constructor
    · rintro ⟨rfl, rfl⟩; simp [h]
    · rintro ⟨rfl, rfl⟩; simp
  · rename_i h
    simp only [reduceCtorEq, false_iff]
    rintro ⟨rfl, rfl⟩
    simp at h

theorem readString_iff (n : Nat) : ∀ {bs s r : List UInt8}, readString n bs = some (s, r) ↔ ∃ t, 0 ∉ t ∧ t.length < n ∧ s = t ++ [0] ∧ bs = s ++ r := by
  induction n with
  | zero => intro bs s r; simp [readString]
  | succ n ih =>
    intro bs s r
    cases bs with
    | nil =>
      simp only [readString, reduceCtorEq, false_iff]
      rintro ⟨t, _, _, rfl, e⟩
      simp at e
    | cons b bs =>
      rw [readString]
      split
      · rename_i h0
        subst h0
        simp only [Option.some.injEq, Prod.mk.injEq]
        constructor
        · rintro ⟨rfl, rfl⟩; exact ⟨[], by simp, by simp, rfl, rfl⟩
        · rintro ⟨t, h0, _, rfl, e⟩
          cases t with
          | nil => simpa using e
          | cons c t => simp at e; simp [← e.1] at h0
      · rename_i h0
        simp only [Option.bind_eq_bind, Option.bind_eq_some_iff, Prod.exists, ih, Option.pure_def, Option.some.injEq, Prod.mk.injEq]
        constructor
        · rintro ⟨_, _, ⟨t, h1, h2, rfl, rfl⟩, rfl, rfl⟩
          exact ⟨b :: t, by simp [h1, Ne.symm h0], by simpa using h2, by simp, by simp⟩
        · rintro ⟨t, h1, h2, rfl, e⟩
          cases t with
          | nil => simp at e; exact absurd e.1 h0
          | cons c t =>
            simp at e h1 h2
            exact ⟨t ++ [0], r, ⟨t, h1.2, h2, rfl, by simp [e.2]⟩, by simp [e.1], rfl⟩

theorem flag_bits (flg : UInt8) : ((flg &&& 2 ≠ 0) ↔ flg.toNat.testBit 1 = true) ∧ ((flg &&& 4 ≠ 0) ↔ flg.toNat.testBit 2 = true) ∧ ((flg &&& 8 ≠ 0) ↔ flg.toNat.testBit 3 = true) ∧
    ((flg &&& 16 ≠ 0) ↔ flg.toNat.testBit 4 = true) := by
  have h : ∀ n : Fin 256, ((UInt8.ofNat n.1 &&& 2 ≠ 0) ↔ n.1.testBit 1 = true) ∧ ((UInt8.ofNat n.1 &&& 4 ≠ 0) ↔ n.1.testBit 2 = true) ∧ ((UInt8.ofNat n.1 &&& 8 ≠ 0) ↔ n.1.testBit 3 = true) ∧
    ((UInt8.ofNat n.1 &&& 16 ≠ 0) ↔ n.1.testBit 4 = true) := by decide +kernel
  have := h ⟨flg.toNat, flg.toNat_lt⟩
  simpa using this

theorem readExtra_iff {flg : UInt8} {front bs r : List UInt8} {d : UInt32} : readExtra flg (crcUpdate 0 front) bs = some (d, r) ↔
    ∃ extra, extra.length < 65536 ∧ ∃ part, part = (if flg.toNat.testBit 2 then littleEndian 2 extra.length ++ extra else []) ∧ d = crcUpdate 0 (front ++ part) ∧ bs = part ++ r := by
  unfold readExtra
  by_cases h : flg &&& 4 ≠ 0
  · have h' := (flag_bits flg).2.1.1 h
    rw [if_pos h]
    simp only [h', if_true, Option.bind_eq_bind, Option.bind_eq_some_iff, Prod.exists, readFull_iff, Option.pure_def, Option.some.injEq, Prod.mk.injEq]
    constructor
    · rintro ⟨n, _, ⟨hn, rfl⟩, data, r', ⟨hd, rfl⟩, rfl, rfl⟩
      have hlt := le_lt n
      rw [hn] at hlt
      have e : n = littleEndian 2 data.length := (le_iff hn).1 (by rw [hd, Nat.mod_eq_of_lt hlt])
      refine ⟨data, by omega, _, rfl, ?_, by rw [← e]; simp⟩
      rw [← e, crcUpdate_append, crcUpdate_append, List.append_assoc]
    · rintro ⟨extra, hx, _, rfl, rfl, rfl⟩
      refine ⟨littleEndian 2 extra.length, extra ++ r, ⟨littleEndian_length _ _, by simp⟩, extra, r, ⟨?_, rfl⟩, ?_, rfl⟩
      · rw [le_littleEndian, Nat.mod_eq_of_lt (by omega)]
      · rw [crcUpdate_append, crcUpdate_append, List.append_assoc]
  · have h' : flg.toNat.testBit 2 = false := by
      cases hb : flg.toNat.testBit 2 with
      | false => rfl
      | true => exact absurd ((flag_bits flg).2.1.2 hb) h
    rw [if_neg h]
    simp only [h', Option.some.injEq, Prod.mk.injEq]
    constructor
    · rintro ⟨rfl, rfl⟩; exact ⟨[], by simp, [], by simp, by simp, by simp⟩
    · rintro ⟨_, _, part, rfl, rfl, rfl⟩; simp

theorem readText_iff {flg bit : UInt8} {k : Nat} (hk : (flg &&& bit ≠ 0) ↔ flg.toNat.testBit k = true) {front bs r : List UInt8} {d : UInt32} : readText flg bit (crcUpdate 0 front) bs = some (d, r) ↔
    ∃ text, 0 ∉ text ∧ text.length < 512 ∧ ∃ part, part = (if flg.toNat.testBit k then text ++ [0] else []) ∧ d = crcUpdate 0 (front ++ part) ∧ bs = part ++ r := by
  unfold readText
  by_cases h : flg &&& bit ≠ 0
  · have h' := hk.1 h
    rw [if_pos h]
    simp only [h', if_true, Option.bind_eq_bind, Option.bind_eq_some_iff, Prod.exists, readString_iff, Option.pure_def, Option.some.injEq, Prod.mk.injEq]
    constructor
    · rintro ⟨_, _, ⟨t, h0, hl, rfl, rfl⟩, rfl, rfl⟩
      exact ⟨t, h0, hl, _, rfl, crcUpdate_append _ _, rfl⟩
    · rintro ⟨t, h0, hl, _, rfl, rfl, rfl⟩
      exact ⟨_, _, ⟨t, h0, hl, rfl, rfl⟩, crcUpdate_append _ _, rfl⟩
  · have h' : flg.toNat.testBit k = false := by
      cases hb : flg.toNat.testBit k with
      | false => rfl
      | true => exact absurd (hk.2 hb) h
    rw [if_neg h]
    simp only [h', Option.some.injEq, Prod.mk.injEq]
    constructor
    · rintro ⟨rfl, rfl⟩; exact ⟨[], by simp, by simp, [], by simp, by simp, by simp⟩
    · rintro ⟨_, _, _, part, rfl, rfl, rfl⟩; simp

theorem readHdrCrc_iff {flg : UInt8} {front bs r : List UInt8} : readHdrCrc flg (crcUpdate 0 front) bs = some r ↔ bs = (if flg.toNat.testBit 1 then littleEndian 2 (crc32 front).toNat else []) ++ r := by
  unfold readHdrCrc
  have hc : (crcUpdate 0 front).toNat = (crc32 front).toNat := by rw [← crcUpdate_eq]; rfl
  by_cases h : flg &&& 2 ≠ 0
  · have h' := (flag_bits flg).1.1 h
    rw [if_pos h]
    simp only [h', if_true, Option.bind_eq_bind, Option.bind_eq_some_iff, Prod.exists, readFull_iff]
    constructor
    · rintro ⟨c, r', ⟨hl, rfl⟩, e⟩
      split at e
      · cases e
      · rename_i hne
        cases e
        rw [not_not, hc] at hne
        rw [(le_iff hl).1 hne]
    · rintro rfl
      refine ⟨_, r, ⟨littleEndian_length _ _, rfl⟩, ?_⟩
      rw [if_neg]
      rw [not_not, hc, le_littleEndian]
      rfl
  · have h' : flg.toNat.testBit 1 = false := by
      cases hb : flg.toNat.testBit 1 with
      | false => rfl
      | true => exact absurd ((flag_bits flg).1.2 hb) h
    rw [if_neg h]
    simp [h']

/-- readHeader reads exactly a header. -/
theorem readHeader_iff {bs r : List UInt8} : readHeader bs = some r ↔ ∃ hd, Header hd ∧ bs = hd ++ r := by
  unfold readHeader
  simp only [Option.bind_eq_bind, Option.bind_eq_some_iff, Prod.exists, readFull_iff]
  constructor
  · rintro ⟨buf, r1, ⟨hl, rfl⟩, e⟩
    split at e
    · cases e
    · rename_i hm
      simp only [not_or, not_not] at hm
      match buf, hl with
      | [a, b, c, flg, m0, m1, m2, m3, xfl, os], _ =>
        simp only [List.getD_cons_zero, List.getD_cons_succ] at hm e
        obtain ⟨rfl, rfl, rfl⟩ := hm
        simp only [Option.bind_eq_some_iff, Prod.exists] at e
        obtain ⟨d1, r2, e1, d2, r3, e2, d3, r4, e3, e4⟩ := e
        obtain ⟨extra, hx, p1, hp1, rfl, rfl⟩ := readExtra_iff.1 e1
        obtain ⟨name, hn0, hn, p2, hp2, rfl, rfl⟩ := (readText_iff (flag_bits flg).2.2.1).1 e2
        obtain ⟨com, hc0, hc, p3, hp3, rfl, rfl⟩ := (readText_iff (flag_bits flg).2.2.2).1 e3
        have := readHdrCrc_iff.1 e4
        refine ⟨_, ⟨flg, xfl, os, [m0, m1, m2, m3], extra, name, com, rfl, hx, hn0, hn, hc0, hc, [0x1f, 0x8b, 8, flg, m0, m1, m2, m3, xfl, os] ++ p1 ++ p2 ++ p3, ?_, rfl⟩, ?_⟩
        · rw [hp1, hp2, hp3]; simp
        · rw [this]; simp
  · rintro ⟨_, ⟨flg, xfl, os, mt, extra, name, com, hmt, hx, hn0, hn, hc0, hc, front, rfl, rfl⟩, rfl⟩
    match mt, hmt with
    | [m0, m1, m2, m3], _ =>
      refine ⟨[0x1f, 0x8b, 8, flg, m0, m1, m2, m3, xfl, os], _, ⟨rfl, by simp only [List.append_assoc, List.cons_append, List.nil_append]; rfl⟩, ?_⟩
      rw [if_neg (by simp)]
      simp only [List.getD_cons_zero, List.getD_cons_succ, Option.bind_eq_some_iff, Prod.exists]
      exact ⟨_, _, readExtra_iff.2 ⟨extra, hx, _, rfl, rfl, rfl⟩, _, _, (readText_iff (flag_bits flg).2.2.1).2 ⟨name, hn0, hn, _, rfl, rfl, rfl⟩,
        _, _, (readText_iff (flag_bits flg).2.2.2).2 ⟨com, hc0, hc, _, rfl, rfl, rfl⟩, readHdrCrc_iff.2 (by simp)⟩

/-! ### members -/

theorem bitsOf_append (a b : List UInt8) : bitsOf (a ++ b) = bitsOf a ++ bitsOf b := by unfold bitsOf; exact List.flatMap_append

theorem crc_le {c : List UInt8} {data : List UInt8} (h : c.length = 4) : le c = (crcUpdate 0 data).toNat ↔ c = littleEndian 4 (crc32 data).toNat := by
  have hc : (crcUpdate 0 data).toNat = (crc32 data).toNat := by rw [← crcUpdate_eq]; rfl
  have hlt : (crc32 data).toNat < 256 ^ 4 := (crc32 data).isLt
  rw [hc, ← le_iff h, Nat.mod_eq_of_lt hlt]

/-- one pass of `z.Read` reads exactly a member. -/
theorem readMember_iff {bs r data : List UInt8} : readMember bs = some (data, r) ↔ ∃ m, Member data m ∧ bs = m ++ r := by
  unfold readMember
  simp only [Option.bind_eq_bind, Option.bind_eq_some_iff, Prod.exists, readHeader_iff]
  constructor
  · rintro ⟨b1, ⟨hd, hh, rfl⟩, dat, rest, ei, buf, r1, ef, e⟩
    split at e
    · cases e
    rename_i hs
    simp only [not_or, not_not] at hs
    obtain ⟨rfl, rfl⟩ : dat = data ∧ r1 = r := by simpa using e
    obtain ⟨hl, e2⟩ := readFull_iff.1 ef
    rw [bits_eq] at ei
    obtain ⟨used, hb, e3⟩ := inflate_sound _ 0 _ _ _ _ (by rw [bitsOf_length]; omega) ei
    have hlen := congrArg List.length e3
    rw [bitsOf_length, List.length_append] at hlen
    generalize hk : b1.length - rest.length / 8 = k at e2
    have hkl : k ≤ b1.length := by omega
    have e4 : bitsOf (b1.take k) ++ bitsOf (b1.drop k) = used ++ rest := by rw [← bitsOf_append, List.take_append_drop, e3]
    have hd8 : (bitsOf (b1.drop k)).length = 8 * (rest.length / 8) := by rw [bitsOf_length, List.length_drop]; omega
    have e5 : bitsOf (b1.take k) = used ++ rest.take (rest.length % 8) := by
      rw [← List.take_append_drop (rest.length % 8) rest, ← List.append_assoc] at e4
      refine (List.append_inj' e4 ?_).1
      rw [hd8, List.length_drop]; omega
    have hb4 : (buf.take 4).length = 4 := by simp [hl]
    have hb4' : (buf.drop 4).length = 4 := by simp [hl]
    refine ⟨_, ⟨hd, b1.take k, hh, ⟨used, _, hb, ?_, e5⟩, rfl⟩, ?_⟩
    · rw [List.length_take]; omega
    · rw [← (crc_le hb4).1 hs.1, ← (le_iff hb4').1 hs.2]
      rw [List.append_assoc, List.append_assoc, List.append_assoc, ← List.append_assoc (List.take 4 buf), List.take_append_drop, ← e2, List.take_append_drop]
  · rintro ⟨_, ⟨hd, body, hh, ⟨used, pad, hb, hp, e⟩, rfl⟩, rfl⟩
    generalize htl : littleEndian 4 (crc32 data).toNat ++ littleEndian 4 data.length ++ r = tl
    have e1 : hd ++ body ++ littleEndian 4 (crc32 data).toNat ++ littleEndian 4 data.length ++ r = hd ++ (body ++ tl) := by rw [← htl]; simp
    have e2 : bits (body ++ tl) = used ++ (pad ++ bitsOf tl) := by rw [bits_eq, bitsOf_append, e]; simp
    have hlen := congrArg List.length e2
    rw [bits_eq, bitsOf_length] at hlen
    simp only [List.length_append, bitsOf_length] at hlen
    have hin := inflate_complete hb ((bits (body ++ tl)).length + 1) (pad ++ bitsOf tl) (by rw [e2, List.length_append]; omega) (by simp only [List.length_append, bitsOf_length]; omega)
    rw [← e2] at hin
    refine ⟨body ++ tl, ⟨hd, hh, e1⟩, data, pad ++ bitsOf tl, hin, littleEndian 4 (crc32 data).toNat ++ littleEndian 4 data.length, r, ?_, ?_⟩
    · rw [readFull_iff]
      refine ⟨by simp [littleEndian_length], ?_⟩
      have hd8 : (body ++ tl).length - (pad ++ bitsOf tl).length / 8 = body.length := by simp only [List.length_append, bitsOf_length]; omega
      rw [hd8, List.drop_left, ← htl]
    · have h4 := littleEndian_length 4 (crc32 data).toNat
      have t1 : (littleEndian 4 (crc32 data).toNat ++ littleEndian 4 data.length).take 4 = littleEndian 4 (crc32 data).toNat := List.take_left' h4
      have t2 : (littleEndian 4 (crc32 data).toNat ++ littleEndian 4 data.length).drop 4 = littleEndian 4 data.length := List.drop_left' h4
      rw [t1, t2, if_neg]
      · rfl
      · rintro (h | h)
        · exact h ((crc_le h4).2 rfl)
        · exact h (le_littleEndian 4 _)

theorem member_length {data m : List UInt8} (h : Member data m) : 18 ≤ m.length := by
  obtain ⟨hd, body, ⟨flg, xfl, os, mt, _, _, _, hmt, _, _, _, _, _, front, rfl, rfl⟩, _, rfl⟩ := h
  simp only [List.length_append, littleEndian_length, List.length_cons, List.length_nil, hmt]
  omega

theorem file_length {data m : List UInt8} (h : File data m) : 18 ≤ m.length := by
  cases h with
  | one h => exact member_length h
  | more h _ => have := member_length h; rw [List.length_append]; omega

/-- a member is as long as it is: no other one begins at the same place. -/
theorem member_unique {d d' m m' r r' : List UInt8} (h : Member d m) (h' : Member d' m') (e : m ++ r = m' ++ r') : d = d' ∧ m = m' ∧ r = r' := by
  have a : readMember (m ++ r) = some (d, r) := readMember_iff.2 ⟨m, h, rfl⟩
  have b : readMember (m' ++ r') = some (d', r') := readMember_iff.2 ⟨m', h', rfl⟩
  rw [e, b] at a
  simp only [Option.some.injEq, Prod.mk.injEq] at a
  obtain ⟨rfl, rfl⟩ := a
  exact ⟨rfl, List.append_cancel_right e, rfl⟩

theorem readMembers_sound : ∀ (fuel : Nat) (bs data : List UInt8), readMembers fuel bs = some data → File data bs := by
  intro fuel
  induction fuel with
  | zero => intro bs data e; cases e
  | succ fuel ih =>
    intro bs data e
    rw [readMembers] at e
    simp only [Option.bind_eq_bind, Option.bind_eq_some_iff, Prod.exists] at e
    obtain ⟨d, r, e1, e2⟩ := e
    obtain ⟨m, hm, rfl⟩ := readMember_iff.1 e1
    cases r with
    | nil =>
      simp at e2
      subst e2
      rw [List.append_nil]
      exact .one hm
    | cons x r =>
      simp only [List.isEmpty_cons, Bool.false_eq_true, if_false, Option.bind_eq_some_iff, Option.pure_def, Option.some.injEq] at e2
      obtain ⟨more, e3, rfl⟩ := e2
      exact .more hm (ih _ _ e3)

theorem readMembers_complete {data bs : List UInt8} (h : File data bs) : ∀ fuel, bs.length < fuel → readMembers fuel bs = some data := by
  induction h with
  | @one data bytes hm =>
    intro fuel hf
    obtain ⟨fuel, rfl⟩ : ∃ k, fuel = k + 1 := ⟨fuel - 1, by omega⟩
    have := readMember_iff.2 ⟨bytes, hm, (List.append_nil bytes).symm⟩
    rw [readMembers, this]
    rfl
  | @more data bytes data' bytes' hm hf' ih =>
    intro fuel hf
    obtain ⟨fuel, rfl⟩ : ∃ k, fuel = k + 1 := ⟨fuel - 1, by omega⟩
    have h18 := member_length hm
    rw [List.length_append] at hf
    have hne : bytes' ≠ [] := by
      rintro rfl
      have := file_length hf'
      simp at this
    rw [readMembers, readMember_iff.2 ⟨bytes, hm, rfl⟩]
    simp only [Option.bind_eq_bind, Option.bind_some, List.isEmpty_iff, hne, if_false, ih fuel (by omega), Option.pure_def]

/-! ### the claims -/

/-- C117: DecompressData accepts exactly the gzip files, and answers with what they contain. -/
theorem c117_reads (buf data : List UInt8) : decompressData buf = some data ↔ File data buf :=
  ⟨readMembers_sound _ _ _, fun h => readMembers_complete h _ (by omega)⟩

/-- C117: everything else makes it panic. -/
theorem c117_panics (buf : List UInt8) : decompressData buf = none ↔ ¬ ∃ data, File data buf := by
  constructor
  · rintro e ⟨d, h⟩
    rw [(c117_reads _ _).2 h] at e
    cases e
  · intro h
    cases e : decompressData buf with
    | none => rfl
    | some d => exact absurd ⟨d, (c117_reads _ _).1 e⟩ h

/-- C117: a gzip file has one content. -/
theorem c117_one_content {d d' buf : List UInt8} (h : File d buf) (h' : File d' buf) : d = d' := by
  have a := (c117_reads _ _).2 h
  rw [(c117_reads _ _).2 h'] at a
  exact (Option.some.inj a).symm

theorem plain_header : Header [0x1f, 0x8b, 8, 0, 0, 0, 0, 0, 0, 0xff] :=
  ⟨0, 0, 0xff, [0, 0, 0, 0], [], [], [], rfl, by decide, by decide, by decide, by decide, by decide, _, rfl, by decide⟩

theorem written_member {data bytes : List UInt8} (h : Written data bytes) : Member data bytes := by
  obtain ⟨body, hb, rfl⟩ := h
  exact ⟨_, body, plain_header, hb, rfl⟩

/-- C117: whatever encoding the writer chooses for the data, they come back. -/
theorem c117_round_trip {data bytes : List UInt8} (h : Written data bytes) : decompressData bytes = some data := (c117_reads _ _).2 (.one (written_member h))

/-- C117: two files that the writer made are the same only if the data are. -/
theorem c117_injective {d d' bytes : List UInt8} (h : Written d bytes) (h' : Written d' bytes) : d = d' := c117_one_content (.one (written_member h)) (.one (written_member h'))

/-- C117: a file that the writer made and that was cut short makes DecompressData panic, wherever it was cut. -/
theorem c117_truncated {data bytes : List UInt8} (h : Written data bytes) (n : Nat) (hn : n < bytes.length) : decompressData (bytes.take n) = none := by
  rw [c117_panics]
  rintro ⟨d, hf⟩
  have hm := written_member h
  have key : ∀ d' m r, Member d' m → m ++ r = bytes.take n → False := by
    intro d' m r hm' e
    have e' : m ++ (r ++ bytes.drop n) = bytes ++ [] := by rw [← List.append_assoc, e, List.take_append_drop, List.append_nil]
    have := (member_unique hm' hm e').2.1
    have hl := congrArg List.length e
    rw [this, List.length_append, List.length_take] at hl
    omega
  generalize hb : bytes.take n = p at hf key
  cases hf with
  | one h1 => exact key _ _ [] h1 (List.append_nil _)
  | more h1 _ => exact key _ _ _ h1 rfl

/-- C117: bytes after the end of a file that the writer made must be files as well. -/
theorem c117_appended {data bytes : List UInt8} (h : Written data bytes) (tail : List UInt8) (ht : tail ≠ []) (d : List UInt8) :
    decompressData (bytes ++ tail) = some d ↔ ∃ d', decompressData tail = some d' ∧ d = data ++ d' := by
  have hm := written_member h
  constructor
  · intro e
    have hf := (c117_reads _ _).1 e
    generalize hb : bytes ++ tail = p at hf
    cases hf with
    | one h1 =>
      have := member_unique hm h1 (r := tail) (r' := []) (by rw [hb, List.append_nil])
      exact absurd this.2.2 ht
    | more h1 h2 =>
      obtain ⟨rfl, rfl, rfl⟩ := member_unique hm h1 hb
      exact ⟨_, (c117_reads _ _).2 h2, rfl⟩
  · rintro ⟨d', e, rfl⟩
    exact (c117_reads _ _).2 (.more hm ((c117_reads _ _).1 e))

/-! ### every data has a file -/

theorem bits_of_number (n : Nat) : ∀ v, v < 2 ^ n → ∃ w : List Bool, w.length = n ∧ number w = v := by
  induction n with
  | zero => intro v h; exact ⟨[], rfl, by simp [number]; omega⟩
  | succ n ih =>
    intro v h
    obtain ⟨w, hw, e⟩ := ih (v / 2) (by rw [Nat.pow_succ] at h; omega)
    refine ⟨(v % 2 == 1) :: w, by simp [hw], ?_⟩
    rw [number, e]
    simp only [beq_iff_eq]
    split <;> omega

theorem stored_blocks : ∀ (k : Nat) (h d : List UInt8) (pos : Nat), d.length ≤ k → pos % 8 = 0 → ∃ bs, Blocks pos h (h ++ d) bs ∧ bs.length % 8 = 0 := by
  intro k
  induction k with
  | zero =>
    intro h d pos hd hp
    obtain rfl : d = [] := List.length_eq_zero_iff.1 (by omega)
    exact ⟨_, .last (.stored (d := []) (pad := List.replicate 5 false) (n := List.replicate 16 false) (by decide) (by simp; omega) (by decide) (by decide) rfl), by simp [bitsOf]⟩
  | succ k ih =>
    intro h d pos hd hp
    by_cases hs : d.length < 65536
    · obtain ⟨w, hw, e⟩ := bits_of_number 16 d.length (by omega)
      exact ⟨_, .last (.stored (d := d) (pad := List.replicate 5 false) (n := w) (by decide) (by simp; omega) hw e rfl), by simp [bitsOf_length, hw]; omega⟩
    · obtain ⟨w, hw, e⟩ := bits_of_number 16 65535 (by omega)
      have hb : Block false pos h (h ++ d.take 65535) ([false, false, false] ++ List.replicate 5 false ++ w ++ w.map not ++ bitsOf (d.take 65535)) :=
        .stored (by decide) (by simp; omega) hw (by rw [e, List.length_take]; omega) rfl
      have hl : ([false, false, false] ++ List.replicate 5 false ++ w ++ w.map not ++ bitsOf (d.take 65535)).length % 8 = 0 := by simp [bitsOf_length, hw]; omega
      generalize ([false, false, false] ++ List.replicate 5 false ++ w ++ w.map not ++ bitsOf (d.take 65535)) = b1 at hb hl
      obtain ⟨bs, h2, hl2⟩ := ih (h ++ d.take 65535) (d.drop 65535) (pos + b1.length) (by rw [List.length_drop]; omega) (by omega)
      rw [List.append_assoc, List.take_append_drop] at h2
      exact ⟨b1 ++ bs, .cons hb h2, by rw [List.length_append]; omega⟩

theorem bytes_of_bits : ∀ (n : Nat) (bs : List Bool), bs.length = 8 * n → ∃ bytes, bitsOf bytes = bs := by
  intro n
  induction n with
  | zero => intro bs h; exact ⟨[], by rw [List.length_eq_zero_iff.1 (by omega : bs.length = 0)]; rfl⟩
  | succ n ih =>
    intro bs h
    obtain ⟨bytes, e⟩ := ih (bs.drop 8) (by rw [List.length_drop]; omega)
    refine ⟨UInt8.ofNat (number (bs.take 8)) :: bytes, ?_⟩
    have ht : (bs.take 8).length = 8 := by rw [List.length_take]; omega
    have hlt := number_lt (bs.take 8)
    rw [ht] at hlt
    rw [bitsOf_cons, e]
    conv_rhs => rw [← List.take_append_drop 8 bs]
    congr 1
    refine number_inj (by rw [byteBits_length, ht]) ?_
    rw [byteBits_number, UInt8.toNat_ofNat', Nat.mod_eq_of_lt hlt]

/-- every data can be written. -/
theorem written_exists (data : List UInt8) : ∃ bytes, Written data bytes := by
  obtain ⟨bs, hb, hl⟩ := stored_blocks data.length [] data 0 (by omega) rfl
  obtain ⟨body, e⟩ := bytes_of_bits (bs.length / 8) bs (by omega)
  exact ⟨_, body, ⟨bs, [], hb, by decide, by rw [e, List.append_nil]⟩, rfl⟩

/-! ### cases -/

/-- the check value of CRC-32. -/
example : crc32 [0x31, 0x32, 0x33, 0x34, 0x35, 0x36, 0x37, 0x38, 0x39] = 0xcbf43926#32 := by decide +kernel

/-- 14 bytes with the fixed code and a copy, as zlib writes them. -/
def fixedFile : List UInt8 := [31, 139, 8, 0, 0, 0, 0, 0, 0, 255, 75, 76, 74, 132, 66, 133, 228, 196, 36, 0, 145, 52, 242, 76, 14, 0, 0, 0]

theorem fixedFile_file : File [97, 98, 97, 98, 97, 98, 97, 98, 97, 98, 32, 99, 97, 98] fixedFile := (c117_reads _ _).1 (by decide +kernel)

/-- 20 bytes with codes of their own, as zlib writes them. -/
def dynamicFile : List UInt8 := [31, 139, 8, 0, 0, 0, 0, 0, 0, 255, 5, 193, 1, 1, 0, 0, 0, 130, 160, 173, 154, 255, 55, 4, 211, 32, 39, 96, 99, 113, 93, 72, 121, 120, 20, 0, 0, 0]

def dynamicData : List UInt8 := [99, 98, 98, 100, 97, 97, 100, 98, 99, 98, 97, 97, 97, 98, 100, 99, 97, 99, 100, 97]

theorem dynamicFile_file : File dynamicData dynamicFile := (c117_reads _ _).1 (by decide +kernel)

/-- a bit of it changed: a panic. -/
example : decompressData (dynamicFile.set 30 0) = none := by decide +kernel

/-- a header with every optional part: extra bytes, a name, a comment and its own checksum. -/
example : File [] [31, 139, 8, 30, 1, 2, 3, 4, 5, 6, 2, 0, 97, 98, 110, 97, 109, 101, 0, 99, 111, 0, 125, 3, 3, 0, 0, 0, 0, 0, 0, 0, 0, 0] := (c117_reads _ _).1 (by decide +kernel)

end Gzip
end Goir
