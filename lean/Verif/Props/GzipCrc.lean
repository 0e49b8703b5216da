import Verif.Props.GzipBlocks
/-!
# The checksum of hash/crc32 is the CRC-32 of RFC 1952
-/
namespace Goir
namespace Gzip
open Spec.Gz

/-! ### the checksum -/

/-- one step of the register. -/
def crcStep (x : BitVec 32) : BitVec 32 := if x.getLsbD 0 then (x >>> 1) ^^^ 0xedb88320#32 else x >>> 1

theorem crcStep_shift (x y : BitVec 32) (hy : y.getLsbD 31 = false) : crcStep (x ^^^ (y <<< 1)) = crcStep x ^^^ y := by
  have h0 : (x ^^^ (y <<< 1)).getLsbD 0 = x.getLsbD 0 := by simp
  have h1 : (x ^^^ (y <<< 1)) >>> 1 = (x >>> 1) ^^^ y := by
    apply BitVec.eq_of_getLsbD_eq
    intro i hi
    simp only [BitVec.getLsbD_ushiftRight, BitVec.getLsbD_xor, BitVec.getLsbD_shiftLeft]
    by_cases h31 : i = 31
    · subst h31
      have : y[31] = false := by rw [← BitVec.getLsbD_eq_getElem]; exact hy
      simp [this]
    · have : 1 + i < 32 := by omega
      simp [this]
  unfold crcStep
  rw [h0, h1]
  split
  · rw [BitVec.xor_assoc, BitVec.xor_assoc, BitVec.xor_comm y]
  · rfl

theorem crcBit_eq (c : BitVec 32) (b : Bool) : crcBit c b = crcStep (c ^^^ BitVec.ofNat 32 b.toNat) := by
  unfold crcBit crcStep
  cases b
  · simp
  · have h1 : (c ^^^ 1#32) >>> 1 = c >>> 1 := by
      apply BitVec.eq_of_getLsbD_eq
      intro i hi
      simp [BitVec.getLsbD_ushiftRight, BitVec.getLsbD_one]
    have h2 : (c ^^^ 1#32).getLsbD 0 = !c.getLsbD 0 := by simp
    simp only [Bool.toNat_true, h1, h2]
    simp

theorem foldl_crcBit (l : List Bool) (hl : l.length ≤ 32) : ∀ c, l.foldl crcBit c = crcStep^[l.length] (c ^^^ BitVec.ofNat 32 (number l)) := by
  induction l with
  | nil => intro c; simp [number]
  | cons b l ih =>
    intro c
    rw [List.foldl_cons, ih (by simp at hl; omega), List.length_cons, Function.iterate_succ_apply, crcBit_eq]
    congr 1
    have hlt := number_lt l
    have hl' : l.length ≤ 31 := by simp at hl; omega
    have hlt' : number l < 2 ^ 31 := lt_of_lt_of_le hlt (Nat.pow_le_pow_right (by omega) hl')
    rw [← crcStep_shift]
    · congr 1
      rw [BitVec.xor_assoc]
      congr 1
      apply BitVec.eq_of_toNat_eq
      simp only [BitVec.toNat_xor, BitVec.toNat_ofNat, BitVec.toNat_shiftLeft, number]
      have e1 : b.toNat % 2 ^ 32 = b.toNat := Nat.mod_eq_of_lt (by cases b <;> simp)
      have e2 : number l % 2 ^ 32 = number l := Nat.mod_eq_of_lt (by omega)
      have e3 : number l <<< 1 % 2 ^ 32 = 2 * number l := by
        rw [Nat.shiftLeft_eq, Nat.mod_eq_of_lt (by omega)]; omega
      rw [e1, e2, e3]
      apply Nat.eq_of_testBit_eq
      intro i
      rw [Nat.testBit_xor]
      cases i with
      | zero => cases b <;> simp [Nat.testBit_zero] <;> omega
      | succ i =>
        have h1 : (2 * number l).testBit (i + 1) = (number l).testBit i := by rw [Nat.testBit_succ]; congr 1; omega
        have h2 : b.toNat.testBit (i + 1) = false := by cases b <;> simp [Nat.testBit_succ]
        have h3 : (((if b = true then 1 else 0) + 2 * number l) % 2 ^ 32).testBit (i + 1) = (number l).testBit i := by
          have : ((if b = true then 1 else 0) + 2 * number l) % 2 ^ 32 = (if b = true then 1 else 0) + 2 * number l := Nat.mod_eq_of_lt (by split <;> omega)
          rw [this, Nat.testBit_succ]; congr 1; split <;> omega
        rw [h1, h2, h3]; simp
    · rw [BitVec.getLsbD_ofNat]
      simp [Nat.testBit_lt_two_pow hlt']

theorem iter_shift (k : Nat) : ∀ (x y : BitVec 32), (∀ i, 32 - k ≤ i → y.getLsbD i = false) → k ≤ 32 → crcStep^[k] (x ^^^ (y <<< k)) = crcStep^[k] x ^^^ y := by
  induction k with
  | zero => intro x y _ _; simp
  | succ k ih =>
    intro x y hy hk
    rw [Function.iterate_succ_apply', Function.iterate_succ_apply']
    have e : y <<< (k + 1) = (y <<< 1) <<< k := by rw [← BitVec.shiftLeft_add]; congr 1; omega
    rw [e, ih x (y <<< 1) ?_ (by omega), crcStep_shift _ _ (hy 31 (by omega))]
    intro i hi
    rw [BitVec.getLsbD_shiftLeft]
    by_cases h : i < 1
    · simp [h]
    · rw [hy (i - 1) (by omega)]; simp

theorem crcRound_eq (x : UInt32) : (crcRound x).toBitVec = crcStep x.toBitVec := by
  unfold crcRound crcStep
  have h : (x &&& 1 = 1) ↔ x.toBitVec.getLsbD 0 = true := by
    rw [← UInt32.toBitVec_inj]
    simp only [UInt32.toBitVec_and]
    constructor
    · intro h
      have := congrArg (fun b => BitVec.getLsbD b 0) h
      simpa using this
    · intro h
      apply BitVec.eq_of_getLsbD_eq
      intro i hi
      have e : (UInt32.toBitVec 1) = 1#32 := rfl
      rw [e]
      simp only [BitVec.getLsbD_and, BitVec.getLsbD_one]
      by_cases h0 : i = 0
      · subst h0; simp [h]
      · simp [h0]
  by_cases hb : x.toBitVec.getLsbD 0 = true
  · rw [if_pos (h.2 hb), if_pos hb]; rfl
  · rw [if_neg (fun e => hb (h.1 e)), if_neg hb]; rfl

theorem crcByte (c : UInt32) (v : UInt8) : (crcTable (c.toUInt8 ^^^ v) ^^^ (c >>> 8)).toBitVec = (byteBits v).foldl crcBit c.toBitVec := by
  rw [foldl_crcBit _ (by rw [byteBits_length]; omega), byteBits_length, byteBits_number]
  have h1 : (crcTable (c.toUInt8 ^^^ v)).toBitVec = crcStep^[8] ((c.toUInt8 ^^^ v).toUInt32.toBitVec) := by
    unfold crcTable
    simp only [crcRound_eq]
    rfl
  have h2 : (c >>> 8).toBitVec = c.toBitVec >>> 8 := rfl
  rw [UInt32.toBitVec_xor, h1, h2]
  rw [← iter_shift 8 _ _ (by intro i hi; rw [BitVec.getLsbD_ushiftRight]; exact BitVec.getLsbD_of_ge _ _ (by omega)) (by omega)]
  congr 1
  apply BitVec.eq_of_getLsbD_eq
  intro i hi
  simp only [BitVec.getLsbD_xor, UInt8.toBitVec_toUInt32, BitVec.getLsbD_setWidth, UInt8.toBitVec_xor, UInt32.toBitVec_toUInt8, BitVec.getLsbD_shiftLeft, BitVec.getLsbD_ushiftRight, hi, decide_true, Bool.true_and]
  have hv : (BitVec.ofNat 32 v.toNat).getLsbD i = v.toBitVec.getLsbD i := by
    rw [BitVec.getLsbD_ofNat]; simp [hi]; rfl
  rw [hv]
  by_cases h8 : i < 8
  · simp [h8]
  · have e : 8 + (i - 8) = i := by omega
    have : v.toBitVec.getLsbD i = false := BitVec.getLsbD_of_ge _ _ (by omega)
    simp [h8, e, this]

theorem crc_fold (p : List UInt8) : ∀ c : UInt32, (p.foldl (fun (crc : UInt32) (v : UInt8) => crcTable (crc.toUInt8 ^^^ v) ^^^ (crc >>> 8)) c).toBitVec = (bitsOf p).foldl crcBit c.toBitVec := by
  induction p with
  | nil => intro c; rfl
  | cons v p ih => intro c; rw [List.foldl_cons, ih, crcByte, bitsOf_cons, List.foldl_append]

/-- Go's table gives the CRC-32 of RFC 1952. -/
theorem crcUpdate_eq (p : List UInt8) : (crcUpdate 0 p).toBitVec = crc32 p := by
  unfold crcUpdate crc32
  rw [UInt32.toBitVec_not, crc_fold]
  rfl

theorem crcUpdate_append (a b : List UInt8) : crcUpdate (crcUpdate 0 a) b = crcUpdate 0 (a ++ b) := by
  unfold crcUpdate
  rw [List.foldl_append]
  simp

end Gzip
end Goir
