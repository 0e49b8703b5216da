/-!
# What a gzip file is: RFC 1952 and RFC 1951, as a relation between data and bytes

`File data bytes`: `bytes` is a gzip file that contains `data`.  Nothing here reads or decides: it says how a file is put together.
Two limits of Go's reader are part of it: the name and the comment in a header have at most 511 bytes, and a Huffman code is complete, or has a single word of one bit, or has no words.
-/
namespace Goir.Spec.Gz

/-- the bits of a sequence of bytes: those of each byte, the least significant first (RFC 1951, 3.1.1). -/
def bitsOf (bs : List UInt8) : List Bool := bs.flatMap fun b => (List.range 8).map b.toNat.testBit

/-- the number that a sequence of bits is, the least significant first. -/
def number : List Bool → Nat
  | [] => 0
  | b :: r => (if b then 1 else 0) + 2 * number r

/-! ### Huffman codes, from the lengths of their words (RFC 1951, 3.2.2); a length of 0: no word -/

/-- how much of the space of codes (in units of 2^-15) the words take that come before the word of `s`: the shorter ones, and those of the same length for smaller symbols. -/
def before (ls : List Nat) (s : Nat) : Nat :=
  (ls.zipIdx.map fun e => if e.1 ≠ 0 ∧ (e.1 < ls.getD s 0 ∨ (e.1 = ls.getD s 0 ∧ e.2 < s)) then 2 ^ (15 - e.1) else 0).sum

/-- `w` is the word of symbol `s`: it begins where the words before it end. The first bit of a word is the most significant one. -/
def Word (ls : List Nat) (s : Nat) (w : List Bool) : Prop :=
  ls[s]? = some w.length ∧ w ≠ [] ∧ number w.reverse * 2 ^ (15 - w.length) = before ls s

/-- the words take all of the space; or there is one word, of one bit; or there is none. -/
def Usable (ls : List Nat) : Prop :=
  (ls.map fun n => if n = 0 then 0 else 2 ^ (15 - n)).sum = 2 ^ 15 ∨ (ls.count 1 = 1 ∧ ∀ n ∈ ls, n ≤ 1) ∨ ∀ n ∈ ls, n = 0

/-! ### the contents of a block (RFC 1951, 3.2.5) -/

/-- smallest length and number of extra bits for the symbols 257, 258, … -/
def lengths : List (Nat × Nat) :=
  [(3, 0), (4, 0), (5, 0), (6, 0), (7, 0), (8, 0), (9, 0), (10, 0), (11, 1), (13, 1), (15, 1), (17, 1), (19, 2), (23, 2), (27, 2), (31, 2), (35, 3), (43, 3), (51, 3), (59, 3),
   (67, 4), (83, 4), (99, 4), (115, 4), (131, 5), (163, 5), (195, 5), (227, 5), (258, 0)]

/-- smallest distance and number of extra bits for the symbols of the distance code. -/
def distances : List (Nat × Nat) :=
  [(1, 0), (2, 0), (3, 0), (4, 0), (5, 1), (7, 1), (9, 2), (13, 2), (17, 3), (25, 3), (33, 4), (49, 4), (65, 5), (97, 5), (129, 6), (193, 6), (257, 7), (385, 7),
   (513, 8), (769, 8), (1025, 9), (1537, 9), (2049, 10), (3073, 10), (4097, 11), (6145, 11), (8193, 12), (12289, 12), (16385, 13), (24577, 13)]

/-- after `h`, the `n` bytes `c` repeat what is `d` bytes before them (they may overlap). -/
def Repeats (h : List UInt8) (d n : Nat) (c : List UInt8) : Prop :=
  d ≤ h.length ∧ c.length = n ∧ ∀ i, i < n → (h ++ c)[h.length + i]? = (h ++ c)[h.length + i - d]?

/-- with the codes `ll` and `dl` the bits extend the data from `h` to `r`. -/
inductive Symbols (ll dl : List Nat) : List UInt8 → List UInt8 → List Bool → Prop
  | stop {h : List UInt8} {w : List Bool} : Word ll 256 w → Symbols ll dl h h w
  | lit {h r : List UInt8} {b : UInt8} {w bs : List Bool} : Word ll b.toNat w → Symbols ll dl (h ++ [b]) r bs → Symbols ll dl h r (w ++ bs)
  | copy {h r c : List UInt8} {i j len le dist de : Nat} {w x v y bs : List Bool} : Word ll (257 + i) w → lengths[i]? = some (len, le) → x.length = le →
      Word dl j v → distances[j]? = some (dist, de) → y.length = de → Repeats h (dist + number y) (len + number x) c → Symbols ll dl (h ++ c) r bs →
      Symbols ll dl h r (w ++ x ++ v ++ y ++ bs)

/-! ### the header of a block with its own codes (RFC 1951, 3.2.7) -/

/-- the order in which the lengths of the words for lengths are written. -/
def order : List Nat := [16, 17, 18, 0, 8, 7, 9, 6, 10, 5, 11, 4, 12, 3, 13, 2, 14, 1, 15]

/-- with the code `cl` the bits extend the list of lengths from `acc` to `r`. -/
inductive Lengths (cl : List Nat) : List Nat → List Nat → List Bool → Prop
  | done {acc : List Nat} : Lengths cl acc acc []
  | one {acc r : List Nat} {n : Nat} {w bs : List Bool} : n < 16 → Word cl n w → Lengths cl (acc ++ [n]) r bs → Lengths cl acc r (w ++ bs)
  | again {acc r : List Nat} {n : Nat} {w x bs : List Bool} : Word cl 16 w → x.length = 2 → Lengths cl (acc ++ [n] ++ List.replicate (3 + number x) n) r bs → Lengths cl (acc ++ [n]) r (w ++ x ++ bs)
  | zeros {acc r : List Nat} {w x bs : List Bool} : Word cl 17 w → x.length = 3 → Lengths cl (acc ++ List.replicate (3 + number x) 0) r bs → Lengths cl acc r (w ++ x ++ bs)
  | many {acc r : List Nat} {w x bs : List Bool} : Word cl 18 w → x.length = 7 → Lengths cl (acc ++ List.replicate (11 + number x) 0) r bs → Lengths cl acc r (w ++ x ++ bs)

/-- the header of a block that declares the codes `ll` and `dl`. -/
def Codes (ll dl : List Nat) (bs : List Bool) : Prop :=
  ∃ (a b c : List Bool) (words : List (List Bool)) (cl : List Nat) (body : List Bool),
    a.length = 5 ∧ ll.length = number a + 257 ∧ ll.length ≤ 286 ∧ b.length = 5 ∧ dl.length = number b + 1 ∧ dl.length ≤ 30 ∧
    c.length = 4 ∧ words.length = number c + 4 ∧ (∀ w ∈ words, w.length = 3) ∧
    cl.length = 19 ∧ (∀ k, (hk : k < order.length) → cl.getD order[k] 0 = ((words[k]?).map number).getD 0) ∧ Usable cl ∧
    Lengths cl [] (ll ++ dl) body ∧ Usable ll ∧ Usable dl ∧
    bs = a ++ b ++ c ++ words.flatten ++ body

/-- the fixed code (RFC 1951, 3.2.6). -/
def fixed : List Nat := (List.range 288).map fun s => if s < 144 then 8 else if s < 256 then 9 else if s < 280 then 7 else 8

/-! ### blocks -/

/-- one block that begins at bit `pos` (of the compressed data) and extends the data from `h` to `r`. -/
inductive Block (final : Bool) (pos : Nat) : List UInt8 → List UInt8 → List Bool → Prop
  | stored {h d : List UInt8} {pad n m : List Bool} : pad.length < 8 → (pos + 3 + pad.length) % 8 = 0 → n.length = 16 → number n = d.length → m = n.map not →
      Block final pos h (h ++ d) ([final, false, false] ++ pad ++ n ++ m ++ bitsOf d)
  | fixed {h r : List UInt8} {bs : List Bool} : Symbols fixed (List.replicate 32 5) h r bs → Block final pos h r ([final, true, false] ++ bs)
  | dynamic {h r : List UInt8} {ll dl : List Nat} {hs bs : List Bool} : Codes ll dl hs → Symbols ll dl h r bs → Block final pos h r ([final, false, true] ++ hs ++ bs)

/-- a sequence of blocks of which the last, and only the last, is marked as final. -/
inductive Blocks : Nat → List UInt8 → List UInt8 → List Bool → Prop
  | last {pos : Nat} {h r : List UInt8} {bs : List Bool} : Block true pos h r bs → Blocks pos h r bs
  | cons {pos : Nat} {h m r : List UInt8} {bs bs' : List Bool} : Block false pos h m bs → Blocks (pos + bs.length) m r bs' → Blocks pos h r (bs ++ bs')

/-- `bytes` are compressed data for `data`. -/
def Deflated (data bytes : List UInt8) : Prop := ∃ bs pad, Blocks 0 [] data bs ∧ pad.length < 8 ∧ bitsOf bytes = bs ++ pad

/-! ### the checksum (RFC 1952, 8) -/

/-- one bit of the message enters the register. -/
def crcBit (reg : BitVec 32) (b : Bool) : BitVec 32 := if (reg.getLsbD 0 ^^ b) then (reg >>> 1) ^^^ 0xedb88320#32 else reg >>> 1

/-- the CRC-32 of a message. -/
def crc32 (bs : List UInt8) : BitVec 32 := ~~~ ((bitsOf bs).foldl crcBit (BitVec.allOnes 32))

/-- `n` bytes, the least significant first. -/
def littleEndian : Nat → Nat → List UInt8
  | 0, _ => []
  | n + 1, v => UInt8.ofNat v :: littleEndian n (v / 256)

/-! ### files -/

/-- the header of a member (RFC 1952, 2.3). -/
def Header (hd : List UInt8) : Prop :=
  ∃ (flg xfl os : UInt8) (mtime extra name comment : List UInt8), mtime.length = 4 ∧ extra.length < 65536 ∧ 0 ∉ name ∧ name.length < 512 ∧ 0 ∉ comment ∧ comment.length < 512 ∧
    ∃ front, front = [0x1f, 0x8b, 8, flg] ++ mtime ++ [xfl, os] ++ (if flg.toNat.testBit 2 then littleEndian 2 extra.length ++ extra else []) ++
        (if flg.toNat.testBit 3 then name ++ [0] else []) ++ (if flg.toNat.testBit 4 then comment ++ [0] else []) ∧
      hd = front ++ (if flg.toNat.testBit 1 then littleEndian 2 (crc32 front).toNat else [])

/-- a member: a header, the compressed data, the checksum and the length. -/
def Member (data bytes : List UInt8) : Prop :=
  ∃ hd body, Header hd ∧ Deflated data body ∧ bytes = hd ++ body ++ littleEndian 4 (crc32 data).toNat ++ littleEndian 4 data.length

/-- a file: one or more members. -/
inductive File : List UInt8 → List UInt8 → Prop
  | one {data bytes : List UInt8} : Member data bytes → File data bytes
  | more {data bytes data' bytes' : List UInt8} : Member data bytes → File data' bytes' → File (data ++ data') (bytes ++ bytes')

/-- what `gzip.Writer` writes with the default settings: one member with a header that says nothing. -/
def Written (data bytes : List UInt8) : Prop :=
  ∃ body, Deflated data body ∧ bytes = [0x1f, 0x8b, 8, 0, 0, 0, 0, 0, 0, 0xff] ++ body ++ littleEndian 4 (crc32 data).toNat ++ littleEndian 4 data.length

end Goir.Spec.Gz
