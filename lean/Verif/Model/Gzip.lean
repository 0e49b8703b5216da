/-!
# compress/gzip as used by CompressData and DecompressData (/repo/file/File.go:23-56)

`DecompressData` is `gzip.NewReader` and `io.ReadAll` of Go's standard library: the gzip reader (compress/gzip/gunzip.go), the DEFLATE decoder
(compress/flate/inflate.go) and the checksum (hash/crc32).  They are modelled from their documented behaviour and source as known (the sandbox has neither), not from files in /repo.
An error of theirs makes DecompressData panic: `none`.
Simplifications: the bit buffer `f.b`, `f.nb` and the reader behind it are one list of bits (the buffer never holds a whole byte that it does not need, so
the bits that are left of the current byte are as many as the length of the list modulo 8); the lookup table of a Huffman decoder is the list of codes it is made
from, read one bit at a time; the window of 32 KiB is the whole output (no distance is larger).
`CompressData` is not modelled as a function: which of the many encodings the writer chooses does not matter to a reader.  `Verif.Spec.Gzip` says what an encoding is.
-/
namespace Goir
namespace Gzip

/-- the bits of a byte as they come into `f.b`. (compress/gzip, compress/flate and hash/crc32, called at /repo/file/File.go:23-56) -/
def byteBits (b : UInt8) : List Bool :=
  [b &&& 1 != 0, (b >>> 1) &&& 1 != 0, (b >>> 2) &&& 1 != 0, (b >>> 3) &&& 1 != 0, (b >>> 4) &&& 1 != 0, (b >>> 5) &&& 1 != 0, (b >>> 6) &&& 1 != 0, (b >>> 7) &&& 1 != 0]

/-- all bits that are still to be read. (compress/gzip, compress/flate and hash/crc32, called at /repo/file/File.go:23-56) -/
def bits (bs : List UInt8) : List Bool := bs.flatMap byteBits

/-- `f.b & (1<<n - 1)`, for a list of `n` bits. (compress/gzip, compress/flate and hash/crc32, called at /repo/file/File.go:23-56) -/
def value : List Bool → Nat
  | [] => 0
  | b :: r => b.toNat + 2 * value r

/-- `for f.nb < n { f.moreBits() }; v := f.b & (1<<n - 1); f.b >>= n`; an unexpected end is an error. (compress/gzip, compress/flate and hash/crc32, called at /repo/file/File.go:23-56) -/
def readBits (n : Nat) (bs : List Bool) : Option (Nat × List Bool) := if n ≤ bs.length then some (value (bs.take n), bs.drop n) else none

/-! ### huffmanDecoder -/

/-- `nextcode[n]` of huffmanDecoder.init; `count[m]` is `ls.count m` for `m > 0`. (compress/gzip, compress/flate and hash/crc32, called at /repo/file/File.go:23-56) -/
def nextcode (ls : List Nat) : Nat → Nat
  | 0 => 0
  | n + 1 => 2 * (nextcode ls n + if n = 0 then 0 else ls.count n)

/-- `max` of huffmanDecoder.init. (compress/gzip, compress/flate and hash/crc32, called at /repo/file/File.go:23-56) -/
def maxLen (ls : List Nat) : Nat := ls.foldl Nat.max 0

/-- the result of huffmanDecoder.init: no code at all, a complete code, or a single code of one bit. (compress/gzip, compress/flate and hash/crc32, called at /repo/file/File.go:23-56) -/
def initOk (ls : List Nat) : Bool :=
  let max := maxLen ls
  let code := nextcode ls max + ls.count max
  max == 0 || code == 2 ^ max || (code == 1 && max == 1)

/-- the loop over the lengths in huffmanDecoder.init that gives every symbol its code: (length, code, symbol). (compress/gzip, compress/flate and hash/crc32, called at /repo/file/File.go:23-56) -/
def assign (next : Nat → Nat) (i : Nat) : List Nat → List (Nat × Nat × Nat)
  | [] => []
  | n :: ls => if n = 0 then assign next (i + 1) ls else (n, next n, i) :: assign (fun m => if m = n then next n + 1 else next m) (i + 1) ls

/-- what a huffmanDecoder is after init. (compress/gzip, compress/flate and hash/crc32, called at /repo/file/File.go:23-56) -/
def table (ls : List Nat) : List (Nat × Nat × Nat) := assign (nextcode ls) 0 ls

/-- `f.huffSym(h)`: read bits until they are a code. (compress/gzip, compress/flate and hash/crc32, called at /repo/file/File.go:23-56) -/
def huffSym (tab : List (Nat × Nat × Nat)) (n v : Nat) : List Bool → Option (Nat × List Bool)
  | [] => none
  | b :: r =>
    match tab.find? (fun e => e.1 = n + 1 ∧ e.2.1 = 2 * v + b.toNat) with
    | some e => some (e.2.2, r)
    | none => huffSym tab (n + 1) (2 * v + b.toNat) r

/-! ### decompressor -/

/-- `f.dict.writeCopy(dist, length)`. (compress/gzip, compress/flate and hash/crc32, called at /repo/file/File.go:23-56) -/
def copy (d : Nat) : Nat → List UInt8 → List UInt8
  | 0, hist => hist
  | n + 1, hist => copy d n (hist ++ [hist.getD (hist.length - d) 0])

/-- length and number of extra bits for a symbol above 256 in huffmanBlock. (compress/gzip, compress/flate and hash/crc32, called at /repo/file/File.go:23-56) -/
def lengthOf (v : Nat) : Option (Nat × Nat) :=
  if v < 265 then some (v - (257 - 3), 0)
  else if v < 269 then some (v * 2 - (265 * 2 - 11), 1)
  else if v < 273 then some (v * 4 - (269 * 4 - 19), 2)
  else if v < 277 then some (v * 8 - (273 * 8 - 35), 3)
  else if v < 281 then some (v * 16 - (277 * 16 - 67), 4)
  else if v < 285 then some (v * 32 - (281 * 32 - 131), 5)
  else if v < 286 then some (258, 0)
  else none

/-- the distance for a symbol of the distance code in huffmanBlock. (compress/gzip, compress/flate and hash/crc32, called at /repo/file/File.go:23-56) -/
def readDist (dist : Nat) (bs : List Bool) : Option (Nat × List Bool) :=
  if dist < 4 then some (dist + 1, bs)
  else if dist < 30 then do
    let nb := (dist - 2) / 2
    let (e, bs) ← readBits nb bs
    return (2 ^ (nb + 1) + 1 + ((dist % 2) * 2 ^ nb + e), bs)
  else none

/-- `f.huffmanBlock()`: everything up to the end of the block. `fuel` only serves the recursion: every symbol takes a bit. (compress/gzip, compress/flate and hash/crc32, called at /repo/file/File.go:23-56) -/
def huffmanBlock (hl hd : List (Nat × Nat × Nat)) : Nat → List UInt8 → List Bool → Option (List UInt8 × List Bool)
  | 0, _, _ => none
  | fuel + 1, hist, bs => do
    let (v, bs) ← huffSym hl 0 0 bs
    if v < 256 then huffmanBlock hl hd fuel (hist ++ [UInt8.ofNat v]) bs
    else if v = 256 then return (hist, bs)
    else do
      let (length, n) ← lengthOf v
      let (e, bs) ← readBits n bs
      let (s, bs) ← huffSym hd 0 0 bs
      let (dist, bs) ← readDist s bs
      if dist > hist.length then none
      else huffmanBlock hl hd fuel (copy dist (length + e) hist) bs

/-- `fixedHuffmanDecoderInit`. (compress/gzip, compress/flate and hash/crc32, called at /repo/file/File.go:23-56) -/
def fixedLit : List Nat := List.replicate 144 8 ++ List.replicate 112 9 ++ List.replicate 24 7 ++ List.replicate 8 8

/-- five bits, the first the most significant, for a distance in a block with the fixed code (`f.hd == nil`). (compress/gzip, compress/flate and hash/crc32, called at /repo/file/File.go:23-56) -/
def fixedDist : List Nat := List.replicate 32 5

/-- `codeOrder`. (compress/gzip, compress/flate and hash/crc32, called at /repo/file/File.go:23-56) -/
def codeOrder : List Nat := [16, 17, 18, 0, 8, 7, 9, 6, 10, 5, 11, 4, 12, 3, 13, 2, 14, 1, 15]

/-- the loop of readHuffman that reads `f.codebits`: the lengths in the order of codeOrder. (compress/gzip, compress/flate and hash/crc32, called at /repo/file/File.go:23-56) -/
def readClens : Nat → List Bool → Option (List Nat × List Bool)
  | 0, bs => some ([], bs)
  | n + 1, bs => do
    let (v, bs) ← readBits 3 bs
    let (vs, bs) ← readClens n bs
    return (v :: vs, bs)

/-- `f.codebits` by symbol: what was read for it, 0 if nothing was. (compress/gzip, compress/flate and hash/crc32, called at /repo/file/File.go:23-56) -/
def codebits (vs : List Nat) : List Nat := (List.range 19).map fun s => vs.getD (codeOrder.idxOf s) 0

/-- the `switch x` in readHuffman: `rep`, `nb` and `b`. (compress/gzip, compress/flate and hash/crc32, called at /repo/file/File.go:23-56) -/
def repeatOf (acc : List Nat) (x : Nat) : Option (Nat × Nat × Nat) :=
  if x = 16 then acc.getLast?.map fun b => (3, 2, b) else if x = 17 then some (3, 3, 0) else if x = 18 then some (11, 7, 0) else none

/-- the loop of readHuffman that reads `n` lengths with the code of the code lengths. (compress/gzip, compress/flate and hash/crc32, called at /repo/file/File.go:23-56) -/
def readLens (h : List (Nat × Nat × Nat)) (n : Nat) : Nat → List Nat → List Bool → Option (List Nat × List Bool)
  | 0, _, _ => none
  | fuel + 1, acc, bs =>
    if n ≤ acc.length then some (acc, bs) else do
      let (x, bs) ← huffSym h 0 0 bs
      if x < 16 then readLens h n fuel (acc ++ [x]) bs
      else do
        let (rep, nb, b) ← repeatOf acc x
        let (e, bs) ← readBits nb bs
        if acc.length + (rep + e) > n then none
        else readLens h n fuel (acc ++ List.replicate (rep + e) b) bs

/-- `f.readHuffman()`: the lengths of the two codes. (compress/gzip, compress/flate and hash/crc32, called at /repo/file/File.go:23-56) -/
def readHuffman (bs : List Bool) : Option ((List Nat × List Nat) × List Bool) := do
  let (hlit, bs) ← readBits 5 bs
  let nlit := hlit + 257
  if nlit > 286 then none else
  let (hdist, bs) ← readBits 5 bs
  let ndist := hdist + 1
  if ndist > 30 then none else
  let (hclen, bs) ← readBits 4 bs
  let (vs, bs) ← readClens (hclen + 4) bs
  if !initOk (codebits vs) then none else
  let (lens, bs) ← readLens (table (codebits vs)) (nlit + ndist) (bs.length + 1) [] bs
  if !initOk (lens.take nlit) || !initOk (lens.drop nlit) then none else
  return ((lens.take nlit, lens.drop nlit), bs)

/-- the bytes of a stored block. (compress/gzip, compress/flate and hash/crc32, called at /repo/file/File.go:23-56) -/
def readBytes : Nat → List Bool → Option (List UInt8 × List Bool)
  | 0, bs => some ([], bs)
  | n + 1, bs => do
    let (v, bs) ← readBits 8 bs
    let (vs, bs) ← readBytes n bs
    return (UInt8.ofNat v :: vs, bs)

/-- `f.dataBlock()` and `f.copyData()`. (compress/gzip, compress/flate and hash/crc32, called at /repo/file/File.go:23-56) -/
def dataBlock (hist : List UInt8) (bs : List Bool) : Option (List UInt8 × List Bool) := do
  let bs := bs.drop (bs.length % 8)
  let (n, bs) ← readBits 16 bs
  let (nn, bs) ← readBits 16 bs
  if nn ≠ 65535 - n then none else
  let (data, bs) ← readBytes n bs
  return (hist ++ data, bs)

/-- the part of `f.nextBlock()` after the three bits that say what follows. (compress/gzip, compress/flate and hash/crc32, called at /repo/file/File.go:23-56) -/
def blockOf (typ : Nat) (hist : List UInt8) (bs : List Bool) : Option (List UInt8 × List Bool) :=
  if typ = 0 then dataBlock hist bs
  else if typ = 1 then huffmanBlock (table fixedLit) (table fixedDist) (bs.length + 1) hist bs
  else if typ = 2 then do
    let (ls, bs) ← readHuffman bs
    huffmanBlock (table ls.1) (table ls.2) (bs.length + 1) hist bs
  else none

/-- `f.nextBlock()` until the final block has been read. (compress/gzip, compress/flate and hash/crc32, called at /repo/file/File.go:23-56) -/
def inflate : Nat → List UInt8 → List Bool → Option (List UInt8 × List Bool)
  | 0, _, _ => none
  | fuel + 1, hist, bs => do
    let (final, bs) ← readBits 1 bs
    let (typ, bs) ← readBits 2 bs
    let (hist, bs) ← blockOf typ hist bs
    if final = 1 then return (hist, bs) else inflate fuel hist bs

/-! ### hash/crc32 -/

/-- one round of the inner loop of `simpleMakeTable(IEEE)`. (compress/gzip, compress/flate and hash/crc32, called at /repo/file/File.go:23-56) -/
def crcRound (crc : UInt32) : UInt32 := if crc &&& 1 = 1 then (crc >>> 1) ^^^ 0xedb88320 else crc >>> 1

/-- an entry of the table. (compress/gzip, compress/flate and hash/crc32, called at /repo/file/File.go:23-56) -/
def crcTable (i : UInt8) : UInt32 := crcRound (crcRound (crcRound (crcRound (crcRound (crcRound (crcRound (crcRound i.toUInt32)))))))

/-- `crc32.Update(crc, crc32.IEEETable, p)` as `simpleUpdate` computes it (the others compute the same). (compress/gzip, compress/flate and hash/crc32, called at /repo/file/File.go:23-56) -/
def crcUpdate (crc : UInt32) (p : List UInt8) : UInt32 :=
  ~~~ p.foldl (fun crc v => crcTable (crc.toUInt8 ^^^ v) ^^^ (crc >>> 8)) (~~~ crc)

/-! ### gzip.Reader -/

/-- `io.ReadFull(z.r, z.buf[:n])`. (compress/gzip, compress/flate and hash/crc32, called at /repo/file/File.go:23-56) -/
def readFull (n : Nat) (bs : List UInt8) : Option (List UInt8 × List UInt8) := if n ≤ bs.length then some (bs.take n, bs.drop n) else none

/-- little endian. (compress/gzip, compress/flate and hash/crc32, called at /repo/file/File.go:23-56) -/
def le (bs : List UInt8) : Nat := bs.foldr (fun b n => b.toNat + 256 * n) 0

/-- `z.readString()`: the bytes up to and with the next 0, at most 512. (compress/gzip, compress/flate and hash/crc32, called at /repo/file/File.go:23-56) -/
def readString : Nat → List UInt8 → Option (List UInt8 × List UInt8)
  | 0, _ => none
  | _ + 1, [] => none
  | n + 1, b :: bs => if b = 0 then some ([b], bs) else do
    let (s, bs) ← readString n bs
    return (b :: s, bs)

/-- the part of readHeader for `flagExtra`: the digest and what is left. (compress/gzip, compress/flate and hash/crc32, called at /repo/file/File.go:23-56) -/
def readExtra (flg : UInt8) (digest : UInt32) (bs : List UInt8) : Option (UInt32 × List UInt8) :=
  if flg &&& 4 ≠ 0 then do
    let (n, bs) ← readFull 2 bs
    let (data, bs) ← readFull (le n) bs
    return (crcUpdate (crcUpdate digest n) data, bs)
  else some (digest, bs)

/-- the parts of readHeader for `flagName` and `flagComment`. (compress/gzip, compress/flate and hash/crc32, called at /repo/file/File.go:23-56) -/
def readText (flg bit : UInt8) (digest : UInt32) (bs : List UInt8) : Option (UInt32 × List UInt8) :=
  if flg &&& bit ≠ 0 then do
    let (s, bs) ← readString 512 bs
    return (crcUpdate digest s, bs)
  else some (digest, bs)

/-- the part of readHeader for `flagHdrCrc`. (compress/gzip, compress/flate and hash/crc32, called at /repo/file/File.go:23-56) -/
def readHdrCrc (flg : UInt8) (digest : UInt32) (bs : List UInt8) : Option (List UInt8) :=
  if flg &&& 2 ≠ 0 then do
    let (c, bs) ← readFull 2 bs
    if le c ≠ digest.toNat % 65536 then none else some bs
  else some bs

/-- `z.readHeader()`: what is left after the header. (compress/gzip, compress/flate and hash/crc32, called at /repo/file/File.go:23-56) -/
def readHeader (bs : List UInt8) : Option (List UInt8) := do
  let (buf, bs) ← readFull 10 bs
  if buf.getD 0 0 ≠ 0x1f ∨ buf.getD 1 0 ≠ 0x8b ∨ buf.getD 2 0 ≠ 8 then none
  else
    let (digest, bs) ← readExtra (buf.getD 3 0) (crcUpdate 0 buf) bs
    let (digest, bs) ← readText (buf.getD 3 0) 8 digest bs
    let (digest, bs) ← readText (buf.getD 3 0) 16 digest bs
    readHdrCrc (buf.getD 3 0) digest bs

/-- one member: its data and what is left (`z.Read` up to the check of the sums). (compress/gzip, compress/flate and hash/crc32, called at /repo/file/File.go:23-56) -/
def readMember (bs : List UInt8) : Option (List UInt8 × List UInt8) := do
  let bs ← readHeader bs
  let (data, r) ← inflate ((bits bs).length + 1) [] (bits bs)
  let bs := bs.drop (bs.length - r.length / 8)
  let (buf, bs) ← readFull 8 bs
  if le (buf.take 4) ≠ (crcUpdate 0 data).toNat ∨ le (buf.drop 4) ≠ data.length % 2 ^ 32 then none else
  return (data, bs)

/-- `io.ReadAll`: members until nothing is left. (compress/gzip, compress/flate and hash/crc32, called at /repo/file/File.go:23-56) -/
def readMembers : Nat → List UInt8 → Option (List UInt8)
  | 0, _ => none
  | fuel + 1, bs => do
    let (data, bs) ← readMember bs
    if bs.isEmpty then return data
    else do
      let more ← readMembers fuel bs
      return data ++ more

/-- `DecompressData(buf)` (/repo/file/File.go:37-56); `none` is a panic. -/
def decompressData (buf : List UInt8) : Option (List UInt8) := readMembers (buf.length + 1) buf

end Gzip
end Goir
