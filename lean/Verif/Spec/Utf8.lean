/-!
# What a sequence of bytes means as text

The characters of valid UTF-8; where no character begins, one byte is replaced with U+FFFD (Go's unicode/utf8, and encoding/json, do this).
-/
namespace Goir
namespace Spec

/-- `Decodes bs cs`: the bytes `bs` mean the text `cs`. -/
inductive Decodes : List UInt8 → List Char → Prop
  /-- the end. -/
  | nil : Decodes [] []
  /-- the encoding of a character. -/
  | char (c : Char) {bs : List UInt8} {cs : List Char} (h : Decodes bs cs) : Decodes (String.utf8EncodeChar c ++ bs) (c :: cs)
  /-- a byte at which no encoding of a character begins. -/
  | bad (b : UInt8) {bs : List UInt8} {cs : List Char} (hb : ∀ c rest, b :: bs ≠ String.utf8EncodeChar c ++ rest) (h : Decodes bs cs) :
      Decodes (b :: bs) ('\uFFFD' :: cs)

end Spec
end Goir
