import Verif.Model.Collection
import Verif.Spec.Utf8
/-!
# Bytes and text
-/
namespace Goir
namespace Collection
open Spec

theorem toByteArray_append (a b : List UInt8) : (a ++ b).toByteArray = a.toByteArray ++ b.toByteArray := by
  apply ByteArray.ext; simp

theorem decodeChar_encode (c : Char) (bs : List UInt8) : ByteArray.utf8DecodeChar? (String.utf8EncodeChar c ++ bs).toByteArray 0 = some c := by
  rw [toByteArray_append]; exact ByteArray.utf8DecodeChar?_utf8EncodeChar_append

theorem decodeChar_some {bs : List UInt8} {c : Char} (h : ByteArray.utf8DecodeChar? bs.toByteArray 0 = some c) :
    ∃ rest, bs = String.utf8EncodeChar c ++ rest := by
  obtain ⟨l, e⟩ := ByteArray.exists_of_utf8DecodeChar?_eq_some h
  refine ⟨l.data.toList, ?_⟩
  have := congrArg (fun b : ByteArray => b.data.toList) e
  simpa using this

theorem encode_ne_nil (c : Char) : String.utf8EncodeChar c ≠ [] := by
  intro e
  have h1 := String.length_utf8EncodeChar c
  have h2 := c.utf8Size_pos
  rw [e] at h1
  simp at h1
  omega

theorem chars_encode (c : Char) (bs : List UInt8) : chars (String.utf8EncodeChar c ++ bs) = c :: chars bs := by
  have hd := decodeChar_encode c bs
  have hl := String.length_utf8EncodeChar c
  have hdrop : (String.utf8EncodeChar c ++ bs).drop c.utf8Size = bs := by rw [← hl, List.drop_left]
  cases e : String.utf8EncodeChar c ++ bs with
  | nil => exact absurd (List.append_eq_nil_iff.1 e).1 (encode_ne_nil c)
  | cons b l =>
    rw [e] at hd hdrop
    rw [chars]
    simp only [hd, hdrop]

theorem chars_bad {b : UInt8} {bs : List UInt8} (hb : ∀ c rest, b :: bs ≠ String.utf8EncodeChar c ++ rest) : chars (b :: bs) = '\uFFFD' :: chars bs := by
  rw [chars]
  cases h : ByteArray.utf8DecodeChar? (b :: bs).toByteArray 0 with
  | none => rfl
  | some c => obtain ⟨rest, e⟩ := decodeChar_some h; exact absurd e (hb c rest)

/-- the model decodes as the specification says. -/
theorem chars_of_decodes {bs : List UInt8} {cs : List Char} (h : Decodes bs cs) : chars bs = cs := by
  induction h with
  | nil => rw [chars]
  | char c _ ih => rw [chars_encode, ih]
  | bad b hb _ ih => rw [chars_bad hb, ih]

theorem decodes_chars (bs : List UInt8) : Decodes bs (chars bs) := by
  generalize hn : bs.length = n
  induction n using Nat.strongRecOn generalizing bs with
  | _ n ih =>
    cases bs with
    | nil => rw [chars]; exact .nil
    | cons b bs =>
      by_cases hc : ∃ c rest, b :: bs = String.utf8EncodeChar c ++ rest
      · obtain ⟨c, rest, e⟩ := hc
        rw [e, chars_encode]
        refine .char c (ih rest.length ?_ rest rfl)
        have := congrArg List.length e
        have h2 := List.length_pos_iff.2 (encode_ne_nil c)
        rw [List.length_append, hn] at this
        omega
      · have hb : ∀ c rest, b :: bs ≠ String.utf8EncodeChar c ++ rest := fun c rest e => hc ⟨c, rest, e⟩
        rw [chars_bad hb]
        exact .bad b hb (ih bs.length (by simp at hn; omega) bs rfl)

/-- every sequence of bytes means exactly one text. -/
theorem decodes_iff {bs : List UInt8} {cs : List Char} : Decodes bs cs ↔ chars bs = cs :=
  ⟨chars_of_decodes, fun h => h ▸ decodes_chars bs⟩

theorem decodes_utf8 (cs : List Char) : Decodes (utf8 cs) cs := by
  induction cs with
  | nil => exact .nil
  | cons c cs ih => unfold utf8; rw [List.flatMap_cons]; exact .char c ih

theorem chars_utf8 (cs : List Char) : chars (utf8 cs) = cs := chars_of_decodes (decodes_utf8 cs)

/-- a byte that is never part of UTF-8. -/
example : Decodes [0x61, 0xff, 0x62] ['a', '\uFFFD', 'b'] := by
  refine .char 'a' (bs := [0xff, 0x62]) (.bad 0xff (fun c rest e => ?_) (.char 'b' .nil))
  have h := decodeChar_encode c rest
  rw [← e, show ByteArray.utf8DecodeChar? [0xff, 0x62].toByteArray 0 = none from by decide] at h
  cases h

end Collection
end Goir
