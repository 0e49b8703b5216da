import Verif.Props.Opening
import Verif.Props.DiskBytesCases
/-!
# C128: cases

A folder that no store has written: a copy of the directory of field `subject`, renamed to `title`, with a fragment that somebody put there.
-/
namespace Goir
open Spec Spec.Opening

namespace Opening
open BDisk

/-- the bytes of an index file. -/
def indexBytes (m : GoMap String (GoMap String Bool)) : Bytes := storedFile ((FBB.serializeIndex m).getD [])

/-- the bytes of a metrics file. -/
def metricsBytes (f : String) (size length : Int) : Bytes := storedFile ((FBB.serializeFieldSizeLength f size length).getD [])

/-- the folder; `m` is the content of the metrics file. -/
def copied (m : Bytes) : FS :=
  [(["data"], .dir), (["data", "docs"], .dir), (["data", "title"], .dir), (["data", "title", "temp"], .dir), (["data", "title", "temp", "mine"], .file (indexBytes [("y", [("b", true)])])),
   (["data", "title", "index"], .file (indexBytes [("x", [("a", true)])])), (["data", "title", "metrics"], .file m), (["data", "notes.txt"], .file [1, 2, 3])]

theorem copied_tree (m : Bytes) : Tree ["data"] (copied m) := by
  refine ⟨by simp [copied, GoMap.WF, GoMap.keys], fun p n hp => ?_, fun i hi => ?_⟩
  · have := GoMap.mem_of_get? hp
    simp only [copied, List.mem_cons, Prod.mk.injEq, List.not_mem_nil, or_false] at this
    intro x hx
    rcases this with h | h | h | h | h | h | h | h <;> (obtain ⟨rfl, -⟩ := h; simp only [List.mem_cons, List.not_mem_nil, or_false] at hx) <;> aesop (add safe (by decide))
  · obtain rfl : i = 0 := by simp at hi; omega
    rfl

/-- a process that opens the folder. -/
def start (m : Bytes) : BDisk := { fs := copied m }

set_option maxRecDepth 100000 in
/-- the hypotheses of `c128_documents`, `c128_numbers` and `c128_folder_after` are met: the store opens, and both the index and the fragment count … -/
theorem copied_opens : ∃ k s, (start (metricsBytes "title" 7 9)).kill.run packer ["data"] (opening k 5 []) = some s ∧ s.d.up = true ∧ (s.d.getDocuments "title" "x").1 = [("a", true)] ∧ (s.d.getDocuments "title" "y").1 = [("b", true)] ∧
    s.d.getFieldSize "title" = 7 ∧ s.d.getFieldLength "title" = 9 := by
  obtain ⟨s, h1, h2⟩ : ∃ s, (start (metricsBytes "title" 7 9)).kill.run packer ["data"] (opening 163 5 []) = some s ∧
    decide (s.d.up = true ∧ (s.d.getDocuments "title" "x").1 = [("a", true)] ∧ (s.d.getDocuments "title" "y").1 = [("b", true)] ∧ s.d.getFieldSize "title" = 7 ∧ s.d.getFieldLength "title" = 9) = true := exists_of (by decide +kernel)
  exact ⟨_, s, h1, of_decide_eq_true h2⟩

set_option maxRecDepth 100000 in
/-- … but sizes go by the name that is written inside the metrics file.  A field directory that was copied or renamed keeps its documents and loses its size and its length: they are those of the old name. -/
theorem renamed_loses_sizes : ∃ k s, (start (metricsBytes "subject" 7 9)).kill.run packer ["data"] (opening k 5 []) = some s ∧ s.d.up = true ∧ (s.d.getDocuments "title" "x").1 = [("a", true)] ∧ s.d.getFieldSize "title" = 0 ∧ s.d.getFieldSize "subject" = 7 := by
  obtain ⟨s, h1, h2⟩ : ∃ s, (start (metricsBytes "subject" 7 9)).kill.run packer ["data"] (opening 163 5 []) = some s ∧
    decide (s.d.up = true ∧ (s.d.getDocuments "title" "x").1 = [("a", true)] ∧ s.d.getFieldSize "title" = 0 ∧ s.d.getFieldSize "subject" = 7) = true := exists_of (by decide +kernel)
  exact ⟨_, s, h1, of_decide_eq_true h2⟩

/-- a metrics file of three bytes is damaged: the hypotheses of `c128_damage_is_noticed` are met. -/
theorem damaged_copy : Damaged (copied [1, 2, 3]) ["data"] ["data", "title", "metrics"] :=
  .metrics (f := "title") (buf := [1, 2, 3]) ⟨rfl, by decide⟩ rfl fun e he => by
    have := decodeMetrics_iff.2 he
    revert this
    rw [show decodeMetrics [1, 2, 3] = none by decide +kernel]
    simp

/-- … so no process ever offers a store over this folder, whatever it does. -/
example {s : BDisk} {as : List CDisk.Act} (h : (start [1, 2, 3]).kill.run packer ["data"] as = some s) : s.d.up = false := (c128_damage_is_noticed (copied_tree _) damaged_copy h).1

/-- the hypotheses of `c128_opens` are met by the folder of `copied_opens`: everything is in its place … -/
theorem copied_tidy (m : Bytes) : Tidy (copied m) ["data"] := by
  intro f hf x hx hc
  have h2 := GoMap.mem_of_get? hc
  simp [copied] at h2 hx
  aesop

/-- … and every file can be read. -/
theorem copied_sound : ∀ p, ¬ Damaged (copied (metricsBytes "title" 7 9)) ["data"] p := by
  obtain ⟨k, s, h1, h2, -⟩ := copied_opens
  exact fun p => c128_all_read (copied_tree _) h1 h2

theorem copied_parts {m : Bytes} {f : String} {p : Path} {buf : Bytes} (hp : Part (copied m) ["data"] f p buf) : f = "title" ∧ (buf = indexBytes [("x", [("a", true)])] ∨ buf = indexBytes [("y", [("b", true)])]) := by
  cases hp with
  | index h =>
    have := GoMap.mem_of_get? h
    simp [copied] at this
    exact ⟨this.1, .inl this.2⟩
  | fragment h =>
    have := GoMap.mem_of_get? h
    simp [copied] at this
    exact ⟨this.1.1, .inr this.2⟩

set_option maxRecDepth 100000 in
theorem holds_x {m : GoMap String (GoMap String Bool)} (h : HoldsIndex (indexBytes [("x", [("a", true)])]) m) : m = [("x", [("a", true)])] := by
  have h := decodeIndex_iff.2 h
  rw [show decodeIndex (indexBytes [("x", [("a", true)])]) = some [("x", [("a", true)])] by decide +kernel] at h
  exact (Option.some.inj h).symm

set_option maxRecDepth 100000 in
theorem holds_y {m : GoMap String (GoMap String Bool)} (h : HoldsIndex (indexBytes [("y", [("b", true)])]) m) : m = [("y", [("b", true)])] := by
  have h := decodeIndex_iff.2 h
  rw [show decodeIndex (indexBytes [("y", [("b", true)])]) = some [("y", [("b", true)])] by decide +kernel] at h
  exact (Option.some.inj h).symm

theorem sum_few {α : Type} {l : List α} {g : α → Nat} {n b : Nat} (hl : l.length ≤ n) (hb : ∀ x ∈ l, g x ≤ b) : (l.map g).sum ≤ n * b := by
  have : ∀ l : List α, (∀ x ∈ l, g x ≤ b) → (l.map g).sum ≤ l.length * b := by
    intro l
    induction l with
    | nil => simp
    | cons a l ih =>
      intro h
      have h1 := ih fun x hx => h x (List.mem_cons_of_mem _ hx)
      have h2 := h a (by simp)
      rw [List.map_cons, List.sum_cons, List.length_cons, Nat.add_one_mul]
      omega
  exact (this l hb).trans (Nat.mul_le_mul_right _ hl)

theorem few_keys {V : Type} {m : GoMap String V} (wf : m.WF) {l : List String} (h : ∀ k ∈ m.keys, k ∈ l) : List.length m ≤ l.length := by
  have := (List.Nodup.subperm wf h).length_le
  simpa [GoMap.keys] using this

/-- … and nothing is too large. -/
theorem copied_small (m : Bytes) : Small (copied m) ["data"] := by
  intro f td wf wfi hn hs
  have hx : ∀ t, Names (copied m) ["data"] f t → t = "x" ∨ t = "y" := by
    rintro t ⟨-, p, buf, mm, hp, hh, ht⟩
    obtain ⟨-, rfl | rfl⟩ := copied_parts hp
    · rw [holds_x hh] at ht; exact .inl (by simpa [GoMap.keys] using ht)
    · rw [holds_y hh] at ht; exact .inr (by simpa [GoMap.keys] using ht)
  have hy : ∀ t d, Says (copied m) ["data"] f t d → d = "a" ∨ d = "b" := by
    rintro t d ⟨-, p, buf, mm, ds, hp, hh, ht, hd⟩
    have ht := GoMap.mem_of_get? ht
    obtain ⟨-, rfl | rfl⟩ := copied_parts hp
    · rw [holds_x hh] at ht; simp at ht; obtain ⟨rfl, rfl⟩ := ht; exact .inl (by simpa [GoMap.keys] using hd)
    · rw [holds_y hh] at ht; simp at ht; obtain ⟨rfl, rfl⟩ := ht; exact .inr (by simpa [GoMap.keys] using hd)
  have one : ∀ t : String, t ∈ ["x", "y", "a", "b"] → (utf8 t).length = 1 := by decide
  have h1 : List.length td ≤ 2 := few_keys (l := ["x", "y"]) wf fun k hk => by simpa using hx k (hn k hk)
  have h2 : (td.map fun e => (utf8 e.1).length + (e.2.map fun q => (utf8 q.1).length + 16).sum + 90).sum ≤ 2 * 125 := by
    refine sum_few h1 fun e he => ?_
    have e1 : (utf8 e.1).length = 1 := one _ (by rcases hx e.1 (hn _ (List.mem_map_of_mem he)) with h | h <;> simp [h])
    have e2 : List.length e.2 ≤ 2 := few_keys (l := ["a", "b"]) (wfi e he) fun k hk => by simpa using hy e.1 k (hs e he k hk)
    have e3 : (e.2.map fun q => (utf8 q.1).length + 16).sum ≤ 2 * 17 := sum_few e2 fun q hq => by
      have : (utf8 q.1).length = 1 := one _ (by rcases hy e.1 q.1 (hs e he _ (List.mem_map_of_mem hq)) with h | h <;> simp [h])
      omega
    omega
  omega

/-- all the hypotheses of `c128_opens` are met by one folder. -/
example : ∃ k s, (start (metricsBytes "title" 7 9)).kill.run packer ["data"] (opening k 5 []) = some s ∧ s.d.up = true :=
  c128_opens (copied_tree _) packer_written (copied_tidy _) copied_sound (copied_small _) 5 []

end Opening
end Goir
