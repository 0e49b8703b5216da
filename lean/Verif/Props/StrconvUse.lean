import Verif.Props.Strconv
import Verif.Props.Lines
/-!
# C121: numbers in the documents of a collection
-/
namespace Goir
namespace Strconv
open Spec Json Collection

variable {L : MathLog}

/-- the literal stands for a number that a float64 can hold (and is not absurdly long). -/
def Plain (lit : List Char) : Prop := lit.length ≤ 9000 ∧ ∃ (neg : Bool) (q : ℚ), Denotes lit neg q ∧ (q : ℝ) < 2^1024 - 2^970

/-- the line is the JSON text of the object, not nested too deep, and its numbers are plain. -/
def LineWithNumbers (l : List UInt8) (ms : JMems) : Prop :=
  ∃ s, Decodes (l ++ [10]) s ∧ IsText (.obj ms) s ∧ (JVal.obj ms).depth ≤ 10000 ∧ ∀ lit ∈ (JVal.obj ms).nums, Plain lit

/-- the value along the path `name` is the whole number `n`, written with its digits, and `t` is a term of these digits. -/
def HasNumber (env : TextEnv) (ms : JMems) (name t : String) (n : Nat) : Prop :=
  ∃ p, ValueAt ms p (.num (Nat.toDigits 10 n)) ∧ name = dotted p ∧ t ∈ termsOf env (String.ofList (Nat.toDigits 10 n))

theorem lineOf_numbers {l : List UInt8} {ms : JMems} (h : LineWithNumbers l ms) : LineOf (numOk L) l ms := by
  obtain ⟨s, h1, h2, h3, h4⟩ := h
  refine ⟨s, h1, .inl ⟨h2, h3, fun lit hl => ?_⟩⟩
  obtain ⟨h5, neg, q, h6, h7⟩ := h4 lit hl
  exact (c121_accepted h6 h5).2 h7

theorem printed_num (D : Digits) {n : Nat} (hn : n < 10^6) :
    printed (D.fmtNum L) (.num (Nat.toDigits 10 n)) = (JLeaf.num (String.ofList (Nat.toDigits 10 n))).sprintS := by
  unfold printed
  rw [JVal.toLeaf, c121_integers D hn]

/-- **C121, a year is found**: mainxcrt reads a file whose lines are objects with plain keys and numbers that a float64 can hold, and after they have been indexed a search for a term of the digits of
a whole number below a million, in the field with its path, returns every document that has this number there. -/
theorem c121_searchable {F : Type} [GoFloat F] (D : Digits) (env : TextEnv) (he : FmtSeparators env) (lines : List (List UInt8)) (rest : List UInt8) (hl : ∀ l ∈ lines, (10 : UInt8) ∉ l)
    (hr : (10 : UInt8) ∉ rest) (mss : List JMems) (h : List.Forall₂ LineWithNumbers lines mss) (hp : ∀ ms ∈ mss, PlainMembers ms)
    (uuids : List String) (hu : uuids.length = lines.length) :
    ∃ objs, objects (numOk L) (D.fmtNum L) ((lines.flatMap fun l => l ++ [10]) ++ rest) = some objs ∧
      (∃ out, IndexesAll env Memory.new (uuids.zip objs) out) ∧
      ∀ out, IndexesAll env Memory.new (uuids.zip objs) out → ∃ m, out = some m ∧
        ∀ (query : List (Query F)) (cpus : Nat) (l : Scores F), SState.Returns m.reads query cpus l →
          ∀ (i : Nat) (ms : JMems) (uuid id : String), mss[i]? = some ms → uuids[i]? = some uuid → IdIn (D.fmtNum L) uuid ms id →
            ∀ q ∈ query, ∀ t ∈ q.terms, ∀ n < 10^6, HasNumber env ms q.fieldName t n → id ∈ l.map Prod.fst := by
  obtain ⟨objs, h1, h2, h3⟩ := c113_searchable (F := F) (D.fmtNum L) (numOk L) env lines rest hl hr mss (h.imp fun _ _ => lineOf_numbers) hp uuids hu
  refine ⟨objs, h1, h2, fun out ho => ?_⟩
  obtain ⟨m, h4, h5⟩ := h3 out ho
  refine ⟨m, h4, fun query cpus l hl i ms uuid id hi hu hid q hq t ht n hn hnum => (h5 query cpus l hl id).2 ⟨i, ms, uuid, hi, hu, hid, q, hq, t, ht, ?_⟩⟩
  obtain ⟨p, h6, h7, h8⟩ := hnum
  refine ⟨p, _, h6, nofun, h7, ?_⟩
  rw [printed_num D hn, (c82_terms_of_values env he).2.1]
  exact List.mem_append_right _ h8

theorem lastMember_unique : ∀ {ms : JMems} {k : String} {v w : JVal}, LastMember ms k v → LastMember ms k w → v = w
  | .nil, _, _, _, h, _ => absurd h not_lastMember_nil
  | .cons _ _ ms, _, _, _, h, h' => by
    rcases lastMember_cons.1 h with h1 | ⟨h1, h2, h3⟩ <;> rcases lastMember_cons.1 h' with h4 | ⟨h4, h5, h6⟩
    · exact lastMember_unique h1 h4
    · exact absurd (lastMember_key h1) (h4 ▸ h6)
    · exact absurd (lastMember_key h4) (h1 ▸ h3)
    · rw [h2, h5]

theorem value_here {ms : JMems} {k : String} {v : JVal} (h : ValueAt ms [k] v) : LastMember ms k v := by
  cases h with
  | here h => exact h
  | into h h' => cases h'

theorem printed_lit (fmtNum : List Char → String) (lit : List Char) : printed fmtNum (.num lit) = "%!s(float64=" ++ fmtNum lit ++ ")" := by
  unfold printed
  rw [JVal.toLeaf, JLeaf.sprintS, JLeaf.printV]
  nofun

/-- the id of a document whose `Id` is a number. -/
theorem id_num {fmtNum : List Char → String} {uuid : String} {ms : JMems} {lit : List Char} (h : ValueAt ms ["Id"] (.num lit)) {id : String} :
    IdIn fmtNum uuid ms id ↔ id = printed fmtNum (.num lit) := by
  have hne : printed fmtNum (.num lit) ≠ "" := by
    rw [printed_lit]
    intro e
    have := congrArg String.toList e
    simp at this
  constructor
  · rintro (⟨w, h1, h2, h3, rfl⟩ | ⟨h1, -⟩)
    · rw [lastMember_unique (value_here h) (value_here h1)]
    · exact absurd (h1 _ h nofun) hne
  · rintro rfl
    exact .inl ⟨_, h, nofun, hne, rfl⟩

/-- **C121, when two documents with numbers as ids are one document**: exactly if the numbers have the same sign and the same nearest float64. -/
theorem c121_same_id (D : Digits) {uuid uuid' : String} {ms ms' : JMems} {lit lit' : List Char} (h : ValueAt ms ["Id"] (.num lit)) (h' : ValueAt ms' ["Id"] (.num lit'))
    {neg neg' : Bool} {q q' : ℚ} (hd : Denotes lit neg q) (hl : lit.length ≤ 9000) (hq : (q : ℝ) < 2^1024 - 2^970)
    (hd' : Denotes lit' neg' q') (hl' : lit'.length ≤ 9000) (hq' : (q' : ℝ) < 2^1024 - 2^970) :
    (∃ id, IdIn (D.fmtNum L) uuid ms id ∧ IdIn (D.fmtNum L) uuid' ms' id) ↔ neg = neg' ∧ rnd64 (q : ℝ) = rnd64 (q' : ℝ) := by
  rw [← c121_same (L := L) D hd hl hq hd' hl' hq']
  simp only [id_num h, id_num h']
  constructor
  · rintro ⟨id, h1, h2⟩
    rw [h1] at h2
    rw [printed_lit, printed_lit] at h2
    have := congrArg String.toList h2
    simp at this
    exact String.toList_inj.1 (by simpa using this)
  · intro e
    exact ⟨_, rfl, by unfold printed; rw [JVal.toLeaf, JVal.toLeaf, e]⟩

/-- `{"Id":9007199254740993,"a":"x"}` and the like. -/
def numbered (n : Nat) (word : String) : JMems := .cons "Id" (.num (Nat.toDigits 10 n)) (.cons "a" (.str word) .nil)

theorem numbered_id (n : Nat) (word : String) : ValueAt (numbered n word) ["Id"] (.num (Nat.toDigits 10 n)) := .here (lastMember_cons.2 (.inr ⟨rfl, rfl, by simp [JMems.keys]⟩))

/-- **C121 refuted for ids**: of two documents with the ids 9007199254740993 and 9007199254740992, with different texts, every search that finds the one answers with the id of the other. -/
theorem c121_collision_refuted (D : Digits) (uuid uuid' : String) (v w : String) : ∃ id, (∀ id', IdIn (D.fmtNum L) uuid (numbered 9007199254740993 v) id' ↔ id' = id) ∧
    ∀ id', IdIn (D.fmtNum L) uuid' (numbered 9007199254740992 w) id' ↔ id' = id := by
  refine ⟨_, fun _ => id_num (numbered_id _ _), fun id' => ?_⟩
  rw [id_num (numbered_id _ _)]
  unfold printed
  rw [JVal.toLeaf, JVal.toLeaf, c121_ids_clash_refuted D]

set_option exponentiation.threshold 2000 in
/-- `{"Id":7,"a":"x"}` is a document that meets the hypotheses. -/
theorem numbered_line (n : Nat) (hn : n < 10^6) (word : String) : ∃ l, (10 : UInt8) ∉ l ∧ LineWithNumbers l (numbered n word) := by
  have hv : (JVal.obj (numbered n word)).Valid := ⟨denotes_number (denotes_nat n), trivial, trivial⟩
  refine ⟨utf8 (render (.obj (numbered n word))), utf8_newline ?_, render (.obj (numbered n word)) ++ ['\n'], ?_, ?_, ?_, ?_⟩
  · have hd : '\n' ∉ Nat.toDigits 10 n := fun h => absurd (Nat.isDigit_of_mem_toDigits (by norm_num) (by norm_num) h) (by decide)
    simp only [numbered, render, renderMems, List.mem_cons, List.mem_append, not_or, List.not_mem_nil, not_false_iff, and_true]
    exact ⟨by decide, quote_newline _, by decide, hd, by decide, quote_newline _, by decide, quote_newline _, by decide⟩
  · have := decodes_utf8 (render (.obj (numbered n word)) ++ ['\n'])
    rwa [utf8_append] at this
  · exact parseText_iff.1 (parseText_render _ hv ['\n'] (.inr rfl))
  · simp [numbered, JVal.depth, JMems.depth]
  · intro lit hl
    simp [numbered, JVal.nums, JMems.nums] at hl
    subst hl
    refine ⟨(length_le_of_lt (n := 6) (by norm_num) hn).trans (by norm_num), false, n, denotes_nat n, ?_⟩
    rw [Rat.cast_natCast]
    have : (n:ℝ) < 10^6 := by exact_mod_cast hn
    refine this.trans ?_
    norm_num

/-- … and it has the number among its terms. -/
example : HasNumber demoEnv (numbered 1970 "x") "Id" "1970" 1970 := ⟨["Id"], numbered_id _ _, rfl, by decide⟩

/-- a score to print, 0.5, and a printer of shortest digits: the hypotheses of C120. -/
example : ∃ (_ : Digits) (x : F64 L), x.toReal = some (1/2) := by
  obtain ⟨D⟩ := (inferInstance : Nonempty Digits)
  exact ⟨D, .fin (1/2) ⟨1, -1, by norm_num, by norm_num, by norm_num, by norm_num⟩ (by norm_num), rfl⟩

end Strconv
end Goir
