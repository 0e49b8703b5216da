import Verif.Lemmas.Utf8
import Verif.Lemmas.JsonStruct
import Verif.Props.Ingest
/-!
# C105–C107: the file of the test collection, and StringToObject
-/
namespace Goir
namespace Collection
open Json Spec

/-! ## UTF-8 -/

theorem or_ne_ten (x y : UInt8) (hy : y.toNat.testBit 7 = true) : x ||| y ≠ 10 := by
  intro h
  have h1 : (x ||| y).toNat = 10 := by rw [h]; rfl
  rw [UInt8.toNat_or] at h1
  have h2 : (x.toNat ||| y.toNat).testBit 7 = true := by rw [Nat.testBit_or, hy, Bool.or_true]
  rw [h1] at h2
  revert h2; decide

/-- no byte of another character is a newline. -/
theorem ten_not_mem {c : Char} (h : c ≠ '\n') : (10 : UInt8) ∉ String.utf8EncodeChar c := by
  rcases c.utf8Size_eq with hs | hs | hs | hs
  · rw [String.utf8EncodeChar_eq_singleton hs]
    intro hm
    have h1 : (10 : UInt8) = c.val.toUInt8 := by simpa using hm
    have hle := Char.utf8Size_eq_one_iff.1 hs
    have h2 : c.val.toUInt8.toNat = 10 := by rw [← h1]; rfl
    have h3 : c.val.toNat ≤ 127 := by simpa [UInt32.le_iff_toNat_le] using hle
    have h4 : c.val.toUInt8.toNat = c.val.toNat := by rw [UInt32.toNat_toUInt8]; omega
    apply h
    apply Char.ext
    apply UInt32.toNat_inj.1
    rw [← h4, h2]; rfl
  · rw [String.utf8EncodeChar_eq_cons_cons hs]
    simp only [List.mem_cons, List.not_mem_nil, or_false, not_or]
    exact ⟨(or_ne_ten _ _ (by decide)).symm, (or_ne_ten _ _ (by decide)).symm⟩
  · rw [String.utf8EncodeChar_eq_cons_cons_cons hs]
    simp only [List.mem_cons, List.not_mem_nil, or_false, not_or]
    exact ⟨(or_ne_ten _ _ (by decide)).symm, (or_ne_ten _ _ (by decide)).symm, (or_ne_ten _ _ (by decide)).symm⟩
  · rw [String.utf8EncodeChar_eq_cons_cons_cons_cons hs]
    simp only [List.mem_cons, List.not_mem_nil, or_false, not_or]
    exact ⟨(or_ne_ten _ _ (by decide)).symm, (or_ne_ten _ _ (by decide)).symm, (or_ne_ten _ _ (by decide)).symm, (or_ne_ten _ _ (by decide)).symm⟩

/-! ## lines -/

theorem quoteChar_newline (c : Char) : '\n' ∉ quoteChar c := by
  unfold quoteChar
  split
  · decide
  split
  · decide
  split
  · decide
  split
  · decide
  split
  · decide
  split
  · unfold hexEscape
    have : ∀ n, n < 16 → hexDigit n ≠ '\n' := by decide
    have h := fun n => this _ (Nat.mod_lt n (by decide : 0 < 16))
    simp only [List.mem_cons, List.not_mem_nil, or_false, not_or]
    exact ⟨by decide, by decide, (h _).symm, (h _).symm, (h _).symm, (h _).symm⟩
  · rename_i h _ _ _
    simp only [List.mem_singleton]
    exact fun e => h e.symm

theorem quote_newline (s : String) : '\n' ∉ quote s := by
  unfold quote
  intro h
  simp only [List.mem_cons, List.mem_append, List.mem_flatMap, List.not_mem_nil, or_false] at h
  rcases h with h | ⟨c, -, h⟩ | h
  · revert h; decide
  · exact quoteChar_newline c h
  · revert h; decide

theorem render_newline (d : Doc) : '\n' ∉ render d.object := by
  unfold Doc.object
  simp only [render, renderMems, List.mem_cons, List.mem_append, not_or, List.not_mem_nil, not_false_iff, and_true]
  refine ⟨by decide, quote_newline _, by decide, quote_newline _, by decide, quote_newline _, by decide, quote_newline _, by decide,
    quote_newline _, by decide, quote_newline _, by decide, quote_newline _, by decide, quote_newline _, by decide⟩

/-- a line is a sequence of bytes other than newline, and a newline. -/
theorem line_eq (d : Doc) : ∃ body, d.line = body ++ [10] ∧ (10 : UInt8) ∉ body := by
  refine ⟨utf8 (render d.object), ?_, ?_⟩
  · unfold Doc.line utf8
    rw [List.flatMap_append]
    rfl
  · unfold utf8
    intro h
    obtain ⟨c, hc, hb⟩ := List.mem_flatMap.1 h
    exact ten_not_mem (fun e => render_newline d (e ▸ hc)) hb

theorem readLines_body {body : List UInt8} (h : (10 : UInt8) ∉ body) : ∀ (acc r : List UInt8), readLines acc (body ++ 10 :: r) = (acc ++ body ++ [10]) :: readLines [] r := by
  induction body with
  | nil => intro acc r; simp [readLines]
  | cons b body ih =>
    intro acc r
    simp only [List.mem_cons, not_or] at h
    show readLines acc (b :: (body ++ 10 :: r)) = _
    rw [readLines, if_neg (fun e => h.1 e.symm), ih h.2]
    simp

theorem readLines_rest {body : List UInt8} (h : (10 : UInt8) ∉ body) : ∀ acc, readLines acc body = [] := by
  induction body with
  | nil => intro acc; rfl
  | cons b body ih =>
    intro acc
    simp only [List.mem_cons, not_or] at h
    rw [readLines, if_neg (fun e => h.1 e.symm), ih h.2]

theorem readLines_line (d : Doc) (r : List UInt8) : readLines [] (d.line ++ r) = d.line :: readLines [] r := by
  obtain ⟨body, e, h⟩ := line_eq d
  rw [e, List.append_assoc]
  show readLines [] (body ++ 10 :: r) = _
  rw [readLines_body h]; rfl

theorem criarArquivo_eq (docs : List Doc) : criarArquivo docs = docs.flatMap Doc.line := by
  have : ∀ (docs : List Doc) (f : List UInt8), docs.foldl gravar f = f ++ docs.flatMap Doc.line := by
    intro docs
    induction docs with
    | nil => intro f; simp
    | cons d docs ih => intro f; rw [List.foldl_cons, ih]; simp [gravar]
  have := this docs []
  rw [List.nil_append] at this
  exact this

theorem readLines_lines (docs : List Doc) (r : List UInt8) : readLines [] (docs.flatMap Doc.line ++ r) = docs.map Doc.line ++ readLines [] r := by
  induction docs with
  | nil => rfl
  | cons d docs ih =>
    rw [List.flatMap_cons, List.append_assoc, readLines_line, ih]; rfl

/-! ## decoding -/

theorem object_valid (d : Doc) : d.object.Valid := ⟨trivial, trivial, trivial, trivial, trivial⟩

theorem object_depth (d : Doc) : d.object.depth ≤ maxDepth := by
  unfold Doc.object; simp [JVal.depth, JMems.depth, maxDepth]

theorem parse_line (d : Doc) : Json.parse (chars d.line) = some d.object := by
  unfold Doc.line
  rw [chars_utf8]
  exact parse_render d.object (object_valid d) (object_depth d) ['\n'] (.inr rfl)

theorem decodeLine_line (d : Doc) : decodeLine d.line = some d := by
  have h := parse_line d
  unfold decodeLine
  show (Json.parse (chars d.line)).bind _ = _
  rw [h]
  rfl

theorem mapM_decode (docs : List Doc) : (docs.map Doc.line).mapM decodeLine = some docs := by
  induction docs with
  | nil => rfl
  | cons d docs ih => rw [List.map_cons, List.mapM_cons, decodeLine_line, ih]; rfl

/-- **C105.** What CriarArquivo writes, GetDocuments reads: the same documents in the same order, whatever characters their texts contain; and
GetTextDocuments returns one line per document. -/
theorem c105_round_trip (docs : List Doc) : getDocuments (criarArquivo docs) = some docs ∧ getTextDocuments (criarArquivo docs) = docs.map Doc.line := by
  have e : readLines [] (criarArquivo docs) = docs.map Doc.line := by
    have := readLines_lines docs []
    rw [List.append_nil] at this
    rw [criarArquivo_eq, this]; simp [readLines]
  exact ⟨by unfold getDocuments; rw [e, mapM_decode], e⟩

example : getDocuments (criarArquivo [⟨"1", "a \"b\"\n<c>", "é\\", "😀"⟩, {}]) = some [⟨"1", "a \"b\"\n<c>", "é\\", "😀"⟩, {}] := (c105_round_trip _).1

/-! ## crashes and failed writes -/

theorem take_lines (docs : List Doc) : ∀ k, ∃ j, j ≤ docs.length ∧ ∃ rest, (10 : UInt8) ∉ rest ∧
    (docs.flatMap Doc.line).take k = (docs.take j).flatMap Doc.line ++ rest ∧ ((docs.take j).flatMap Doc.line).length ≤ k ∧
    (j < docs.length → k < ((docs.take (j + 1)).flatMap Doc.line).length) := by
  induction docs with
  | nil => intro k; exact ⟨0, Nat.le_refl _, [], by simp, by simp, by simp, by simp⟩
  | cons d docs ih =>
    intro k
    by_cases hk : d.line.length ≤ k
    · obtain ⟨j, hj, rest, h1, h2, h3, h4⟩ := ih (k - d.line.length)
      refine ⟨j + 1, by simpa using hj, rest, h1, ?_, ?_, ?_⟩
      · rw [List.flatMap_cons, List.take_append, List.take_of_length_le hk, h2, List.take_succ_cons, List.flatMap_cons, List.append_assoc]
      · rw [List.take_succ_cons, List.flatMap_cons, List.length_append]; omega
      · intro hlt
        have := h4 (by simpa using hlt)
        rw [List.take_succ_cons, List.flatMap_cons, List.length_append]; omega
    · obtain ⟨body, e, hb⟩ := line_eq d
      refine ⟨0, Nat.zero_le _, d.line.take k, ?_, ?_, ?_, ?_⟩
      · have hl : d.line.length = body.length + 1 := by rw [e]; simp
        rw [e, List.take_append_of_le_length (by omega)]
        exact fun hm => hb (List.mem_of_mem_take hm)
      · rw [List.flatMap_cons, List.take_append_of_le_length (by omega)]; simp
      · simp
      · intro _
        rw [List.take_succ_cons, List.flatMap_cons, List.length_append]; omega

/-- **C106.** If the program stops after any number `k` of bytes have been written, GetDocuments does not panic and returns exactly the documents
whose lines were completely written: the first `j`, where `k` bytes hold the first `j` lines but not the next. -/
theorem c106_crash (docs : List Doc) (k : Nat) : ∃ j ≤ docs.length, getDocuments ((criarArquivo docs).take k) = some (docs.take j) ∧
    getTextDocuments ((criarArquivo docs).take k) = (docs.take j).map Doc.line ∧
    (criarArquivo (docs.take j)).length ≤ k ∧ (j < docs.length → k < (criarArquivo (docs.take (j + 1))).length) := by
  obtain ⟨j, hj, rest, h1, h2, h3, h4⟩ := take_lines docs k
  have e : readLines [] ((criarArquivo docs).take k) = (docs.take j).map Doc.line := by
    rw [criarArquivo_eq, h2, readLines_lines, readLines_rest h1, List.append_nil]
  refine ⟨j, hj, ?_, e, ?_, ?_⟩
  · unfold getDocuments; rw [e, mapM_decode]
  · rw [criarArquivo_eq]; exact h3
  · intro hlt; rw [criarArquivo_eq]; exact h4 hlt

/-- the same if only the last write failed, after `n` bytes. -/
theorem c106_last_write_fails (docs : List Doc) (d : Doc) (n : Nat) (hn : n < d.line.length) :
    getDocuments (gravarN n (criarArquivo docs) d) = some docs := by
  obtain ⟨body, e, hb⟩ := line_eq d
  unfold getDocuments gravarN
  have h1 : (10 : UInt8) ∉ d.line.take n := by
    have hl : d.line.length = body.length + 1 := by rw [e]; simp
    rw [e, List.take_append_of_le_length (by omega)]
    exact fun hm => hb (List.mem_of_mem_take hm)
  rw [criarArquivo_eq, readLines_lines, readLines_rest h1, List.append_nil, mapM_decode]


theorem mapM_none {α β : Type} {f : α → Option β} : ∀ (l : List α) {a : α}, a ∈ l → f a = none → l.mapM f = none
  | [], _, h, _ => by cases h
  | b :: l, a, h, ha => by
    rw [List.mapM_cons]
    rcases List.mem_cons.1 h with rfl | h
    · rw [ha]; rfl
    · rw [mapM_none l h ha]; cases f b <;> rfl

/-- a text with two opening braces, or with something after its object, is no JSON. -/
theorem decode_bad {cs : List Char} (h : Json.parse cs = none) : decodeLine (utf8 cs) = none := by
  unfold decodeLine
  rw [chars_utf8]
  show (Json.parse cs).bind _ = _
  rw [h]; rfl

theorem utf8_append (a b : List Char) : utf8 (a ++ b) = utf8 a ++ utf8 b := by unfold utf8; rw [List.flatMap_append]

theorem line_head (d : Doc) : ∃ cs, render d.object ++ ['\n'] = '{' :: cs := ⟨_, rfl⟩

theorem parse_brace (d : Doc) : Json.parse ('{' :: (render d.object ++ ['\n'])) = none := by
  obtain ⟨cs, e⟩ := line_head d
  rw [e]
  rfl

theorem gravarN_one (f : List UInt8) (d : Doc) : gravarN 1 f d = f ++ utf8 ['{'] := by
  obtain ⟨cs, e⟩ := line_head d
  unfold gravarN Doc.line
  rw [e]
  show f ++ (utf8 (['{'] ++ cs)).take 1 = _
  rw [utf8_append]
  rfl

theorem readLines_more (more : List Doc) (f r : List UInt8) : more.foldl gravar f ++ r = f ++ (more.flatMap Doc.line ++ r) := by
  induction more generalizing f with
  | nil => rfl
  | cons d more ih => rw [List.foldl_cons, ih]; simp [gravar]

/-- **C106, refuted part.** CriarArquivo prints an error of writing and goes on, so a document that was cut off in the middle is followed by others:
the line is then no JSON object, and GetDocuments panics, whatever documents were written before and after, while GetTextDocuments returns the line
as a document. (Here the file took only the first byte.) -/
theorem c106_refuted (docs more : List Doc) (d e : Doc) :
    getDocuments (more.foldl gravar (gravar (gravarN 1 (criarArquivo docs) d) e)) = none ∧
    (getTextDocuments (more.foldl gravar (gravar (gravarN 1 (criarArquivo docs) d) e))).length = docs.length + 1 + more.length := by
  have hl : readLines [] (more.foldl gravar (gravar (gravarN 1 (criarArquivo docs) d) e)) =
      docs.map Doc.line ++ (utf8 ('{' :: (render e.object ++ ['\n'])) :: more.map Doc.line) := by
    have h1 := readLines_more more (gravar (gravarN 1 (criarArquivo docs) d) e) []
    rw [List.append_nil, List.append_nil] at h1
    rw [h1, gravarN_one]
    unfold gravar
    rw [criarArquivo_eq, List.append_assoc, List.append_assoc, readLines_lines]
    obtain ⟨body, eb, hb⟩ := line_eq e
    have h2 : utf8 ['{'] ++ (e.line ++ more.flatMap Doc.line) = ((123 : UInt8) :: body) ++ 10 :: more.flatMap Doc.line := by
      rw [eb]
      show (123 : UInt8) :: (body ++ [10] ++ _) = _
      simp
    have h3 : utf8 ('{' :: (render e.object ++ ['\n'])) = ((123 : UInt8) :: body) ++ [10] := by
      show (123 : UInt8) :: e.line = _
      rw [eb]; rfl
    have h4 : (10 : UInt8) ∉ (123 : UInt8) :: body := by
      simp only [List.mem_cons, not_or]; exact ⟨by decide, hb⟩
    rw [h2, readLines_body h4, h3, List.nil_append]
    have h5 := readLines_lines more []
    rw [List.append_nil] at h5
    have h6 : readLines [] (more.flatMap Doc.line) = more.map Doc.line := by rw [h5]; simp [readLines]
    rw [h6]
  constructor
  · unfold getDocuments
    rw [hl]
    exact mapM_none _ (List.mem_append_right _ (List.mem_cons_self ..)) (decode_bad (parse_brace e))
  · unfold getTextDocuments
    rw [hl]; simp; omega

/-- … and a file whose last line has no newline loses the last document without an error. -/
theorem c106_no_newline_refuted (docs : List Doc) (d : Doc) :
    getDocuments (criarArquivo docs ++ utf8 (render d.object)) = some docs := by
  have h1 : (10 : UInt8) ∉ utf8 (render d.object) := by
    unfold utf8
    intro h
    obtain ⟨c, hc, hb⟩ := List.mem_flatMap.1 h
    exact ten_not_mem (fun e => render_newline d (e ▸ hc)) hb
  unfold getDocuments
  rw [criarArquivo_eq, readLines_lines, readLines_rest h1, List.append_nil, mapM_decode]

/-! ## StringToObject -/

/-- the value of the last member with this key: what the key means if it occurs more than once. -/
def LastMember (ms : JMems) (k : String) (v : JVal) : Prop := ∃ before after, ms.toList = before ++ (k, v) :: after ∧ ∀ e ∈ after, e.1 ≠ k

/-- following the keys from member to member leads to the value. -/
inductive ValueAt : JMems → List String → JVal → Prop
  | here {ms : JMems} {k : String} {v : JVal} (h : LastMember ms k v) : ValueAt ms [k] v
  | into {ms o : JMems} {k : String} {p : List String} {v : JVal} (h : LastMember ms k (.obj o)) (h' : ValueAt o p v) : ValueAt ms (k :: p) v

/-- not an object. -/
def NotObject (v : JVal) : Prop := ∀ ms, v ≠ .obj ms

theorem keys_toList : ∀ ms : JMems, ms.keys = ms.toList.map Prod.fst
  | .nil => rfl
  | .cons k v ms => by simp only [JMems.keys, JMems.toList, List.map_cons, keys_toList ms]

theorem not_lastMember_nil {k : String} {v : JVal} : ¬ LastMember .nil k v := by
  rintro ⟨b, a, h, -⟩
  have := congrArg List.length h
  simp [JMems.toList] at this

theorem lastMember_cons {k : String} {v : JVal} {ms : JMems} {j : String} {w : JVal} :
    LastMember (.cons k v ms) j w ↔ LastMember ms j w ∨ (j = k ∧ w = v ∧ k ∉ ms.keys) := by
  constructor
  · rintro ⟨b, a, h, hn⟩
    cases b with
    | nil =>
      simp only [JMems.toList, List.nil_append, List.cons.injEq, Prod.mk.injEq] at h
      obtain ⟨⟨rfl, rfl⟩, rfl⟩ := h
      refine .inr ⟨rfl, rfl, ?_⟩
      rw [keys_toList]
      intro hm
      obtain ⟨e, he, hk⟩ := List.mem_map.1 hm
      exact hn e he hk
    | cons x b =>
      simp only [JMems.toList, List.cons_append, List.cons.injEq] at h
      exact .inl ⟨b, a, h.2, hn⟩
  · rintro (⟨b, a, h, hn⟩ | ⟨rfl, rfl, hn⟩)
    · exact ⟨(k, v) :: b, a, by simp only [JMems.toList, List.cons_append, h], hn⟩
    · refine ⟨[], ms.toList, rfl, fun e he hk => hn ?_⟩
      rw [keys_toList]
      exact List.mem_map.2 ⟨e, he, hk⟩

theorem lastMember_key {ms : JMems} {k : String} {v : JVal} (h : LastMember ms k v) : k ∈ ms.keys := by
  obtain ⟨b, a, h, -⟩ := h
  rw [keys_toList, h]; simp

theorem valueAt_cons_drop {k : String} {v : JVal} {ms : JMems} (hk : k ∈ ms.keys) {p : List String} {w : JVal} :
    ValueAt (.cons k v ms) p w ↔ ValueAt ms p w := by
  constructor
  · intro h
    cases h with
    | here h => rcases lastMember_cons.1 h with h | ⟨-, -, hn⟩; exacts [.here h, absurd hk hn]
    | into h h' => rcases lastMember_cons.1 h with h | ⟨-, -, hn⟩; exacts [.into h h', absurd hk hn]
  · intro h
    cases h with
    | here h => exact .here (lastMember_cons.2 (.inl h))
    | into h h' => exact .into (lastMember_cons.2 (.inl h)) h'


variable (fmtNum : List Char → String)

theorem toObj_drop {k : String} {v : JVal} {ms : JMems} (h : k ∈ ms.keys) : (JMems.cons k v ms).toObj fmtNum = ms.toObj fmtNum := by
  cases v <;> simp only [JMems.toObj, if_pos h]

theorem toObj_sub {k : String} {o ms : JMems} (h : k ∉ ms.keys) :
    (JMems.cons k (.obj o) ms).toObj fmtNum = .sub k (o.toObj fmtNum) (ms.toObj fmtNum) := by
  simp only [JMems.toObj, if_neg h]

theorem toObj_leaf {k : String} {v : JVal} {ms : JMems} (hv : NotObject v) (h : k ∉ ms.keys) :
    (JMems.cons k v ms).toObj fmtNum = .leaf k (v.toLeaf fmtNum) (ms.toObj fmtNum) := by
  cases v with
  | obj o => exact absurd rfl (hv o)
  | _ => simp only [JMems.toObj, if_neg h]

theorem toObj_keys : ∀ (ms : JMems) {k : String}, k ∈ (ms.toObj fmtNum).topKeys → k ∈ ms.keys
  | .nil, k, h => by simp [JMems.toObj, JObj.topKeys] at h
  | .cons j v ms, k, h => by
    have ih := toObj_keys ms (k := k)
    by_cases hj : j ∈ ms.keys
    · rw [toObj_drop fmtNum hj] at h
      exact List.mem_cons_of_mem _ (ih h)
    · by_cases hv : NotObject v
      · rw [toObj_leaf fmtNum hv hj] at h
        rcases List.mem_cons.1 h with rfl | h
        · exact List.mem_cons_self ..
        · exact List.mem_cons_of_mem _ (ih h)
      · unfold NotObject at hv
        obtain ⟨o, hv⟩ := Classical.not_forall.1 hv
        have hv := Classical.not_not.1 hv
        subst hv
        rw [toObj_sub fmtNum hj] at h
        rcases List.mem_cons.1 h with rfl | h
        · exact List.mem_cons_self ..
        · exact List.mem_cons_of_mem _ (ih h)

theorem toObj_spec : ∀ ms : JMems, (ms.toObj fmtNum).WF ∧ ∀ p l, LeafAt (ms.toObj fmtNum) p l ↔
    ∃ w, ValueAt ms p w ∧ NotObject w ∧ l = w.toLeaf fmtNum
  | .nil => by
    refine ⟨trivial, fun p l => ⟨fun h => ?_, ?_⟩⟩
    · simp only [JMems.toObj] at h; cases h
    · rintro ⟨w, h, -⟩
      cases h with
      | here h => exact absurd h not_lastMember_nil
      | into h => exact absurd h not_lastMember_nil
  | .cons k (.obj o) ms => by
    have ih := toObj_spec ms
    have io := toObj_spec o
    by_cases hk : k ∈ ms.keys
    · rw [toObj_drop fmtNum hk]
      refine ⟨ih.1, fun p l => ?_⟩
      rw [ih.2]
      simp only [valueAt_cons_drop hk]
    · rw [toObj_sub fmtNum hk]
      refine ⟨⟨fun h => hk (toObj_keys fmtNum ms h), io.1, ih.1⟩, fun p l => ⟨fun h => ?_, ?_⟩⟩
      · cases h with
        | into _ _ _ p v h =>
          obtain ⟨w, h1, h2⟩ := (io.2 _ _).1 h
          exact ⟨w, .into (lastMember_cons.2 (.inr ⟨rfl, rfl, hk⟩)) h1, h2⟩
        | skipSub _ _ _ _ _ h =>
          obtain ⟨w, h1, h2⟩ := (ih.2 _ _).1 h
          refine ⟨w, ?_, h2⟩
          cases h1 with
          | here h => exact .here (lastMember_cons.2 (.inl h))
          | into h1 h' => exact .into (lastMember_cons.2 (.inl h1)) h'
      · rintro ⟨w, h1, h2, rfl⟩
        cases h1 with
        | here h =>
          rcases lastMember_cons.1 h with h | ⟨-, rfl, -⟩
          · exact .skipSub _ _ _ _ _ ((ih.2 _ _).2 ⟨w, .here h, h2, rfl⟩)
          · exact absurd rfl (h2 o)
        | into h h' =>
          rcases lastMember_cons.1 h with h | ⟨rfl, e, -⟩
          · exact .skipSub _ _ _ _ _ ((ih.2 _ _).2 ⟨w, .into h h', h2, rfl⟩)
          · cases e
            exact .into _ _ _ _ _ ((io.2 _ _).2 ⟨w, h', h2, rfl⟩)
  | .cons k .null ms => leafCase k .null ms (fun _ h => nomatch h) (toObj_spec ms)
  | .cons k (.bool b) ms => leafCase k (.bool b) ms (fun _ h => nomatch h) (toObj_spec ms)
  | .cons k (.num l) ms => leafCase k (.num l) ms (fun _ h => nomatch h) (toObj_spec ms)
  | .cons k (.str s) ms => leafCase k (.str s) ms (fun _ h => nomatch h) (toObj_spec ms)
  | .cons k (.arr es) ms => leafCase k (.arr es) ms (fun _ h => nomatch h) (toObj_spec ms)
where
  leafCase (k : String) (v : JVal) (ms : JMems) (hv : NotObject v) (ih : (ms.toObj fmtNum).WF ∧ ∀ p l, LeafAt (ms.toObj fmtNum) p l ↔
      ∃ w, ValueAt ms p w ∧ NotObject w ∧ l = w.toLeaf fmtNum) : ((JMems.cons k v ms).toObj fmtNum).WF ∧
      ∀ p l, LeafAt ((JMems.cons k v ms).toObj fmtNum) p l ↔ ∃ w, ValueAt (JMems.cons k v ms) p w ∧ NotObject w ∧ l = w.toLeaf fmtNum := by
    by_cases hk : k ∈ ms.keys
    · rw [toObj_drop fmtNum hk]
      refine ⟨ih.1, fun p l => ?_⟩
      rw [ih.2]
      simp only [valueAt_cons_drop hk]
    · rw [toObj_leaf fmtNum hv hk]
      refine ⟨⟨fun h => hk (toObj_keys fmtNum ms h), ih.1⟩, fun p l => ⟨fun h => ?_, ?_⟩⟩
      · cases h with
        | here => exact ⟨v, .here (lastMember_cons.2 (.inr ⟨rfl, rfl, hk⟩)), hv, rfl⟩
        | skipLeaf _ _ _ _ _ h =>
          obtain ⟨w, h1, h2⟩ := (ih.2 _ _).1 h
          refine ⟨w, ?_, h2⟩
          cases h1 with
          | here h => exact .here (lastMember_cons.2 (.inl h))
          | into h1 h' => exact .into (lastMember_cons.2 (.inl h1)) h'
      · rintro ⟨w, h1, h2, rfl⟩
        cases h1 with
        | here h =>
          rcases lastMember_cons.1 h with h | ⟨rfl, rfl, -⟩
          · exact .skipLeaf _ _ _ _ _ ((ih.2 _ _).2 ⟨w, .here h, h2, rfl⟩)
          · exact .here _ _ _
        | into h h' =>
          rcases lastMember_cons.1 h with h | ⟨-, e, -⟩
          · exact .skipLeaf _ _ _ _ _ ((ih.2 _ _).2 ⟨w, .into h h', h2, rfl⟩)
          · exact absurd e.symm (hv _)

variable (numOk : List Char → Bool)

theorem stringToObject_text {v : JVal} {bs : List UInt8} {s : List Char} (hu : Decodes bs s) (h : IsText v s) : stringToObject numOk fmtNum bs =
    if v.depth ≤ maxDepth ∧ ∀ lit ∈ v.nums, numOk lit = true then
      match v with
      | .obj ms => some (ms.toObj fmtNum)
      | .null => some .nil
      | _ => none
    else none := by
  unfold stringToObject
  rw [chars_of_decodes hu]
  show (Json.parse _).bind _ = _
  by_cases hd : v.depth ≤ maxDepth
  · rw [parse_of h hd]
    show (if v.nums.all numOk = true then _ else _) = _
    by_cases hn : ∀ lit ∈ v.nums, numOk lit = true
    · rw [if_pos (List.all_eq_true.2 hn), if_pos ⟨hd, hn⟩]
      cases v <;> rfl
    · rw [if_neg (fun e => hn (List.all_eq_true.1 e)), if_neg (fun e => hn e.2)]
  · rw [if_neg (fun e => hd e.1)]
    cases hp : Json.parse s with
    | none => rfl
    | some w =>
      obtain ⟨h1, h2⟩ := parse_iff.1 hp
      have e := (parseText_of h).symm.trans (parseText_of h1)
      injection e with e
      subst e
      exact absurd h2 hd

/-- **C107.** StringToObject of any JSON text of an object, with whatever white space and escapes, nested at most 10000 deep and with numbers that
strconv.ParseFloat accepts: it does not panic, the result has no key twice, and what is found in it along a path of keys is the value found along that
path in the object, where of members with the same key the last one counts. -/
theorem c107_object {ms : JMems} {bs : List UInt8} {s : List Char} (hu : Decodes bs s) (h : IsText (.obj ms) s) (hd : (JVal.obj ms).depth ≤ 10000)
    (hn : ∀ lit ∈ (JVal.obj ms).nums, numOk lit = true) : ∃ o, stringToObject numOk fmtNum bs = some o ∧ o.WF ∧
    ∀ p l, LeafAt o p l ↔ ∃ w, ValueAt ms p w ∧ NotObject w ∧ l = w.toLeaf fmtNum :=
  ⟨ms.toObj fmtNum, by rw [stringToObject_text fmtNum numOk hu h, if_pos ⟨hd, hn⟩], toObj_spec fmtNum ms⟩

/-- the elements of an array. -/
def elemsList : JElems → List JVal
  | .nil => []
  | .cons v es => v :: elemsList es

/-- … where a value that is no object stays what it is: a string keeps its characters, a truth value its value, a number is the number that fmt prints,
an array keeps its elements in their order. -/
theorem c107_values (b : Bool) (lit : List Char) (s : String) (es : JElems) :
    JVal.toLeaf fmtNum .null = .null ∧ (JVal.bool b).toLeaf fmtNum = .bool b ∧ (JVal.num lit).toLeaf fmtNum = .num (fmtNum lit) ∧
    (JVal.str s).toLeaf fmtNum = .str s ∧ (JVal.arr es).toLeaf fmtNum = .arr ((elemsList es).map fun v => v.toLeaf fmtNum) := by
  refine ⟨by rw [JVal.toLeaf], by rw [JVal.toLeaf], by rw [JVal.toLeaf], by rw [JVal.toLeaf], ?_⟩
  rw [JVal.toLeaf]
  congr 1
  have : ∀ (n : Nat) (es : JElems), (elemsList es).length ≤ n → es.toLeaves fmtNum = (elemsList es).map fun v => v.toLeaf fmtNum := by
    intro n
    induction n with
    | zero =>
      intro es h
      cases es with
      | nil => rw [JElems.toLeaves]; rfl
      | cons v es => simp [elemsList] at h
    | succ n ih =>
      intro es h
      cases es with
      | nil => rw [JElems.toLeaves]; rfl
      | cons v es =>
        rw [JElems.toLeaves, ih es (by simpa [elemsList] using h)]; rfl
  exact this _ es (Nat.le_refl _)

/-- … an object in an array becomes a map with a value for every key: the last one with that key. -/
theorem c107_inner_object (ms : JMems) : ∃ ents, (JVal.obj ms).toLeaf fmtNum = .obj ents ∧ (ents.map Prod.fst).Nodup ∧
    ∀ k l, (k, l) ∈ ents ↔ ∃ w, LastMember ms k w ∧ l = w.toLeaf fmtNum := by
  refine ⟨ms.toEnts fmtNum, by rw [JVal.toLeaf], ?_⟩
  have : ∀ (n : Nat) (ms : JMems), ms.toList.length ≤ n → ((ms.toEnts fmtNum).map Prod.fst).Nodup ∧
      ∀ k l, (k, l) ∈ ms.toEnts fmtNum ↔ ∃ w, LastMember ms k w ∧ l = w.toLeaf fmtNum := by
    intro n
    induction n with
    | zero =>
      intro ms h
      cases ms with
      | nil =>
        rw [JMems.toEnts]
        refine ⟨List.nodup_nil, fun k l => ⟨(fun h => by cases h), ?_⟩⟩
        rintro ⟨w, hw, -⟩
        exact absurd hw not_lastMember_nil
      | cons k v ms => simp [JMems.toList] at h
    | succ n ih =>
      intro ms h
      cases ms with
      | nil =>
        rw [JMems.toEnts]
        refine ⟨List.nodup_nil, fun k l => ⟨(fun h => by cases h), ?_⟩⟩
        rintro ⟨w, hw, -⟩
        exact absurd hw not_lastMember_nil
      | cons k v ms =>
        obtain ⟨i1, i2⟩ := ih ms (by simpa [JMems.toList] using h)
        rw [JMems.toEnts]
        split
        · rename_i hk
          refine ⟨i1, fun j l => ?_⟩
          rw [i2]
          simp only [lastMember_cons]
          constructor
          · rintro ⟨w, hw, e⟩; exact ⟨w, .inl hw, e⟩
          · rintro ⟨w, hw | ⟨-, -, hn⟩, e⟩
            · exact ⟨w, hw, e⟩
            · exact absurd hk hn
        · rename_i hk
          constructor
          · rw [List.map_cons, List.nodup_cons]
            refine ⟨fun hm => hk ?_, i1⟩
            obtain ⟨⟨j, l⟩, he, e⟩ := List.mem_map.1 hm
            obtain ⟨w, hw, -⟩ := (i2 j l).1 he
            have e : j = k := e
            rw [← e]
            exact lastMember_key hw
          · intro j l
            rw [List.mem_cons, i2]
            simp only [lastMember_cons]
            constructor
            · rintro (e | ⟨w, hw, e⟩)
              · cases e; exact ⟨v, .inr ⟨rfl, rfl, hk⟩, rfl⟩
              · exact ⟨w, .inl hw, e⟩
            · rintro ⟨w, hw | ⟨rfl, rfl, -⟩, e⟩
              · exact .inr ⟨w, hw, e⟩
              · exact .inl (by rw [e])
  exact this _ ms (Nat.le_refl _)

/-- … null gives an empty map. -/
theorem c107_null {bs : List UInt8} {s : List Char} (hu : Decodes bs s) (h : IsText .null s) : stringToObject numOk fmtNum bs = some .nil := by
  rw [stringToObject_text fmtNum numOk hu h, if_pos ⟨Nat.zero_le _, (fun lit hl => by cases hl)⟩]

/-- … and any other text makes it panic: one that is no JSON object, one that is nested deeper, one with a number that strconv.ParseFloat refuses. -/
theorem c107_panic {bs : List UInt8} {s : List Char} (hu : Decodes bs s) (h1 : ∀ ms, IsText (.obj ms) s → 10000 < (JVal.obj ms).depth ∨ ∃ lit ∈ (JVal.obj ms).nums, numOk lit = false)
    (h2 : ¬ IsText .null s) : stringToObject numOk fmtNum bs = none := by
  cases hp : Json.parseText s with
  | none =>
    unfold stringToObject
    rw [chars_of_decodes hu]
    show (Json.parse _).bind _ = _
    unfold Json.parse
    rw [hp]; rfl
  | some v =>
    have ht := parseText_iff.1 hp
    rw [stringToObject_text fmtNum numOk hu ht]
    split
    · rename_i hc
      cases v with
      | null => exact absurd ht h2
      | obj ms =>
        rcases h1 ms ht with hd | ⟨lit, hl, hf⟩
        · exact absurd hc.1 (Nat.not_le.2 hd)
        · rw [hc.2 lit hl] at hf; cases hf
      | _ => rfl
    · rfl

/-- the texts that json.Marshal writes are texts of the grammar. -/
theorem isText_render {v : JVal} (hv : v.Valid) : IsText v (render v) := by
  have := parseText_render v hv [] (.inl rfl)
  rw [List.append_nil] at this
  exact parseText_iff.1 this

/-- a text has one value. -/
theorem isText_unique {v w : JVal} {s : List Char} (h1 : IsText v s) (h2 : IsText w s) : v = w := by
  have := (parseText_of h1).symm.trans (parseText_of h2)
  injection this

/-- a text with white space, escapes and a surrogate pair. -/
def c107Text : List Char := [' ', '{', ' ', '"', 'a', '"', ' ', ':', ' ', '"', 'x', '\\', '/', '\\', 'u', '0', '0', 'E', '9', '\\', 'u', 'd', '8', '3', 'd', '\\', 'u', 'D', 'E', '0', '0', '"', ',', '\t', '"', 'b', '"', ':', '[', ' ', '-', '1', '.', '5', 'e', '+', '3', ' ', ',', ' ', '{', ' ', '}', ' ', ']', '}', '\n']

set_option maxRecDepth 4000 in
example : IsText (.obj (.cons (String.ofList ['a']) (.str (String.ofList ['x', '/', 'é', '😀']))
    (.cons (String.ofList ['b']) (.arr (.cons (.num ['-', '1', '.', '5', 'e', '+', '3']) (.cons (.obj .nil) .nil))) .nil))) c107Text :=
  parseText_iff.1 (by rfl)

/-- arrays in arrays, `n` deep. -/
def deepArray : Nat → JVal
  | 0 => .null
  | n + 1 => .arr (.cons (deepArray n) .nil)

theorem deepArray_valid : ∀ n, (deepArray n).Valid
  | 0 => trivial
  | n + 1 => ⟨deepArray_valid n, trivial⟩

theorem deepArray_depth : ∀ n, (deepArray n).depth = n
  | 0 => rfl
  | n + 1 => by simp [deepArray, JVal.depth, JElems.depth, deepArray_depth n]

/-- **C107, the limit.** There are JSON objects of every depth; StringToObject reads those up to 10000 and panics on the others. -/
theorem c107_depth (n : Nat) : IsText (.obj (.cons "a" (deepArray n) .nil)) (render (.obj (.cons "a" (deepArray n) .nil))) ∧
    ((stringToObject numOk fmtNum (utf8 (render (.obj (.cons "a" (deepArray n) .nil))))).isSome = true ↔ n + 1 ≤ 10000) := by
  have ht : IsText (.obj (.cons "a" (deepArray n) .nil)) (render (.obj (.cons "a" (deepArray n) .nil))) :=
    isText_render (v := .obj (.cons "a" (deepArray n) .nil)) ⟨deepArray_valid n, trivial⟩
  have hd : (JVal.obj (.cons "a" (deepArray n) .nil)).depth = n + 1 := by simp [JVal.depth, JMems.depth, deepArray_depth]
  have hn : ∀ lit ∈ (JVal.obj (.cons "a" (deepArray n) .nil)).nums, numOk lit = true := by
    have : ∀ n, (deepArray n).nums = [] := by
      intro n
      induction n with
      | zero => rfl
      | succ n ih => simp [deepArray, JVal.nums, JElems.nums, ih]
    intro lit hl
    simp [JVal.nums, JMems.nums, this] at hl
  refine ⟨ht, ?_⟩
  rw [stringToObject_text fmtNum numOk (decodes_utf8 _) ht, hd]
  constructor
  · intro h
    split at h
    · rename_i hc; exact hc.1
    · cases h
  · intro h
    rw [if_pos ⟨h, hn⟩]; rfl

/-- a number with a leading zero. -/
def c107Bad : List Char := ['{', '"', 'a', '"', ':', '0', '1', '}']

example : stringToObject numOk fmtNum (utf8 c107Bad) = none := by
  have hn : Json.parseText c107Bad = none := by rfl
  refine c107_panic fmtNum numOk (decodes_utf8 _) (fun ms h => ?_) fun h => ?_
  · rw [parseText_of h] at hn; cases hn
  · rw [parseText_of h] at hn; cases hn

example : ∃ o, stringToObject numOk fmtNum (utf8 (render (.obj (.cons "a" (.str "x") (.cons "b" (.obj (.cons "c" (.str "y") .nil)) (.cons "a" (.bool true) .nil)))))) = some o ∧
    LeafAt o ["a"] (.bool true) ∧ LeafAt o ["b", "c"] (.str "y") ∧ ¬ LeafAt o ["a"] (.str "x") := by
  obtain ⟨o, h, -, hl⟩ := c107_object fmtNum numOk (ms := .cons "a" (.str "x") (.cons "b" (.obj (.cons "c" (.str "y") .nil)) (.cons "a" (.bool true) .nil)))
    (decodes_utf8 _) (isText_render ⟨trivial, ⟨trivial, trivial⟩, trivial, trivial⟩) (by simp [JVal.depth, JMems.depth]) (by simp [JVal.nums, JMems.nums])
  refine ⟨o, h, (hl _ _).2 ⟨.bool true, .here ⟨[("a", .str "x"), ("b", .obj (.cons "c" (.str "y") .nil))], [], rfl, by simp⟩, nofun, rfl⟩,
    (hl _ _).2 ⟨.str "y", .into (o := .cons "c" (.str "y") .nil) ⟨[("a", .str "x")], [("a", .bool true)], rfl, by simp⟩ (.here ⟨[], [], rfl, by simp⟩), nofun, rfl⟩, ?_⟩
  intro hx
  obtain ⟨w, hw, -, e⟩ := (hl _ _).1 hx
  cases hw with
  | here hm =>
    rcases lastMember_cons.1 hm with hm | ⟨-, -, hn⟩
    · rcases lastMember_cons.1 hm with hm | ⟨h, -⟩
      · rcases lastMember_cons.1 hm with hm | ⟨-, rfl, -⟩
        · exact not_lastMember_nil hm
        · cases e
      · revert h; decide
    · exact hn (by decide)
  | into _ h => cases h

/-! ## the collection, indexed -/

/-- the object that StringToObject makes of a document. -/
def docObj (d : Doc) : JObj JLeaf :=
  .leaf "Id" (.str d.id) (.leaf "Title" (.str d.title) (.leaf "Summary" (.str d.summary) (.leaf "Author" (.str d.author) .nil)))

theorem stringToObject_line (d : Doc) : stringToObject numOk fmtNum d.line = some (docObj d) := by
  have h := parse_line d
  unfold stringToObject
  show (Json.parse (chars d.line)).bind _ = _
  rw [h]
  rfl

theorem objects_eq (docs : List Doc) : objects numOk fmtNum (criarArquivo docs) = some (docs.map docObj) := by
  unfold objects
  rw [(c105_round_trip docs).2]
  induction docs with
  | nil => rfl
  | cons d docs ih => rw [List.map_cons, List.mapM_cons, stringToObject_line, ih]; rfl

theorem docObj_plain (d : Doc) : (docObj d).WF ∧ PlainKeys (docObj d) := by
  refine ⟨?_, ?_⟩
  · unfold docObj; simp [JObj.WF, JObj.topKeys]
  · unfold docObj
    exact ⟨by decide, by decide, by decide, by decide, trivial⟩

theorem leafAt_docObj (d : Doc) (p : List String) (v : JLeaf) : LeafAt (docObj d) p v ↔
    (p = ["Id"] ∧ v = .str d.id) ∨ (p = ["Title"] ∧ v = .str d.title) ∨ (p = ["Summary"] ∧ v = .str d.summary) ∨ (p = ["Author"] ∧ v = .str d.author) := by
  constructor
  · intro h
    unfold docObj at h
    cases h with
    | here => exact .inl ⟨rfl, rfl⟩
    | skipLeaf _ _ _ _ _ h => cases h with
      | here => exact .inr (.inl ⟨rfl, rfl⟩)
      | skipLeaf _ _ _ _ _ h => cases h with
        | here => exact .inr (.inr (.inl ⟨rfl, rfl⟩))
        | skipLeaf _ _ _ _ _ h => cases h with
          | here => exact .inr (.inr (.inr ⟨rfl, rfl⟩))
          | skipLeaf _ _ _ _ _ h => cases h
  · rintro (⟨rfl, rfl⟩ | ⟨rfl, rfl⟩ | ⟨rfl, rfl⟩ | ⟨rfl, rfl⟩)
    · exact .here ..
    · exact .skipLeaf _ _ _ _ _ (.here ..)
    · exact .skipLeaf _ _ _ _ _ (.skipLeaf _ _ _ _ _ (.here ..))
    · exact .skipLeaf _ _ _ _ _ (.skipLeaf _ _ _ _ _ (.skipLeaf _ _ _ _ _ (.here ..)))

/-- the text of a document's field. -/
def TextOf (d : Doc) (name text : String) : Prop :=
  (name = "Id" ∧ text = d.id) ∨ (name = "Title" ∧ text = d.title) ∨ (name = "Summary" ∧ text = d.summary) ∨ (name = "Author" ∧ text = d.author)

theorem hasTerm_docObj (env : TextEnv) (d : Doc) (name t : String) :
    HasTerm env (docObj d) name t ↔ ∃ text, TextOf d name text ∧ t ∈ termsOf env text := by
  unfold HasTerm
  constructor
  · rintro ⟨p, v, hl, rfl, ht⟩
    rcases (leafAt_docObj d p v).1 hl with ⟨rfl, rfl⟩ | ⟨rfl, rfl⟩ | ⟨rfl, rfl⟩ | ⟨rfl, rfl⟩
    · exact ⟨_, .inl ⟨rfl, rfl⟩, ht⟩
    · exact ⟨_, .inr (.inl ⟨rfl, rfl⟩), ht⟩
    · exact ⟨_, .inr (.inr (.inl ⟨rfl, rfl⟩)), ht⟩
    · exact ⟨_, .inr (.inr (.inr ⟨rfl, rfl⟩)), ht⟩
  · rintro ⟨text, h, ht⟩
    rcases h with ⟨rfl, rfl⟩ | ⟨rfl, rfl⟩ | ⟨rfl, rfl⟩ | ⟨rfl, rfl⟩
    · exact ⟨["Id"], .str d.id, (leafAt_docObj d _ _).2 (.inl ⟨rfl, rfl⟩), rfl, ht⟩
    · exact ⟨["Title"], .str d.title, (leafAt_docObj d _ _).2 (.inr (.inl ⟨rfl, rfl⟩)), rfl, ht⟩
    · exact ⟨["Summary"], .str d.summary, (leafAt_docObj d _ _).2 (.inr (.inr (.inl ⟨rfl, rfl⟩))), rfl, ht⟩
    · exact ⟨["Author"], .str d.author, (leafAt_docObj d _ _).2 (.inr (.inr (.inr ⟨rfl, rfl⟩))), rfl, ht⟩

theorem idOf_docObj (uuid : String) (d : Doc) (id : String) : IdOf uuid (docObj d) id ↔ id = if d.id = "" then uuid else d.id := by
  have hid : ∀ v, LeafAt (docObj d) ["Id"] v ↔ v = .str d.id := by
    intro v
    rw [leafAt_docObj]
    constructor
    · rintro (⟨-, h⟩ | ⟨h, -⟩ | ⟨h, -⟩ | ⟨h, -⟩)
      · exact h
      all_goals exact absurd h (by decide)
    · intro h; exact .inl ⟨rfl, h⟩
  unfold IdOf
  by_cases hd : d.id = ""
  · rw [if_pos hd]
    constructor
    · rintro (⟨v, hv, hn, -⟩ | ⟨-, h⟩)
      · rw [(hid v).1 hv] at hn; exact absurd hd hn
      · exact h
    · intro h; exact .inr ⟨fun v hv => by rw [(hid v).1 hv]; exact hd, h⟩
  · rw [if_neg hd]
    constructor
    · rintro (⟨v, hv, -, h⟩ | ⟨h, -⟩)
      · rw [(hid v).1 hv] at h; exact h
      · exact absurd (h _ ((hid _).2 rfl)) hd
    · intro h; exact .inl ⟨_, (hid _).2 rfl, hd, h⟩

theorem mem_zip (docs : List Doc) (uuids : List String) (e : String × JObj JLeaf) : e ∈ uuids.zip (docs.map docObj) ↔
    ∃ (i : Nat) (d : Doc) (uuid : String), docs[i]? = some d ∧ uuids[i]? = some uuid ∧ e = (uuid, docObj d) := by
  rw [List.mem_iff_getElem?]
  constructor
  · rintro ⟨i, h⟩
    rw [List.getElem?_zip_eq_some, List.getElem?_map] at h
    obtain ⟨h1, h2⟩ := h
    cases hd : docs[i]? with
    | none => rw [hd] at h2; cases h2
    | some d =>
      rw [hd] at h2
      refine ⟨i, d, e.1, hd, h1, ?_⟩
      cases h2' : e with
      | mk a b => rw [h2'] at h2; cases h2; rfl
  · rintro ⟨i, d, uuid, h1, h2, rfl⟩
    refine ⟨i, ?_⟩
    rw [List.getElem?_zip_eq_some, List.getElem?_map, h1]
    exact ⟨h2, rfl⟩

/-- **C108.** The collection, from the feed to a search: what CriarArquivo wrote, GetTextDocuments and StringToObject read; after the documents have
been indexed (in an empty Memory store, each with its own new uuid), a search returns exactly the documents that have a term of a query in the
field that the query names, under their own ids, or their uuids if the id is empty. -/
theorem c108_collection_searchable {F : Type} [GoFloat F] (env : TextEnv) (docs : List Doc) (uuids : List String) (_hu : uuids.length = docs.length) :
    ∃ objs, objects numOk fmtNum (criarArquivo docs) = some objs ∧
      (∃ out, IndexesAll env Memory.new (uuids.zip objs) out) ∧
      ∀ out, IndexesAll env Memory.new (uuids.zip objs) out → ∃ m, out = some m ∧
        ∀ (query : List (Query F)) (cpus : Nat) (l : Scores F), SState.Returns m.reads query cpus l → ∀ id, id ∈ l.map Prod.fst ↔
          ∃ (i : Nat) (d : Doc) (uuid : String), docs[i]? = some d ∧ uuids[i]? = some uuid ∧ id = (if d.id = "" then uuid else d.id) ∧
            ∃ q ∈ query, ∃ t ∈ q.terms, ∃ text, TextOf d q.fieldName text ∧ t ∈ termsOf env text := by
  refine ⟨docs.map docObj, objects_eq fmtNum numOk docs, c81_possible env _ _, fun out hi => ?_⟩
  have hmem := mem_zip docs uuids
  obtain ⟨m, hm, hs⟩ := c81_searchable (F := F) env (uuids.zip (docs.map docObj)) (fun e he => by
    obtain ⟨i, d, uuid, -, -, rfl⟩ := (hmem e).1 he
    exact docObj_plain d) hi
  refine ⟨m, hm, fun query cpus l hl id => ?_⟩
  rw [hs query cpus l hl id]
  constructor
  · rintro ⟨e, he, hid, q, hq, t, ht, hterm⟩
    obtain ⟨i, d, uuid, h1, h2, rfl⟩ := (hmem e).1 he
    exact ⟨i, d, uuid, h1, h2, (idOf_docObj uuid d id).1 hid, q, hq, t, ht, (hasTerm_docObj env d _ _).1 hterm⟩
  · rintro ⟨i, d, uuid, h1, h2, hid, q, hq, t, ht, hterm⟩
    exact ⟨_, (hmem _).2 ⟨i, d, uuid, h1, h2, rfl⟩, (idOf_docObj uuid d id).2 hid, q, hq, t, ht, (hasTerm_docObj env d _ _).2 hterm⟩


/-- … and in a Disk store, as mainxcrt does: between two calls, whatever the timers did, with a cache large enough. -/
theorem c108_disk {F : Type} [GoFloat F] (env : TextEnv) (docs : List Doc) (uuids : List String) (_hu : uuids.length = docs.length) :
    ∃ objs, objects numOk fmtNum (criarArquivo docs) = some objs ∧
      ∀ (as : List Disk.Act) (s : Disk), Disk.run {} (.open_ :: as) = some s → Disk.Act.open_ ∉ as → AllCalls env (uuids.zip objs) (Disk.calls as) →
        s.idle = true → CacheSuffices as →
        ∀ (query : List (Query F)) (cpus : Nat) (l : Scores F), SState.Returns s.reads query cpus l → ∀ id, id ∈ l.map Prod.fst ↔
          ∃ (i : Nat) (d : Doc) (uuid : String), docs[i]? = some d ∧ uuids[i]? = some uuid ∧ id = (if d.id = "" then uuid else d.id) ∧
            ∃ q ∈ query, ∃ t ∈ q.terms, ∃ text, TextOf d q.fieldName text ∧ t ∈ termsOf env text := by
  refine ⟨docs.map docObj, objects_eq fmtNum numOk docs, fun as s h ho hc hi hn query cpus l hl id => ?_⟩
  have hmem := mem_zip docs uuids
  rw [c81_disk (F := F) env (uuids.zip (docs.map docObj)) (fun e he => by
    obtain ⟨i, d, uuid, -, -, rfl⟩ := (hmem e).1 he
    exact docObj_plain d) h ho hc hi hn query hl id]
  constructor
  · rintro ⟨e, he, hid, q, hq, t, ht, hterm⟩
    obtain ⟨i, d, uuid, h1, h2, rfl⟩ := (hmem e).1 he
    exact ⟨i, d, uuid, h1, h2, (idOf_docObj uuid d id).1 hid, q, hq, t, ht, (hasTerm_docObj env d _ _).1 hterm⟩
  · rintro ⟨i, d, uuid, h1, h2, hid, q, hq, t, ht, hterm⟩
    exact ⟨_, (hmem _).2 ⟨i, d, uuid, h1, h2, rfl⟩, (idOf_docObj uuid d id).2 hid, q, hq, t, ht, (hasTerm_docObj env d _ _).2 hterm⟩


/-! ## GetDocuments on any file -/

/-- the name of a field, in lower case. -/
def DField.name : DField → List Char
  | .id => ['i', 'd']
  | .title => ['t', 'i', 't', 'l', 'e']
  | .summary => ['s', 'u', 'm', 'm', 'a', 'r', 'y']
  | .author => ['a', 'u', 't', 'h', 'o', 'r']

/-- the text of a field. -/
def Doc.text (d : Doc) : DField → String
  | .id => d.id
  | .title => d.title
  | .summary => d.summary
  | .author => d.author

theorem docFields_iff {k : String} {f : DField} : fieldFor docFields k = some f ↔ SameName k f.name :=
  fieldFor_iff docFields DField.name (by decide) (by decide) (by decide) (by intro f; cases f <;> decide) k f

theorem setField_text (d : Doc) (f g : DField) (s : String) : (d.setField f s).text g = if f = g then s else d.text g := by
  cases f <;> cases g <;> rfl

theorem doc_ext {d e : Doc} (h : ∀ f, d.text f = e.text f) : d = e := by
  cases d; cases e
  have h1 := h .id; have h2 := h .title; have h3 := h .summary; have h4 := h .author
  simp only [Doc.text] at h1 h2 h3 h4
  rw [h1, h2, h3, h4]

theorem decode_doc (ms : JMems) (d : Doc) : decode docFields Doc.setField {} ms = some d ↔ Describes DField.name ms d.text :=
  decode_describes setField_text doc_ext (fun _ _ => docFields_iff) (by intro f; cases f <;> rfl) ms d

theorem decodeLine_iff {bs : List UInt8} {l : List Char} (hu : Decodes bs l) (d : Doc) : decodeLine bs = some d ↔ (∃ ms, IsText (.obj ms) l ∧ (JVal.obj ms).depth ≤ 10000 ∧ Describes DField.name ms d.text) ∨ (IsText .null l ∧ d = {}) := by
  unfold decodeLine
  rw [chars_of_decodes hu]
  show (Json.parse l).bind _ = _ ↔ _
  simp only [← decode_doc]
  cases hp : Json.parse l with
  | none =>
    constructor
    · intro h; cases h
    · rintro (⟨ms, h, hd, -⟩ | ⟨h, -⟩)
      · rw [parse_of h hd] at hp; cases hp
      · rw [parse_of h (Nat.zero_le _)] at hp; cases hp
  | some v =>
    obtain ⟨ht, hdep⟩ := parse_iff.1 hp
    constructor
    · intro h
      cases v with
      | null => injection h with h; exact .inr ⟨ht, h.symm⟩
      | obj ms => exact .inl ⟨ms, ht, hdep, h⟩
      | bool _ => cases h
      | num _ => cases h
      | str _ => cases h
      | arr _ => cases h
    · rintro (⟨ms, h, -, h'⟩ | ⟨h, rfl⟩)
      · have := isText_unique h ht
        subst this
        exact h'
      · have := isText_unique h ht
        subst this
        rfl

theorem mapM_forall₂ {α β : Type} {f : α → Option β} {R : α → β → Prop} (h : ∀ a b, f a = some b ↔ R a b) : ∀ (l : List α) (m : List β),
    l.mapM f = some m ↔ List.Forall₂ R l m
  | [], m => by
    rw [List.mapM_nil]
    constructor
    · intro h; injection h with h; subst h; exact .nil
    · intro h; cases h; rfl
  | a :: l, m => by
    rw [List.mapM_cons]
    have ih := mapM_forall₂ h l
    constructor
    · intro hm
      cases ha : f a with
      | none => rw [ha] at hm; cases hm
      | some b =>
        cases hl : l.mapM f with
        | none => rw [ha, hl] at hm; cases hm
        | some bs =>
          rw [ha, hl] at hm
          have hm : some (b :: bs) = some m := hm
          injection hm with hm
          subst hm
          exact .cons ((h a b).1 ha) ((ih bs).1 hl)
    · intro hf
      cases hf with
      | cons h1 h2 => rw [(h a _).2 h1, (ih _).2 h2]; rfl

theorem utf8_newline {l : List Char} (h : '\n' ∉ l) : (10 : UInt8) ∉ utf8 l := by
  unfold utf8
  intro h'
  obtain ⟨c, hc, hb⟩ := List.mem_flatMap.1 h'
  exact ten_not_mem (fun e => h (e ▸ hc)) hb

theorem readLines_lines' (rest : List UInt8) (hr : (10 : UInt8) ∉ rest) (lines : List (List UInt8)) (hl : ∀ l ∈ lines, (10 : UInt8) ∉ l) :
    readLines [] ((lines.flatMap fun l => l ++ [10]) ++ rest) = lines.map fun l => l ++ [10] := by
  induction lines with
  | nil => exact readLines_rest hr []
  | cons l lines ih =>
    rw [List.flatMap_cons, List.append_assoc, List.append_assoc]
    show readLines [] (l ++ 10 :: ((lines.flatMap fun l => l ++ [10]) ++ rest)) = _
    rw [readLines_body (hl l (List.mem_cons_self ..)), ih fun l hl' => hl l (List.mem_cons_of_mem _ hl'), List.map_cons]
    rfl

/-- every file is a sequence of lines that end in a newline, and a rest without one. -/
theorem c109_every_file (file : List UInt8) : ∃ (lines : List (List UInt8)) (rest : List UInt8), (∀ l ∈ lines, (10 : UInt8) ∉ l) ∧ (10 : UInt8) ∉ rest ∧
    file = (lines.flatMap fun l => l ++ [10]) ++ rest := by
  induction file with
  | nil => exact ⟨[], [], (fun l hl => by cases hl), List.not_mem_nil, rfl⟩
  | cons b file ih =>
    obtain ⟨lines, rest, hl, hr, rfl⟩ := ih
    by_cases hb : b = 10
    · subst hb
      refine ⟨[] :: lines, rest, fun l h => ?_, hr, rfl⟩
      rcases List.mem_cons.1 h with rfl | h
      · exact List.not_mem_nil
      · exact hl l h
    · cases lines with
      | nil =>
        refine ⟨[], b :: rest, (fun l hl => by cases hl), fun h => ?_, rfl⟩
        rcases List.mem_cons.1 h with e | h
        · exact hb e.symm
        · exact hr h
      | cons l lines =>
        refine ⟨(b :: l) :: lines, rest, fun l' h => ?_, hr, rfl⟩
        rcases List.mem_cons.1 h with rfl | h
        · intro h
          rcases List.mem_cons.1 h with e | h
          · exact hb e.symm
          · exact hl l (List.mem_cons_self ..) h
        · exact hl l' (List.mem_cons_of_mem _ h)

/-- **C109.** GetDocuments on any file, whoever wrote it: it returns documents if and only if every line (with its newline) is the JSON text of
an object, nested at most 10000 deep, that describes a document (or null), and then these, in order; otherwise it panics. A member counts for a field whatever
the case of its key, members with other keys do not matter, null leaves a field alone, and a field without a member is empty. Bytes that are no UTF-8 count as
U+FFFD. What does not end in a newline is dropped. -/
theorem c109_get_documents (lines : List (List UInt8)) (rest : List UInt8) (hl : ∀ l ∈ lines, (10 : UInt8) ∉ l) (hr : (10 : UInt8) ∉ rest) (docs : List Doc) :
    getDocuments ((lines.flatMap fun l => l ++ [10]) ++ rest) = some docs ↔
      List.Forall₂ (fun l d => ∃ s, Decodes (l ++ [10]) s ∧
        ((∃ ms, IsText (.obj ms) s ∧ (JVal.obj ms).depth ≤ 10000 ∧ Describes DField.name ms d.text) ∨ (IsText .null s ∧ d = {}))) lines docs := by
  unfold getDocuments
  rw [readLines_lines' rest hr lines hl, mapM_forall₂ (fun a b => Iff.rfl)]
  rw [List.forall₂_map_left_iff]
  have : ∀ (l : List UInt8) (d : Doc), decodeLine (l ++ [10]) = some d ↔ ∃ s, Decodes (l ++ [10]) s ∧
        ((∃ ms, IsText (.obj ms) s ∧ (JVal.obj ms).depth ≤ 10000 ∧ Describes DField.name ms d.text) ∨ (IsText .null s ∧ d = {})) := by
    intro l d
    constructor
    · intro h; exact ⟨_, decodes_chars _, (decodeLine_iff (decodes_chars _) d).1 h⟩
    · rintro ⟨s, hu, h⟩; exact (decodeLine_iff hu d).2 h
  simp only [this]


/-- keys in another case and a byte that is no UTF-8; a line that is null; and something after the last newline. -/
example : getDocuments (([[123, 34, 73, 68, 34, 58, 34, 49, 255, 34, 125], [110, 117, 108, 108]].flatMap fun l => l ++ [10]) ++ [123]) =
    some [{ id := String.ofList ['1', '\uFFFD'] }, {}] := by
  have d1 : Decodes ([123, 34, 73, 68, 34, 58, 34, 49, 255, 34, 125] ++ [10]) ['{', '"', 'I', 'D', '"', ':', '"', '1', '\uFFFD', '"', '}', '\n'] := by
    refine .char '{' (.char '"' (.char 'I' (.char 'D' (.char '"' (.char ':' (.char '"' (.char '1' (bs := [255, 34, 125, 10]) (.bad 255 (fun c rest e => ?_)
      (.char '"' (.char '}' (.char '\n' .nil)))))))))))
    have h := decodeChar_encode c rest
    rw [← e, show ByteArray.utf8DecodeChar? [255, 34, 125, 10].toByteArray 0 = none from by decide] at h
    cases h
  have d2 : Decodes ([110, 117, 108, 108] ++ [10]) ['n', 'u', 'l', 'l', '\n'] := .char 'n' (.char 'u' (.char 'l' (.char 'l' (.char '\n' .nil))))
  refine (c109_get_documents _ _ (by decide) (by decide) _).2 (.cons ⟨_, d1, .inl ⟨.cons (String.ofList ['I', 'D']) (.str (String.ofList ['1', '\uFFFD'])) .nil,
    parseText_iff.1 (by rfl), by simp [JVal.depth, JMems.depth], ?_⟩⟩ (.cons ⟨_, d2, .inr ⟨parseText_iff.1 (by rfl), rfl⟩⟩ .nil))
  have hf : fieldFor docFields (String.ofList ['I', 'D']) = some .id := docFields_iff.2 (by
    unfold SameName
    rw [String.toList_ofList]
    exact .cons (.inr (.inl (by decide))) (.cons (.inr (.inl (by decide))) .nil))
  refine (decode_doc _ _).1 ?_
  simp only [decode, hf]; rfl

/-- **C108, other files.** A line that is no JSON text of an object (or null), or that is nested too deep or has a number out of range, makes mainxcrt panic. -/
theorem c108_bad_line (lines : List (List UInt8)) (rest : List UInt8) (hl : ∀ l ∈ lines, (10 : UInt8) ∉ l) (hr : (10 : UInt8) ∉ rest) {l : List UInt8} (h : l ∈ lines)
    {s : List Char} (hu : Decodes (l ++ [10]) s)
    (h1 : ∀ ms, IsText (.obj ms) s → 10000 < (JVal.obj ms).depth ∨ ∃ lit ∈ (JVal.obj ms).nums, numOk lit = false) (h2 : ¬ IsText .null s) :
    objects numOk fmtNum ((lines.flatMap fun l => l ++ [10]) ++ rest) = none := by
  unfold objects getTextDocuments
  rw [readLines_lines' rest hr lines hl]
  exact mapM_none _ (List.mem_map.2 ⟨l, h, rfl⟩) (c107_panic fmtNum numOk hu h1 h2)

end Collection
end Goir
