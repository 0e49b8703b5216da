import Verif.Props.Collection
/-!
# C113: any file of JSON objects, from its bytes to a search
-/
namespace Goir
open Collection Json Spec

namespace Collection

/-- no key on the way to any value is empty or has a dot in it. -/
def PlainMembers (ms : JMems) : Prop := ∀ p w, ValueAt ms p w → ∀ k ∈ p, k ≠ "" ∧ '.' ∉ k.toList

/-- the text with which package fmt presents a value to the index; C82 says what its terms are. -/
def printed (fmtNum : List Char → String) (w : JVal) : String := (w.toLeaf fmtNum).sprintS

/-- the id under which an object is indexed: what is printed for the value at the key `Id`, unless there is none or it is empty. -/
def IdIn (fmtNum : List Char → String) (uuid : String) (ms : JMems) (id : String) : Prop :=
  (∃ w, ValueAt ms ["Id"] w ∧ NotObject w ∧ printed fmtNum w ≠ "" ∧ id = printed fmtNum w) ∨
  ((∀ w, ValueAt ms ["Id"] w → NotObject w → printed fmtNum w = "") ∧ id = uuid)

/-- the value that the object has along the path `name` has the term `t`. -/
def HasTermAt (env : TextEnv) (fmtNum : List Char → String) (ms : JMems) (name t : String) : Prop :=
  ∃ p w, ValueAt ms p w ∧ NotObject w ∧ name = dotted p ∧ t ∈ termsOf env (printed fmtNum w)

/-- the line (with its newline) is the JSON text of the object, or of null for the empty object, and within the limits of encoding/json. -/
def LineOf (numOk : List Char → Bool) (l : List UInt8) (ms : JMems) : Prop :=
  ∃ s, Decodes (l ++ [10]) s ∧ ((IsText (.obj ms) s ∧ (JVal.obj ms).depth ≤ 10000 ∧ ∀ lit ∈ (JVal.obj ms).nums, numOk lit = true) ∨ (IsText .null s ∧ ms = .nil))

variable (fmtNum : List Char → String) (numOk : List Char → Bool)

theorem toObj_plain : ∀ ms : JMems, PlainMembers ms → PlainKeys (ms.toObj fmtNum)
  | .nil, _ => by simp only [JMems.toObj]; trivial
  | .cons k (.obj o) ms, h => by
    have hms : PlainMembers ms := by
      intro p w hp
      apply h p w
      cases hp with
      | here hp => exact .here (lastMember_cons.2 (.inl hp))
      | into hp h' => exact .into (lastMember_cons.2 (.inl hp)) h'
    have ih := toObj_plain ms hms
    by_cases hk : k ∈ ms.keys
    · rw [toObj_drop fmtNum hk]; exact ih
    · rw [toObj_sub fmtNum hk]
      have hl : LastMember (.cons k (.obj o) ms) k (.obj o) := lastMember_cons.2 (.inr ⟨rfl, rfl, hk⟩)
      exact ⟨h [k] _ (.here hl) k (List.mem_cons_self ..), toObj_plain o (fun p w hp j hj => h (k :: p) w (.into hl hp) j (List.mem_cons_of_mem _ hj)), ih⟩
  | .cons k .null ms, h => leafCase k .null ms (fun _ h => nomatch h) h (toObj_plain ms)
  | .cons k (.bool b) ms, h => leafCase k (.bool b) ms (fun _ h => nomatch h) h (toObj_plain ms)
  | .cons k (.num l) ms, h => leafCase k (.num l) ms (fun _ h => nomatch h) h (toObj_plain ms)
  | .cons k (.str s) ms, h => leafCase k (.str s) ms (fun _ h => nomatch h) h (toObj_plain ms)
  | .cons k (.arr es) ms, h => leafCase k (.arr es) ms (fun _ h => nomatch h) h (toObj_plain ms)
where
  leafCase (k : String) (v : JVal) (ms : JMems) (hv : NotObject v) (h : PlainMembers (.cons k v ms)) (ih : PlainMembers ms → PlainKeys (ms.toObj fmtNum)) :
      PlainKeys ((JMems.cons k v ms).toObj fmtNum) := by
    have ih := ih (by
      intro p w hp
      apply h p w
      cases hp with
      | here hp => exact .here (lastMember_cons.2 (.inl hp))
      | into hp h' => exact .into (lastMember_cons.2 (.inl hp)) h')
    by_cases hk : k ∈ ms.keys
    · rw [toObj_drop fmtNum hk]; exact ih
    · rw [toObj_leaf fmtNum hv hk]
      exact ⟨h [k] _ (.here (lastMember_cons.2 (.inr ⟨rfl, rfl, hk⟩))) k (List.mem_cons_self ..), ih⟩

theorem idOf_toObj (uuid : String) (ms : JMems) (id : String) : IdOf uuid (ms.toObj fmtNum) id ↔ IdIn fmtNum uuid ms id := by
  have hs := (toObj_spec fmtNum ms).2
  unfold IdOf IdIn printed
  constructor
  · rintro (⟨v, hv, h1, h2⟩ | ⟨h, e⟩)
    · obtain ⟨w, hw, hn, rfl⟩ := (hs _ _).1 hv
      exact .inl ⟨w, hw, hn, h1, h2⟩
    · exact .inr ⟨fun w hw hn => h _ ((hs _ _).2 ⟨w, hw, hn, rfl⟩), e⟩
  · rintro (⟨w, hw, hn, h1, h2⟩ | ⟨h, e⟩)
    · exact .inl ⟨_, (hs _ _).2 ⟨w, hw, hn, rfl⟩, h1, h2⟩
    · refine .inr ⟨fun v hv => ?_, e⟩
      obtain ⟨w, hw, hn, rfl⟩ := (hs _ _).1 hv
      exact h w hw hn

theorem hasTerm_toObj (env : TextEnv) (ms : JMems) (name t : String) : HasTerm env (ms.toObj fmtNum) name t ↔ HasTermAt env fmtNum ms name t := by
  have hs := (toObj_spec fmtNum ms).2
  unfold HasTerm HasTermAt printed
  constructor
  · rintro ⟨p, v, hv, h1, h2⟩
    obtain ⟨w, hw, hn, rfl⟩ := (hs _ _).1 hv
    exact ⟨p, w, hw, hn, h1, h2⟩
  · rintro ⟨p, w, hw, hn, h1, h2⟩
    exact ⟨p, _, (hs _ _).2 ⟨w, hw, hn, rfl⟩, h1, h2⟩

theorem stringToObject_lineOf {l : List UInt8} {ms : JMems} (h : LineOf numOk l ms) : stringToObject numOk fmtNum (l ++ [10]) = some (ms.toObj fmtNum) := by
  obtain ⟨s, hu, ⟨ht, hd, hn⟩ | ⟨ht, rfl⟩⟩ := h
  · rw [stringToObject_text fmtNum numOk hu ht, if_pos ⟨hd, hn⟩]
  · rw [c107_null fmtNum numOk hu ht]; simp only [JMems.toObj]

theorem objects_lines (lines : List (List UInt8)) (rest : List UInt8) (hl : ∀ l ∈ lines, (10 : UInt8) ∉ l) (hr : (10 : UInt8) ∉ rest) {mss : List JMems}
    (h : List.Forall₂ (LineOf numOk) lines mss) :
    objects numOk fmtNum ((lines.flatMap fun l => l ++ [10]) ++ rest) = some (mss.map fun ms => ms.toObj fmtNum) := by
  unfold objects getTextDocuments
  rw [readLines_lines' rest hr lines hl, mapM_forall₂ (fun a b => Iff.rfl), List.forall₂_map_left_iff, List.forall₂_map_right_iff]
  exact h.imp fun l ms h => stringToObject_lineOf fmtNum numOk h

theorem mem_zip_map {α β : Type} (f : α → β) (docs : List α) (uuids : List String) (e : String × β) : e ∈ uuids.zip (docs.map f) ↔
    ∃ (i : Nat) (d : α) (uuid : String), docs[i]? = some d ∧ uuids[i]? = some uuid ∧ e = (uuid, f d) := by
  rw [List.mem_iff_getElem?]
  constructor
  · rintro ⟨i, h⟩
    rw [List.getElem?_zip_eq_some, List.getElem?_map] at h
    obtain ⟨h1, h2⟩ := h
    cases hd : docs[i]? with
    | none => rw [hd] at h2; cases h2
    | some d =>
      rw [hd] at h2
      refine ⟨i, d, e.1, hd, h1, ?_⟩
      cases h2' : e with
      | mk a b => rw [h2'] at h2; cases h2; rfl
  · rintro ⟨i, d, uuid, h1, h2, rfl⟩
    refine ⟨i, ?_⟩
    rw [List.getElem?_zip_eq_some, List.getElem?_map, h1]
    exact ⟨h2, rfl⟩

end Collection

variable (fmtNum : List Char → String) (numOk : List Char → Bool)

/-- **C113.** Any file whose lines are JSON objects (or null) with plain keys: mainxcrt reads it without a panic, and after the objects have been indexed, each
with its own new uuid, a search returns exactly the ids of the lines that have, at the path that a query names, a value with a term of that query. -/
theorem c113_searchable {F : Type} [GoFloat F] (env : TextEnv) (lines : List (List UInt8)) (rest : List UInt8) (hl : ∀ l ∈ lines, (10 : UInt8) ∉ l)
    (hr : (10 : UInt8) ∉ rest) (mss : List JMems) (h : List.Forall₂ (LineOf numOk) lines mss) (hp : ∀ ms ∈ mss, PlainMembers ms)
    (uuids : List String) (_hu : uuids.length = lines.length) :
    ∃ objs, objects numOk fmtNum ((lines.flatMap fun l => l ++ [10]) ++ rest) = some objs ∧
      (∃ out, IndexesAll env Memory.new (uuids.zip objs) out) ∧
      ∀ out, IndexesAll env Memory.new (uuids.zip objs) out → ∃ m, out = some m ∧
        ∀ (query : List (Query F)) (cpus : Nat) (l : Scores F), SState.Returns m.reads query cpus l → ∀ id, id ∈ l.map Prod.fst ↔
          ∃ (i : Nat) (ms : JMems) (uuid : String), mss[i]? = some ms ∧ uuids[i]? = some uuid ∧ IdIn fmtNum uuid ms id ∧
            ∃ q ∈ query, ∃ t ∈ q.terms, HasTermAt env fmtNum ms q.fieldName t := by
  refine ⟨_, objects_lines fmtNum numOk lines rest hl hr h, c81_possible env _ _, fun out hi => ?_⟩
  have hmem := mem_zip_map (fun ms : JMems => ms.toObj fmtNum) mss uuids
  obtain ⟨m, hm, hs⟩ := c81_searchable (F := F) env _ (fun e he => by
    obtain ⟨i, ms, uuid, h1, -, rfl⟩ := (hmem e).1 he
    exact ⟨(toObj_spec fmtNum ms).1, toObj_plain fmtNum ms (hp ms (List.mem_of_getElem? h1))⟩) hi
  refine ⟨m, hm, fun query cpus l hl id => ?_⟩
  rw [hs query cpus l hl id]
  constructor
  · rintro ⟨e, he, hid, q, hq, t, ht, hterm⟩
    obtain ⟨i, ms, uuid, h1, h2, rfl⟩ := (hmem e).1 he
    exact ⟨i, ms, uuid, h1, h2, (idOf_toObj fmtNum uuid ms id).1 hid, q, hq, t, ht, (hasTerm_toObj fmtNum env ms _ _).1 hterm⟩
  · rintro ⟨i, ms, uuid, h1, h2, hid, q, hq, t, ht, hterm⟩
    exact ⟨_, (hmem _).2 ⟨i, ms, uuid, h1, h2, rfl⟩, (idOf_toObj fmtNum uuid ms id).2 hid, q, hq, t, ht, (hasTerm_toObj fmtNum env ms _ _).2 hterm⟩

/-- … and in a Disk store, as mainxcrt does: between two calls, whatever the timers did, with a cache large enough. -/
theorem c113_disk {F : Type} [GoFloat F] (env : TextEnv) (lines : List (List UInt8)) (rest : List UInt8) (hl : ∀ l ∈ lines, (10 : UInt8) ∉ l)
    (hr : (10 : UInt8) ∉ rest) (mss : List JMems) (h : List.Forall₂ (LineOf numOk) lines mss) (hp : ∀ ms ∈ mss, PlainMembers ms)
    (uuids : List String) (_hu : uuids.length = lines.length) :
    ∃ objs, objects numOk fmtNum ((lines.flatMap fun l => l ++ [10]) ++ rest) = some objs ∧
      ∀ (as : List Disk.Act) (s : Disk), Disk.run {} (.open_ :: as) = some s → Disk.Act.open_ ∉ as → AllCalls env (uuids.zip objs) (Disk.calls as) →
        s.idle = true → CacheSuffices as →
        ∀ (query : List (Query F)) (cpus : Nat) (l : Scores F), SState.Returns s.reads query cpus l → ∀ id, id ∈ l.map Prod.fst ↔
          ∃ (i : Nat) (ms : JMems) (uuid : String), mss[i]? = some ms ∧ uuids[i]? = some uuid ∧ IdIn fmtNum uuid ms id ∧
            ∃ q ∈ query, ∃ t ∈ q.terms, HasTermAt env fmtNum ms q.fieldName t := by
  refine ⟨_, objects_lines fmtNum numOk lines rest hl hr h, fun as s h ho hc hi hn query cpus l hl id => ?_⟩
  have hmem := mem_zip_map (fun ms : JMems => ms.toObj fmtNum) mss uuids
  rw [c81_disk (F := F) env _ (fun e he => by
    obtain ⟨i, ms, uuid, h1, -, rfl⟩ := (hmem e).1 he
    exact ⟨(toObj_spec fmtNum ms).1, toObj_plain fmtNum ms (hp ms (List.mem_of_getElem? h1))⟩) h ho hc hi hn query hl id]
  constructor
  · rintro ⟨e, he, hid, q, hq, t, ht, hterm⟩
    obtain ⟨i, ms, uuid, h1, h2, rfl⟩ := (hmem e).1 he
    exact ⟨i, ms, uuid, h1, h2, (idOf_toObj fmtNum uuid ms id).1 hid, q, hq, t, ht, (hasTerm_toObj fmtNum env ms _ _).1 hterm⟩
  · rintro ⟨i, ms, uuid, h1, h2, hid, q, hq, t, ht, hterm⟩
    exact ⟨_, (hmem _).2 ⟨i, ms, uuid, h1, h2, rfl⟩, (idOf_toObj fmtNum uuid ms id).2 hid, q, hq, t, ht, (hasTerm_toObj fmtNum env ms _ _).2 hterm⟩

/-- the text of a string is the string itself. -/
theorem c113_string (s : String) : NotObject (.str s) ∧ printed fmtNum (.str s) = s :=
  ⟨nofun, by simp [printed, JVal.toLeaf, JLeaf.sprintS, JLeaf.printV]⟩

/-- `{"Id":"p","a":{"b":"red"}}`, a line that meets the hypotheses, found by its value two levels down. -/
def c113Members : JMems := .cons "Id" (.str "p") (.cons "a" (.obj (.cons "b" (.str "red") .nil)) .nil)

example : (∃ l, (10 : UInt8) ∉ l ∧ LineOf numOk l c113Members) ∧ PlainMembers c113Members ∧ IdIn fmtNum "u" c113Members "p" ∧
    HasTermAt demoEnv fmtNum c113Members "a.b" "red" := by
  have key : ∀ {ms : JMems} {k : String} {v : JVal}, LastMember ms k v → (k, v) ∈ ms.toList := fun h => by
    obtain ⟨b, a, e, -⟩ := h
    rw [e]; simp
  have h1 : ValueAt c113Members ["Id"] (.str "p") := .here (lastMember_cons.2 (.inr ⟨rfl, rfl, by decide⟩))
  have h2 : ValueAt c113Members ["a", "b"] (.str "red") :=
    .into (o := .cons "b" (.str "red") .nil) (lastMember_cons.2 (.inl (lastMember_cons.2 (.inr ⟨rfl, rfl, by decide⟩)))) (.here (lastMember_cons.2 (.inr ⟨rfl, rfl, by decide⟩)))
  refine ⟨⟨utf8 (render (.obj c113Members)), ?_, render (.obj c113Members) ++ ['\n'], ?_, .inl ⟨?_, ?_, ?_⟩⟩, ?_, ?_, ?_⟩
  · refine utf8_newline ?_
    have : render (.obj c113Members) = ['{', '"', 'I', 'd', '"', ':', '"', 'p', '"', ',', '"', 'a', '"', ':', '{', '"', 'b', '"', ':', '"', 'r', 'e', 'd', '"', '}', '}'] := by
      simp [c113Members, render, renderMems, quote]; decide
    rw [this]; decide
  · have := decodes_utf8 (render (.obj c113Members) ++ ['\n'])
    rwa [utf8_append] at this
  · exact parseText_iff.1 (parseText_render (.obj c113Members) ⟨trivial, ⟨trivial, trivial⟩, trivial⟩ ['\n'] (.inr rfl))
  · simp [c113Members, JVal.depth, JMems.depth]
  · simp [c113Members, JVal.nums, JMems.nums]
  · intro p w hp k hk
    cases hp with
    | here h =>
      have := key h
      simp [c113Members, JMems.toList] at this
      rw [List.mem_singleton.1 hk]
      rcases this with ⟨rfl, -⟩ | ⟨rfl, -⟩ <;> decide
    | into h h' =>
      have := key h
      simp [c113Members, JMems.toList] at this
      obtain ⟨rfl, rfl⟩ := this
      rcases List.mem_cons.1 hk with rfl | hk
      · decide
      · cases h' with
        | here h' =>
          have := key h'
          simp [JMems.toList] at this
          rw [List.mem_singleton.1 hk, this.1]
          decide
        | into h' _ =>
          have := key h'
          simp [JMems.toList] at this
  · refine .inl ⟨_, h1, nofun, ?_, ?_⟩
    · rw [(c113_string fmtNum _).2]; decide
    · rw [(c113_string fmtNum _).2]
  · refine ⟨_, _, h2, nofun, rfl, ?_⟩
    rw [(c113_string fmtNum _).2]; decide

end Goir
