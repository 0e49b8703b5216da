import Verif.Model.Bind
import Verif.Props.Collection
import Verif.Props.Http
/-!
# C110: the bodies of POST requests
-/
namespace Goir
open Http Json Spec

namespace Http

/-- the names of the fields. -/
def HField.name : HField → List Char
  | .id => ['i', 'd']
  | .title => ['t', 'i', 't', 'l', 'e']
  | .text => ['t', 'e', 'x', 't']

/-- the text of a field. -/
def Document.get (d : Document) : HField → String
  | .id => d.id
  | .title => d.title
  | .text => d.text

/-- the body begins (after white space) with the JSON text of an object, nested at most 10000 deep, that describes the document; anything may follow. -/
def Carries (s : List Char) (doc : Document) : Prop :=
  ∃ w t rest ms, IsSpace w ∧ IsValue (.obj ms) t ∧ (JVal.obj ms).depth ≤ 10000 ∧ s = w ++ (t ++ rest) ∧ Describes HField.name ms doc.get

theorem docFields_iff {k : String} {f : HField} : fieldFor docFields k = some f ↔ SameName k f.name :=
  fieldFor_iff docFields HField.name (by decide) (by decide) (by decide) (by intro f; cases f <;> decide) k f

theorem decode_document (ms : JMems) (d : Document) : decode docFields Document.setField ⟨"", "", ""⟩ ms = some d ↔ Describes HField.name ms d.get :=
  decode_describes (text := Document.get) (fun d f g s => by cases f <;> cases g <;> rfl) (fun {d e} h => by
    cases d; cases e
    have h1 := h .id; have h2 := h .title; have h3 := h .text
    simp only [Document.get] at h1 h2 h3
    rw [h1, h2, h3]) (fun _ _ => docFields_iff) (by intro f; cases f <;> rfl) ms d

/-- an object is read whatever follows it. -/
theorem pvalue_obj {ms : JMems} {t : List Char} (h : IsValue (.obj ms) t) {fuel : Nat} (hl : t.length < fuel) (r : List Char) :
    pvalue fuel (t ++ r) = some (.obj ms, r) := by
  obtain ⟨f, rfl⟩ : ∃ f, fuel = f + 1 := ⟨fuel - 1, by omega⟩
  have im := (parser_of f).2.2
  cases h with
  | @objNil w hw =>
    have e : '{' :: (w ++ ['}']) ++ r = '{' :: (w ++ '}' :: r) := by simp
    rw [e]
    unfold pvalue
    simp only
    rw [ws_append hw, ws_of (by decide)]
    rfl
  | @obj ms t h =>
    have e : '{' :: (t ++ ['}']) ++ r = '{' :: (t ++ '}' :: r) := by simp
    have hi := im ms t h (by simp at hl; omega) r
    obtain ⟨q, hc⟩ := mems_head h ('}' :: r)
    rw [e]
    unfold pvalue
    simp only
    rw [hc] at hi ⊢
    split
    · rename_i heq; injection heq with e1; exact absurd e1 (by decide)
    · rw [hi]; rfl

theorem bind_carries {bs : List UInt8} {s : List Char} (hu : Decodes bs s) {doc : Document} (h : Carries s doc) : shouldBindJSON bs = some doc := by
  obtain ⟨w, t, rest, ms, hw, ht, hdep, rfl, hd⟩ := h
  unfold shouldBindJSON
  rw [Collection.chars_of_decodes hu]
  show Option.bind (pvalue _ _) _ = _
  rw [ws_append hw, ws_value ht, pvalue_obj ht (by simp; omega) rest]
  show (if (JVal.obj ms).depth > Json.maxDepth then none else _) = _
  rw [if_neg (show ¬ (JVal.obj ms).depth > Json.maxDepth from Nat.not_lt.2 hdep)]
  exact (decode_document ms doc).2 hd

theorem carries_bind {bs : List UInt8} {s : List Char} (hu : Decodes bs s) {doc : Document} (h : shouldBindJSON bs = some doc) (hid : doc.id ≠ "") : Carries s doc := by
  unfold shouldBindJSON at h
  rw [Collection.chars_of_decodes hu] at h
  have h : Option.bind (pvalue (2 * s.length + 2) (ws s)) _ = some doc := h
  cases hp : pvalue (2 * s.length + 2) (ws s) with
  | none => rw [hp] at h; cases h
  | some p =>
    rw [hp] at h
    obtain ⟨v, rest⟩ := p
    obtain ⟨t, ht, e⟩ := (parser_sound _).1 _ _ _ hp
    obtain ⟨w, hw, e'⟩ := ws_split s
    have h : (if v.depth > Json.maxDepth then none else _) = some doc := h
    by_cases hdep : v.depth > Json.maxDepth
    · rw [if_pos hdep] at h; cases h
    rw [if_neg hdep] at h
    have hdep := Nat.not_lt.1 hdep
    cases v with
    | obj ms =>
      have h : decode docFields Document.setField ⟨"", "", ""⟩ ms = some doc := h
      exact ⟨w, t, rest, ms, hw, ht, hdep, by rw [← e, ← e'], (decode_document ms doc).1 h⟩
    | null => injection h with h; exact absurd (by rw [← h]) hid
    | bool _ => cases h
    | num _ => cases h
    | str _ => cases h
    | arr _ => cases h

end Http

/-- **C110.** A body that begins with the JSON object of a document with a non-empty id is answered 201, and exactly the terms of that document are added
under its id, as C70 says; every other body is answered 400, and nothing changes. -/
theorem c110_post (env : TextEnv) (h : List StoreOp) {body : List UInt8} {s : List Char} (hu : Decodes body s) :
    (∀ doc, Carries s doc → doc.id ≠ "" → ∃ m', postBody env (Memory.run h) body = some (m', 201) ∧
      (∀ name t d, GoSet.contains (m'.getDocuments name t).1 d = true ↔
        GoSet.contains ((Memory.run h).getDocuments name t).1 d = true ∨
        (d = doc.id ∧ ((name = "id" ∧ t ∈ termsOf env doc.id) ∨ (name = "title" ∧ t ∈ termsOf env doc.title) ∨
          (name = "text" ∧ t ∈ termsOf env doc.text))))) ∧
    ((∀ doc, Carries s doc → doc.id = "") → postBody env (Memory.run h) body = some (Memory.run h, 400)) := by
  constructor
  · intro doc hc hid
    obtain ⟨m', h1, h2, -⟩ := c70_indexes_three_fields env h doc hid
    refine ⟨m', ?_, h2⟩
    unfold postBody
    rw [bind_carries hu hc, h1]
  · intro hn
    unfold postBody
    refine c70_rejected env _ _ fun doc hd => ?_
    by_cases hid : doc.id = ""
    · exact hid
    · exact hn doc (carries_bind hu hd hid)

/-- a body has one document. -/
theorem c110_unique {s : List Char} {d e : Document} (h1 : Carries s d) (h2 : Carries s e) : d = e := by
  have := (bind_carries (Collection.decodes_utf8 s) h1).symm.trans (bind_carries (Collection.decodes_utf8 s) h2)
  injection this

/-- a sequence of requests with bodies. -/
def serveBodies (env : TextEnv) (bodies : List (List UInt8)) : Option Memory :=
  bodies.foldlM (fun m b => (postBody env m b).map Prod.fst) Memory.new

/-- **C110, searching.** After any sequence of POST requests, a search of GET /nir returns exactly the ids of the documents at the beginnings of the bodies that
have a term of the query in the title or the text. -/
theorem c110_searchable {F : Type} [GoFloat F] (env : TextEnv) (bodies : List (List UInt8)) :
    ∃ m, serveBodies env bodies = some m ∧ ∀ (q : String) (cpus : Nat) (l : Scores F),
      SState.Returns m.reads (queries (termsOf env q)) cpus l → ∀ d, d ∈ l.map Prod.fst ↔
        ∃ body ∈ bodies, ∃ s doc, Decodes body s ∧ Carries s doc ∧ doc.id = d ∧ d ≠ "" ∧ ∃ t ∈ termsOf env q, t ∈ termsOf env doc.title ∨ t ∈ termsOf env doc.text := by
  obtain ⟨m, hm, hs⟩ := c70_searchable (F := F) env (bodies.map shouldBindJSON)
  refine ⟨m, ?_, fun q cpus l hl d => ?_⟩
  · rw [← hm]
    unfold serveBodies servePosts
    rw [List.foldlM_map]
    rfl
  · rw [hs q cpus l hl d]
    constructor
    · rintro ⟨doc, hmem, hid, hne, hx⟩
      obtain ⟨s, hs', e⟩ := List.mem_map.1 hmem
      exact ⟨s, hs', _, doc, Collection.decodes_chars _, carries_bind (Collection.decodes_chars _) e (by rw [hid]; exact hne), hid, hne, hx⟩
    · rintro ⟨s, hs', _, doc, hu, hc, hid, hne, hx⟩
      exact ⟨doc, List.mem_map.2 ⟨s, hs', bind_carries hu hc⟩, hid, hne, hx⟩

/-- **C110, refuted part.** What follows the first object is ignored: a request with two documents is answered 201, and the store is that of the first document alone. -/
theorem c110_rest_refuted (env : TextEnv) (m : Memory) {w t : List Char} {ms : JMems} (hw : IsSpace w) (ht : IsValue (.obj ms) t) (rest : List Char) :
    postBody env m (Collection.utf8 (w ++ (t ++ rest))) = postBody env m (Collection.utf8 t) := by
  have key : ∀ w rest, IsSpace w → shouldBindJSON (Collection.utf8 (w ++ (t ++ rest))) =
      if (JVal.obj ms).depth > Json.maxDepth then none else decode docFields Document.setField ⟨"", "", ""⟩ ms := by
    intro w rest hw
    unfold shouldBindJSON
    rw [Collection.chars_utf8]
    show Option.bind (pvalue _ _) _ = _
    rw [ws_append hw, ws_value ht, pvalue_obj ht (by simp; omega) rest]
    rfl
  unfold postBody
  have e := key [] [] (fun c hc => by cases hc)
  rw [List.append_nil, List.nil_append] at e
  rw [key w rest hw, e]


/-- two documents in one body, with keys in other cases: the first one is taken. -/
def c110Body : List Char := ['{', '"', 'I', 'd', '"', ':', '"', '1', '"', ',', '"', 'T', 'E', 'X', 'T', '"', ':', '"', 'r', 'e', 'd', '"', '}', '{', '"', 'i', 'd', '"', ':', '"', '2', '"', '}']

theorem c110Body_carries : Carries c110Body ⟨String.ofList ['1'], "", String.ofList ['r', 'e', 'd']⟩ := by
  have h1 : fieldFor docFields (String.ofList ['I', 'd']) = some .id := docFields_iff.2 (by
    unfold SameName
    rw [String.toList_ofList]
    exact .cons (.inr (.inl (by decide))) (.cons (.inl rfl) .nil))
  have h2 : fieldFor docFields (String.ofList ['T', 'E', 'X', 'T']) = some .text := docFields_iff.2 (by
    unfold SameName
    rw [String.toList_ofList]
    exact .cons (.inr (.inl (by decide))) (.cons (.inr (.inl (by decide))) (.cons (.inr (.inl (by decide))) (.cons (.inr (.inl (by decide))) .nil))))
  have hp : pvalue 30 c110Body = some (.obj (.cons (String.ofList ['I', 'd']) (.str (String.ofList ['1']))
      (.cons (String.ofList ['T', 'E', 'X', 'T']) (.str (String.ofList ['r', 'e', 'd'])) .nil)), ['{', '"', 'i', 'd', '"', ':', '"', '2', '"', '}']) := by rfl
  obtain ⟨t, ht, e⟩ := (parser_sound 30).1 _ _ _ hp
  refine ⟨[], t, _, _, (fun c hc => by cases hc), ht, by simp [JVal.depth, JMems.depth], e, (decode_document _ _).1 ?_⟩
  simp only [decode, h1, h2]
  rfl

example (env : TextEnv) : ∃ m', postBody env (Memory.run []) (Collection.utf8 c110Body) = some (m', 201) := by
  obtain ⟨m', h, -⟩ := (c110_post env [] (Collection.decodes_utf8 c110Body)).1 _ c110Body_carries (by
    intro e
    have := congrArg String.toList e
    rw [String.toList_ofList] at this
    revert this; decide)
  exact ⟨m', h⟩

end Goir
