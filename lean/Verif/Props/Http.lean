import Verif.Model.Http
import Verif.Props.Text
import Verif.Props.Search
import Verif.Props.NaN
/-!
# C69, C70: the HTTP handlers
-/
namespace Goir
open GoMap Http

/-! ### C69 -/

/-- **C69 is false**: the handler of GET /nir panics exactly if the search has 1 to 9 hits. -/
theorem c69_any_number_of_hits_refuted {F : Type} (rs : Scores F) : respond rs = none ↔ 1 ≤ rs.length ∧ rs.length ≤ 9 := by
  unfold respond sliceTo
  simp only [List.length_map]
  split
  · simp; omega
  · by_cases h : 10 ≤ rs.length
    · simp [h]; omega
    · simp [h]; omega

/-- … and such a request exists: one document, one matching query; whatever the schedule, the client gets no response. -/
theorem c69_panics_refuted : ∃ (h : List StoreOp) (q : String), ∀ cpus out, Gets (F := ℝ) demoEnv (Memory.run h).reads cpus q out → out = none := by
  refine ⟨exHistory, "t", fun cpus out ⟨terms, rs, h1, h2, h3⟩ => ?_⟩
  subst h3
  have ht : terms = ["t"] := by
    have : Text.preprocessing demoEnv "t" = some ["t"] := by decide
    rw [this] at h1; exact (Option.some.inj h1).symm
  subst ht
  rw [c69_any_number_of_hits_refuted]
  have hm := c60_sound_complete exHistory (by decide) _ cpus h2
  obtain ⟨hn, -⟩ := c59_result (memory_consistent _) _ cpus h2
  have hd : "d" ∈ rs.map Prod.fst := (hm "d").2 ⟨_, List.mem_cons_self, "t", by simp, _, List.mem_cons_self, rfl, rfl, rfl, by decide⟩
  have hall : ∀ x ∈ rs.map Prod.fst, x = "d" := by
    intro x hx
    obtain ⟨q, hq, t, ht, op, hop, -, hdoc, hf, htk⟩ := (hm x).1 hx
    have ht' : t = "t" := by
      simp only [queries, List.mem_cons, List.not_mem_nil, or_false] at hq
      rcases hq with rfl | rfl <;> simpa using ht
    subst ht'
    simp only [exHistory, List.mem_cons, List.not_mem_nil, or_false] at hop
    rcases hop with rfl | rfl
    · exact hdoc.symm
    · simp [StoreOp.field, GoMap.keys] at htk
  have : rs.length = 1 := by
    have hl : (rs.map Prod.fst).length = 1 := by
      match hr : rs.map Prod.fst with
      | [] => rw [hr] at hd; cases hd
      | [a] => rfl
      | a :: b :: _ =>
        rw [hr] at hn hall
        have h1 := hall a (by simp)
        have h2 := hall b (by simp)
        subst h1; subst h2
        simp at hn
    simpa using hl
  omega

/-- **C69, what holds.** With no hit the answer says so; with ten hits or more it has the first ten of the ranking, and the total 10. -/
theorem c69_none_or_many_partial {F : Type} (rs : Scores F) (h : rs.length = 0 ∨ 10 ≤ rs.length) :
    ∃ r, respond rs = some r ∧ r.queryResults = rs.take 10 ∧ r.total = min 10 rs.length ∧ r.queryResults.length = min 10 rs.length := by
  rcases h with h | h
  · refine ⟨{ total := rs.length, algorithm := "B25F", semanticSearch := false, queryResults := [] }, by simp [respond, h], ?_, ?_, ?_⟩
    · rw [List.length_eq_zero_iff.1 h]; rfl
    · simp [h]
    · simp [h]
  · refine ⟨{ total := 10, algorithm := "BM25", semanticSearch := false, queryResults := rs.take 10 }, ?_, rfl, ?_, ?_⟩
    · have : ¬ rs.length = 0 := by omega
      simp only [respond, sliceTo, this, if_false, List.length_map, h, if_true]
      simp
    · simp; omega
    · simp

/-- **C69, what holds.** If GET /nir answers with results, they are the best: over the reals, a document that the queries match and that is
not in the answer has no greater score than any in the answer; and the answer has no document twice. -/
theorem c69_best_partial (env : TextEnv) {st : Reads} (hst : st.Consistent) (cpus : Nat) (q : String) {r : Response ℝ}
    (h : Gets env st cpus q (some r)) : ∃ terms, Text.preprocessing env q = some terms ∧
      (r.queryResults.map Prod.fst).Nodup ∧ r.queryResults.length = r.total ∧
      (∀ d x, (d, x) ∈ r.queryResults → docScores (F := ℝ) st (queries terms) d ≠ [] ∧ x = (docScores (F := ℝ) st (queries terms) d).sum) ∧
      (r.queryResults.Pairwise fun a b => b.2 ≤ a.2) ∧
      ∀ d, docScores (F := ℝ) st (queries terms) d ≠ [] → d ∉ r.queryResults.map Prod.fst →
        ∀ e ∈ r.queryResults, (docScores (F := ℝ) st (queries terms) d).sum ≤ e.2 := by
  obtain ⟨terms, rs, h1, h2, h3⟩ := h
  have hlen : rs.length = 0 ∨ 10 ≤ rs.length := by
    have : respond rs ≠ none := by rw [← h3]; simp
    rw [ne_eq, c69_any_number_of_hits_refuted] at this
    omega
  obtain ⟨r', hr', hq, ht, hl⟩ := c69_none_or_many_partial rs hlen
  rw [hr'] at h3
  cases h3
  obtain ⟨a1, a2, a3⟩ := c59_ranking hst (queries terms) cpus h2
  refine ⟨terms, h1, ?_, by omega, fun d x hx => (a2 d x).1 ?_, ?_, fun d hd hn e he => ?_⟩
  · rw [hq, List.map_take]; exact a1.sublist (List.take_sublist _ _)
  · rw [hq] at hx; exact (List.take_sublist _ _).subset hx
  · rw [hq]; exact a3.sublist (List.take_sublist _ _)
  · have hin := (a2 d _).2 ⟨hd, rfl⟩
    rw [hq] at hn he
    rw [← List.take_append_drop 10 rs] at hin a3
    rcases List.mem_append.1 hin with hin | hin
    · exact absurd (List.mem_map.2 ⟨_, hin, rfl⟩) hn
    · exact (List.pairwise_append.1 a3).2.2 e he _ hin

/-! ### C70 -/

/-- the terms of a text. -/
def termsOf (env : TextEnv) (text : String) : List String := (Text.preprocessing env text).getD []

theorem preprocessing_some (env : TextEnv) (text : String) : Text.preprocessing env text = some (termsOf env text) := by
  unfold termsOf; rw [c05_preprocessing_per_token]; rfl

/-- the three fields of a document. -/
def fieldsOf (env : TextEnv) (doc : Document) : List Field :=
  [Text.makeField "id" (termsOf env doc.id), Text.makeField "title" (termsOf env doc.title), Text.makeField "text" (termsOf env doc.text)]

/-- the calls that a request makes on the store. -/
def callsOf (env : TextEnv) : Option Document → List StoreOp
  | none => []
  | some doc => if doc.id = "" then [] else (fieldsOf env doc).map (.save doc.id)

theorem post_eq (env : TextEnv) (h : List StoreOp) (body : Option Document) :
    post env (Memory.run h) body = some (Memory.run (h ++ callsOf env body),
      match body with | none => 400 | some doc => if doc.id = "" then 400 else 201) := by
  cases body with
  | none => simp [post, callsOf]
  | some doc =>
    by_cases hid : doc.id = ""
    · simp [post, callsOf, isNotDocumentComplete, hid]
    · simp only [post, isNotDocumentComplete, beq_iff_eq, hid, if_false, preprocessing_some, bind, Option.bind, pure, callsOf]
      simp only [Option.some.injEq, Prod.mk.injEq, and_true]
      simp [Memory.run, Memory.indexDocument, fieldsOf, List.foldl_append, Memory.apply]

theorem mem_makeField (name : String) (p : List String) (t : String) : t ∈ (Text.makeField name p).tf.keys ↔ t ∈ p := by
  show t ∈ (termFrequency p).keys ↔ _
  rw [← GoMap.get?_isSome_iff, (c08_term_frequency p).1]
  split <;> simp [*]

/-- **C70.** A request whose body is not a document, or whose document has the empty id, is answered with 400 and changes nothing. -/
theorem c70_rejected (env : TextEnv) (m : Memory) (body : Option Document) (h : ∀ doc, body = some doc → doc.id = "") :
    post env m body = some (m, 400) := by
  cases body with
  | none => rfl
  | some doc => simp [post, isNotDocumentComplete, h doc rfl]

/-- **C70.** Any other request is answered with 201 (and never panics); afterwards GetDocuments has, besides what it had, exactly the new
document under the terms of its id, title and text, and GetFields finds its three new fields and everything else as before. -/
theorem c70_indexes_three_fields (env : TextEnv) (h : List StoreOp) (doc : Document) (hid : doc.id ≠ "") :
    ∃ m', post env (Memory.run h) (some doc) = some (m', 201) ∧
      (∀ name t d, GoSet.contains (m'.getDocuments name t).1 d = true ↔
        GoSet.contains ((Memory.run h).getDocuments name t).1 d = true ∨
        (d = doc.id ∧ ((name = "id" ∧ t ∈ termsOf env doc.id) ∨ (name = "title" ∧ t ∈ termsOf env doc.title) ∨
          (name = "text" ∧ t ∈ termsOf env doc.text)))) ∧
      (m'.getFields [doc.id] "id").get? doc.id = some (Text.makeField "id" (termsOf env doc.id)) ∧
      (m'.getFields [doc.id] "title").get? doc.id = some (Text.makeField "title" (termsOf env doc.title)) ∧
      (m'.getFields [doc.id] "text").get? doc.id = some (Text.makeField "text" (termsOf env doc.text)) ∧
      (∀ d name, ¬ (d = doc.id ∧ (name = "id" ∨ name = "title" ∨ name = "text")) →
        (m'.getFields [d] name).get? d = ((Memory.run h).getFields [d] name).get? d) := by
  refine ⟨Memory.run (h ++ callsOf env (some doc)), by rw [post_eq]; simp only [hid, if_false], ?_, ?_, ?_, ?_, ?_⟩
  · intro name t d
    rw [(c13_memory_postings_exact _ _ _).1, (c13_memory_postings_exact _ _ _).1]
    unfold Spec.Posted
    simp only [List.mem_append, or_and_right, exists_or, callsOf, hid, if_false]
    apply or_congr Iff.rfl
    constructor
    · rintro ⟨op, hop, h1, h2, h3⟩
      simp only [fieldsOf, List.map_cons, List.map_nil, List.mem_cons, List.not_mem_nil, or_false] at hop
      rcases hop with rfl | rfl | rfl
      · exact ⟨h1.symm, .inl ⟨h2.symm, (mem_makeField _ _ _).1 h3⟩⟩
      · exact ⟨h1.symm, .inr (.inl ⟨h2.symm, (mem_makeField _ _ _).1 h3⟩)⟩
      · exact ⟨h1.symm, .inr (.inr ⟨h2.symm, (mem_makeField _ _ _).1 h3⟩)⟩
    · rintro ⟨rfl, ⟨rfl, ht⟩ | ⟨rfl, ht⟩ | ⟨rfl, ht⟩⟩
      · exact ⟨.save doc.id (Text.makeField "id" _), by simp [fieldsOf], rfl, rfl, (mem_makeField _ _ _).2 ht⟩
      · exact ⟨.save doc.id (Text.makeField "title" _), by simp [fieldsOf], rfl, rfl, (mem_makeField _ _ _).2 ht⟩
      · exact ⟨.save doc.id (Text.makeField "text" _), by simp [fieldsOf], rfl, rfl, (mem_makeField _ _ _).2 ht⟩
  all_goals
    try simp only [c14_memory_getFields_latest, List.mem_singleton, if_true, callsOf, hid, if_false, fieldsOf, List.map_cons, List.map_nil]
  · simp [Spec.lastSaved, StoreOp.isSave, StoreOp.doc, StoreOp.field, Text.makeField]
  · simp [Spec.lastSaved, StoreOp.isSave, StoreOp.doc, StoreOp.field, Text.makeField]
  · simp [Spec.lastSaved, StoreOp.isSave, StoreOp.doc, StoreOp.field, Text.makeField]
  · intro d name hn
    unfold Spec.lastSaved
    rw [List.reverse_append, List.findSome?_append]
    have : List.findSome? (fun op : StoreOp => if op.isSave = true ∧ op.doc = d ∧ op.field.name = name then some op.field else none)
        [StoreOp.save doc.id (Text.makeField "id" (termsOf env doc.id)), .save doc.id (Text.makeField "title" (termsOf env doc.title)),
          .save doc.id (Text.makeField "text" (termsOf env doc.text))].reverse = none := by
      rw [List.findSome?_eq_none_iff]
      intro op hop
      rw [if_neg]
      rintro ⟨-, h2, h3⟩
      apply hn
      simp only [List.mem_reverse, List.mem_cons, List.not_mem_nil, or_false] at hop
      rcases hop with rfl | rfl | rfl
      · exact ⟨h2.symm, .inl h3.symm⟩
      · exact ⟨h2.symm, .inr (.inl h3.symm)⟩
      · exact ⟨h2.symm, .inr (.inr h3.symm)⟩
    rw [this]; rfl

/-- serve a list of POST requests, starting from the empty store. -/
def servePosts (env : TextEnv) (bodies : List (Option Document)) : Option Memory :=
  bodies.foldlM (fun m b => (post env m b).map Prod.fst) Memory.new

theorem servePosts_eq (env : TextEnv) (bodies : List (Option Document)) :
    servePosts env bodies = some (Memory.run (bodies.flatMap (callsOf env))) := by
  have : ∀ (bodies : List (Option Document)) h, bodies.foldlM (fun m b => (post env m b).map Prod.fst) (Memory.run h) =
      some (Memory.run (h ++ bodies.flatMap (callsOf env))) := by
    intro bodies
    induction bodies with
    | nil => intro h; simp
    | cons b bodies ih =>
      intro h
      rw [List.foldlM_cons, post_eq]
      simp only [Option.map_some, Option.bind_eq_bind, Option.bind_some]
      rw [ih, List.flatMap_cons, List.append_assoc]
  exact this bodies []

/-- **C70, end to end.** After any sequence of POST requests on an empty store the server is still running, and, whatever the schedule, the search
of GET /nir?query=q returns `d` iff an accepted request with id `d` had a title or a text that shares a term with `q`. -/
theorem c70_searchable {F : Type} [GoFloat F] (env : TextEnv) (bodies : List (Option Document)) :
    ∃ m, servePosts env bodies = some m ∧ ∀ (q : String) (cpus : Nat) (l : Scores F),
      SState.Returns m.reads (queries (termsOf env q)) cpus l → ∀ d, d ∈ l.map Prod.fst ↔
        ∃ doc, some doc ∈ bodies ∧ doc.id = d ∧ d ≠ "" ∧ ∃ t ∈ termsOf env q, t ∈ termsOf env doc.title ∨ t ∈ termsOf env doc.text := by
  refine ⟨_, servePosts_eq env bodies, fun q cpus l hl d => ?_⟩
  have hsave : ∀ op ∈ bodies.flatMap (callsOf env), op.isSave = true := by
    intro op hop
    obtain ⟨b, -, hb⟩ := List.mem_flatMap.1 hop
    cases b with
    | none => cases hb
    | some doc =>
      simp only [callsOf] at hb
      split at hb
      · cases hb
      · obtain ⟨f, -, rfl⟩ := List.mem_map.1 hb; rfl
  rw [c60_sound_complete _ hsave _ cpus hl d]
  constructor
  · rintro ⟨qu, hqu, t, ht, op, hop, -, h1, h2, h3⟩
    obtain ⟨b, hb, hob⟩ := List.mem_flatMap.1 hop
    cases b with
    | none => cases hob
    | some doc =>
      simp only [callsOf] at hob
      split at hob
      · cases hob
      · rename_i hid
        simp only [queries, List.mem_cons, List.not_mem_nil, or_false] at hqu
        simp only [fieldsOf, List.map_cons, List.map_nil, List.mem_cons, List.not_mem_nil, or_false] at hob
        have hd : doc.id = d := by rcases hob with rfl | rfl | rfl <;> exact h1
        refine ⟨doc, hb, hd, hd ▸ hid, t, ?_, ?_⟩
        · rcases hqu with rfl | rfl <;> exact ht
        · rcases hob with rfl | rfl | rfl
          · rcases hqu with rfl | rfl <;> simp [StoreOp.field, Text.makeField] at h2
          · exact .inl ((mem_makeField _ _ _).1 h3)
          · exact .inr ((mem_makeField _ _ _).1 h3)
  · rintro ⟨doc, hb, rfl, hid, t, ht, hc⟩
    rcases hc with hc | hc
    · refine ⟨⟨"title", GoFloat.lit 1, termsOf env q⟩, by simp [queries], t, ht,
        .save doc.id (Text.makeField "title" (termsOf env doc.title)), List.mem_flatMap.2 ⟨_, hb, ?_⟩, rfl, rfl, rfl, (mem_makeField _ _ _).2 hc⟩
      simp [callsOf, hid, fieldsOf]
    · refine ⟨⟨"text", GoFloat.lit 1, termsOf env q⟩, by simp [queries], t, ht,
        .save doc.id (Text.makeField "text" (termsOf env doc.text)), List.mem_flatMap.2 ⟨_, hb, ?_⟩, rfl, rfl, rfl, (mem_makeField _ _ _).2 hc⟩
      simp [callsOf, hid, fieldsOf]

/-- **C70 and C68.** A store filled through POST /nir never gives a score other than a finite number. -/
theorem c68_http_finite (env : TextEnv) (bodies : List (Option Document)) :
    Spec.GoValues (bodies.flatMap (callsOf env)) ∧ Sane (bodies.flatMap (callsOf env)) := by
  have hop : ∀ op ∈ bodies.flatMap (callsOf env), ∃ d name p, op = .save d (Text.makeField name p) := by
    intro op hop
    obtain ⟨b, -, hb⟩ := List.mem_flatMap.1 hop
    cases b with
    | none => cases hb
    | some doc =>
      simp only [callsOf] at hb
      split at hb
      · cases hb
      · simp only [fieldsOf, List.map_cons, List.map_nil, List.mem_cons, List.not_mem_nil, or_false] at hb
        rcases hb with rfl | rfl | rfl <;> exact ⟨_, _, _, rfl⟩
  refine ⟨fun op ho => ?_, fun op ho => ?_, fun op ho t n ht => ?_, fun op ho => ?_⟩
  · obtain ⟨d, name, p, rfl⟩ := hop op ho; exact (c08_field_length name p).2.1
  · obtain ⟨d, name, p, rfl⟩ := hop op ho; rfl
  · obtain ⟨d, name, p, rfl⟩ := hop op ho
    have hw : (Text.makeField name p).tf.WF := (c08_field_length name p).2.1
    have := (c08_field_length name p).2.2 t n ((GoMap.get?_eq_some_iff hw _ _).2 ht)
    omega
  · obtain ⟨d, name, p, rfl⟩ := hop op ho
    refine ⟨by simp [StoreOp.field, Text.makeField], fun hne => ?_⟩
    cases p with
    | nil => exact absurd rfl hne
    | cons a p => simp [StoreOp.field, Text.makeField]

example : ∃ m, servePosts demoEnv [some ⟨"7", "The Cat", "sat"⟩, some ⟨"", "x", "y"⟩, none] = some m ∧
    (m.getDocuments "title" "cat").2 = true ∧ (m.getDocuments "title" "x").2 = false := ⟨_, rfl, by decide, by decide⟩

end Goir
