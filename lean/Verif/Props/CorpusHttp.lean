import Verif.Props.Corpus
import Verif.Props.Strconv
/-!
# C126: from the bytes of the requests to the bytes of the ranking

POST requests with bodies of bytes, one after the other, each id once; then GET /nir with a query string of bytes.  The body of the answer lists ten documents with numbers that are BM25 of the
posted texts, up to the errors of float64.
-/
namespace Goir
namespace Http
open Spec Json Strconv Text

variable {L : MathLog}

/-- the documents that a sequence of bodies carries, in their order; bodies that carry no document with an id are skipped. -/
inductive Accepts : List (List UInt8) → List Document → Prop
  | nil : Accepts [] []
  | doc {body : List UInt8} {s : List Char} {d : Document} {bodies : List (List UInt8)} {docs : List Document} (hu : Decodes body s) (hc : Carries s d) (hid : d.id ≠ "")
      (h : Accepts bodies docs) : Accepts (body :: bodies) (d :: docs)
  | skip {body : List UInt8} {s : List Char} {bodies : List (List UInt8)} {docs : List Document} (hu : Decodes body s) (hc : ∀ d, Carries s d → d.id = "")
      (h : Accepts bodies docs) : Accepts (body :: bodies) docs

/-- the texts of a document that GET /nir searches and the one of its id, cut into words. -/
def textsOf (words : String → List String) (d : Document) : List Entry := [⟨d.id, "id", words d.id⟩, ⟨d.id, "title", words d.title⟩, ⟨d.id, "text", words d.text⟩]

theorem callsOf_texts (env : TextEnv) {d : Document} (hid : d.id ≠ "") : callsOf env (some d) = savesOf (textsOf (termsOf env) d) := by
  exact if_neg hid

/-- every sequence of bodies carries one sequence of documents, and these are what is saved. -/
theorem accepts_calls (env : TextEnv) {bodies : List (List UInt8)} {docs : List Document} (h : Accepts bodies docs) :
    (bodies.map shouldBindJSON).flatMap (callsOf env) = savesOf (docs.flatMap (textsOf (termsOf env))) ∧ ∀ d ∈ docs, d.id ≠ "" := by
  induction h with
  | nil => exact ⟨rfl, by simp⟩
  | doc hu hc hid h ih =>
    refine ⟨?_, fun d hd => ?_⟩
    · rw [List.map_cons, List.flatMap_cons, List.flatMap_cons, bind_carries hu hc, callsOf_texts env hid, ih.1]
      unfold savesOf; rw [List.map_append]
    · rcases List.mem_cons.1 hd with rfl | hd
      · exact hid
      · exact ih.2 d hd
  | @skip body s bodies docs hu hc h ih =>
    refine ⟨?_, ih.2⟩
    rw [List.map_cons, List.flatMap_cons, ih.1]
    have : callsOf env (shouldBindJSON body) = [] := by
      cases hb : shouldBindJSON body with
      | none => rfl
      | some d =>
        by_cases hid : d.id = ""
        · simp [callsOf, hid]
        · exact absurd (hc d (carries_bind hu hb hid)) hid
    rw [this, List.nil_append]

theorem accepts_total (bodies : List (List UInt8)) : ∃ docs, Accepts bodies docs := by
  induction bodies with
  | nil => exact ⟨[], .nil⟩
  | cons body bodies ih =>
    obtain ⟨docs, h⟩ := ih
    have hu := Collection.decodes_chars body
    by_cases hc : ∃ d, Carries (Collection.chars body) d ∧ d.id ≠ ""
    · obtain ⟨d, hc, hid⟩ := hc
      exact ⟨d :: docs, .doc hu hc hid h⟩
    · exact ⟨docs, .skip hu (fun d hd => by by_contra h; exact hc ⟨d, hd, h⟩) h⟩

/-- the BM25 score of a posted document for the words `q`: that of its title among the titles plus that of its text among the texts. -/
noncomputable def postedScore (words : String → List String) (docs : List Document) (q : List String) (d : Document) : ℝ :=
  textScore (docs.map fun x => words x.title) q (words d.title) + textScore (docs.map fun x => words x.text) q (words d.text)

/-- the title or the text of the document has a word of `q`. -/
def Hit (words : String → List String) (q : List String) (d : Document) : Prop := ∃ t ∈ q, t ∈ words d.title ∨ t ∈ words d.text

/-- the relative error of the printed scores, for so many documents and words in the query. -/
noncomputable def errorFor (docs : List Document) (q : List String) : ℝ := (16 * docs.length + 2 * q.length + 60) / 2^53

/-- the answer to a client who posted `docs` and asks for the words `q`. If no document has one of them, it says so. If ten or more have, the body lists ten different ones; the float64 nearest to the number
next to each is its BM25 score up to the error; the printed numbers do not increase; and no document, listed below or left out, has a BM25 score that exceeds that of a listed one by more than the errors. (If
one to nine have, there is no answer: the defect of C69.) -/
def Ranked (words : String → List String) (docs : List Document) (q : List String) (out : Option (Nat × List UInt8)) : Prop :=
  ((∀ d ∈ docs, ¬ Hit words q d) → ∃ body, out = some (200, body) ∧ Tells body 0 "B25F" none) ∧
  ((∃ ds : List Document, ds.Nodup ∧ ds.length = 10 ∧ ∀ d ∈ ds, d ∈ docs ∧ Hit words q d) → ∃ body rs, out = some (200, body) ∧ Tells body 10 "BM25" (some rs) ∧
    rs.length = 10 ∧ (rs.map Prod.fst).Nodup ∧
    (∀ r ∈ rs, ∃ d ∈ docs, d.id = r.1 ∧ Hit words q d ∧ ∃ neg p, Denotes r.2 neg p ∧
      |rnd64 (withSign neg p) - postedScore words docs q d| ≤ errorFor docs q * postedScore words docs q d) ∧
    (rs.Pairwise fun r r' => ∀ neg p neg' p', Denotes r.2 neg p → Denotes r'.2 neg' p' → withSign neg' p' ≤ withSign neg p) ∧
    (∀ (i j : Nat) (d d' : Document), d ∈ docs → d' ∈ docs → (rs.map Prod.fst)[i]? = some d.id → (rs.map Prod.fst)[j]? = some d'.id → i ≤ j →
      postedScore words docs q d' * (1 - errorFor docs q) ≤ postedScore words docs q d * (1 + errorFor docs q)) ∧
    ∀ d ∈ docs, d.id ∈ rs.map Prod.fst → ∀ d' ∈ docs, Hit words q d' → d'.id ∉ rs.map Prod.fst →
      postedScore words docs q d' * (1 - errorFor docs q) ≤ postedScore words docs q d * (1 + errorFor docs q)) ∧
  ((∃ d ∈ docs, Hit words q d) → (¬ ∃ ds : List Document, ds.Nodup ∧ ds.length = 10 ∧ ∀ d ∈ ds, d ∈ docs ∧ Hit words q d) → out = none)

/-! ### the texts of the posted documents -/

/-- all texts of the posted documents. -/
def posted (words : String → List String) (docs : List Document) : List Entry := docs.flatMap (textsOf words)

theorem posted_once (words : String → List String) {docs : List Document} (h : (docs.map Document.id).Nodup) : Once (posted words docs) := by
  unfold Once posted
  induction docs with
  | nil => simp
  | cons d docs ih =>
    rw [List.map_cons, List.nodup_cons] at h
    rw [List.flatMap_cons, List.map_append, List.nodup_append]
    refine ⟨by simp [textsOf], ih h.2, ?_⟩
    rintro ⟨a, f⟩ ha ⟨b, g⟩ hb heq
    obtain ⟨e, he, h1⟩ := List.mem_map.1 hb
    obtain ⟨x, hx, hxe⟩ := List.mem_flatMap.1 he
    have h2 : e.doc = x.id := by
      simp only [textsOf, List.mem_cons, List.not_mem_nil, or_false] at hxe
      rcases hxe with rfl | rfl | rfl <;> rfl
    have h3 : a = d.id := by
      simp only [textsOf, List.map_cons, List.map_nil, List.mem_cons, List.not_mem_nil, or_false, Prod.mk.injEq] at ha
      rcases ha with ⟨h, -⟩ | ⟨h, -⟩ | ⟨h, -⟩ <;> exact h
    simp only [Prod.mk.injEq] at h1 heq
    exact h.1 (List.mem_map.2 ⟨x, hx, by rw [← h2, h1.1, ← heq.1, h3]⟩)

theorem column_posted (words : String → List String) (docs : List Document) :
    column (posted words docs) "title" = docs.map (fun x => words x.title) ∧ column (posted words docs) "text" = docs.map (fun x => words x.text) := by
  unfold column posted
  induction docs with
  | nil => exact ⟨rfl, rfl⟩
  | cons d docs ih =>
    simp only [List.flatMap_cons, List.filter_append, List.map_append, List.map_cons, ih.1, ih.2]
    constructor <;> rfl

theorem hits_posted (words : String → List String) {docs : List Document} (q : List String) (id : String) :
    (Hits (posted words docs) "title" q id ↔ ∃ d ∈ docs, d.id = id ∧ ∃ t ∈ q, t ∈ words d.title) ∧
    (Hits (posted words docs) "text" q id ↔ ∃ d ∈ docs, d.id = id ∧ ∃ t ∈ q, t ∈ words d.text) := by
  unfold Hits posted
  constructor
  · constructor
    · rintro ⟨e, he, h1, h2, h3⟩
      obtain ⟨d, hd, hde⟩ := List.mem_flatMap.1 he
      simp only [textsOf, List.mem_cons, List.not_mem_nil, or_false] at hde
      rcases hde with rfl | rfl | rfl
      · exact absurd h2 (by simp)
      · exact ⟨d, hd, h1, h3⟩
      · exact absurd h2 (by simp)
    · rintro ⟨d, hd, h1, h3⟩
      exact ⟨⟨d.id, "title", words d.title⟩, List.mem_flatMap.2 ⟨d, hd, by simp [textsOf]⟩, h1, rfl, h3⟩
  · constructor
    · rintro ⟨e, he, h1, h2, h3⟩
      obtain ⟨d, hd, hde⟩ := List.mem_flatMap.1 he
      simp only [textsOf, List.mem_cons, List.not_mem_nil, or_false] at hde
      rcases hde with rfl | rfl | rfl
      · exact absurd h2 (by simp)
      · exact absurd h2 (by simp)
      · exact ⟨d, hd, h1, h3⟩
    · rintro ⟨d, hd, h1, h3⟩
      exact ⟨⟨d.id, "text", words d.text⟩, List.mem_flatMap.2 ⟨d, hd, by simp [textsOf]⟩, h1, rfl, h3⟩

theorem collectionScore_posted (words : String → List String) {docs : List Document} (h : (docs.map Document.id).Nodup) (q : List String) {d : Document} (hd : d ∈ docs) :
    collectionScore (L := L) (posted words docs) (queries q) d.id = postedScore words docs q d := by
  have ho := posted_once words h
  have c1 : ∀ (f : String) (w : List String), (⟨d.id, f, w⟩ : Entry) ∈ posted words docs → contribution (posted words docs) f 1 q d.id = textScore (column (posted words docs) f) q w := by
    intro f w hm
    unfold contribution
    rw [ho.filter hm]
    simp
  have m1 : (⟨d.id, "title", words d.title⟩ : Entry) ∈ posted words docs := List.mem_flatMap.2 ⟨d, hd, by simp [textsOf]⟩
  have m2 : (⟨d.id, "text", words d.text⟩ : Entry) ∈ posted words docs := List.mem_flatMap.2 ⟨d, hd, by simp [textsOf]⟩
  unfold collectionScore queries postedScore
  simp only [List.map_cons, List.map_nil, List.sum_cons, List.sum_nil, add_zero, lit64_one, Option.getD_some]
  rw [c1 _ _ m1, c1 _ _ m2, (column_posted words docs).1, (column_posted words docs).2]

/-- the collection is moderate: at most `2^40` documents and words in the query, and the words of all ids, all titles and all texts can be counted by a Go int. -/
structure Fair (words : String → List String) (docs : List Document) (q : List String) : Prop where
  many   : docs.length ≤ 2^40
  query  : q.length ≤ 2^40
  ids    : (docs.map fun x => (words x.id).length).sum < 2^63
  titles : (docs.map fun x => (words x.title).length).sum < 2^63
  texts  : (docs.map fun x => (words x.text).length).sum < 2^63

theorem column_other (words : String → List String) (docs : List Document) (f : String) (h1 : f ≠ "title") (h2 : f ≠ "text") :
    column (posted words docs) f = if f = "id" then docs.map (fun x => words x.id) else [] := by
  unfold column posted
  induction docs with
  | nil => simp
  | cons d docs ih =>
    simp only [List.flatMap_cons, List.filter_append, List.map_append, List.map_cons, ih]
    by_cases h : f = "id"
    · subst h; rfl
    · simp [textsOf, h, Ne.symm h1, Ne.symm h2, Ne.symm h]

theorem Fair.moderate {words : String → List String} {docs : List Document} {q : List String} (h : Fair words docs q) :
    Moderate (posted words docs) (queries (F := F64 L) q) docs.length q.length := by
  obtain ⟨c1, c2⟩ := column_posted words docs
  refine ⟨fun f => ?_, ?_, ?_, ?_, h.many, h.query, by show 2 ≤ 2^40; norm_num⟩
  · by_cases h1 : f = "title"
    · subst h1; rw [c1, List.map_map]; exact h.titles
    by_cases h2 : f = "text"
    · subst h2; rw [c2, List.map_map]; exact h.texts
    rw [column_other words docs f h1 h2]
    by_cases h3 : f = "id"
    · rw [if_pos h3, List.map_map]; exact h.ids
    · rw [if_neg h3]; simp
  · intro x hx
    simp only [queries, List.mem_cons, List.not_mem_nil, or_false] at hx
    rcases hx with rfl | rfl
    · rw [c1, List.length_map]
    · rw [c2, List.length_map]
  · intro x hx
    simp only [queries, List.mem_cons, List.not_mem_nil, or_false] at hx
    rcases hx with rfl | rfl <;> exact le_rfl
  · intro x hx
    simp only [queries, List.mem_cons, List.not_mem_nil, or_false] at hx
    have : (2:ℝ)^(-100:ℤ) ≤ 1 ∧ (1:ℝ) ≤ (2:ℝ)^(100:ℤ) := by constructor <;> norm_num
    rcases hx with rfl | rfl <;> exact ⟨1, lit64_one, .inr this⟩

theorem finite_of_toReal (D : Digits) {v : F64 L} {x : ℝ} (h : v.toReal = some x) : (D.printer L).finite v = true := by
  cases v with
  | nan => cases h
  | inf s => cases h
  | zero s => rfl
  | fin y hy hy0 => rfl

/-- a store that holds the posted documents answers with their ranking. -/
theorem ranked (D : Digits) (env : TextEnv) {docs : List Document} (hid : (docs.map Document.id).Nodup) {raw bs : List UInt8} {q : String} (ha : Asks raw bs)
    (hq : Decodes bs q.toList) (hf : Fair (termsOf env) docs (termsOf env q)) {st : Reads} (hst : st.Consistent) (hs : st.Alike (Memory.run (savesOf (posted (termsOf env) docs))).reads)
    {cpus : Nat} {out : Option (Nat × List UInt8)} (h : GetsBytes env (D.printer L) st cpus raw out) : Ranked (termsOf env) docs (termsOf env q) out := by
  obtain ⟨rs, hr, h0, h10, -, h9⟩ := c114_answer env (printer_ok D) st cpus raw h
  rw [c115_query ha hq] at hr
  obtain ⟨nd, hmem, herr, hord⟩ := c125_search (posted_once (termsOf env) hid) hst hs hf.moderate cpus hr
  have hW : ∀ id, id ∈ rs.map Prod.fst ↔ ∃ d ∈ docs, d.id = id ∧ Hit (termsOf env) (termsOf env q) d := by
    intro id
    obtain ⟨p1, p2⟩ := hits_posted (termsOf env) (docs := docs) (termsOf env q) id
    rw [hmem]
    simp only [queries, List.mem_cons, List.not_mem_nil, or_false, exists_eq_or_imp, exists_eq_left, p1, p2]
    constructor
    · rintro (⟨d, hd, e, t, ht, hw⟩ | ⟨d, hd, e, t, ht, hw⟩)
      · exact ⟨d, hd, e, t, ht, .inl hw⟩
      · exact ⟨d, hd, e, t, ht, .inr hw⟩
    · rintro ⟨d, hd, e, t, ht, hw | hw⟩
      · exact .inl ⟨d, hd, e, t, ht, hw⟩
      · exact .inr ⟨d, hd, e, t, ht, hw⟩
  have hlen : ∀ ds : List Document, ds.Nodup → (∀ d ∈ ds, d ∈ docs ∧ Hit (termsOf env) (termsOf env q) d) → ds.length ≤ rs.length := by
    intro ds hnd hds
    have n1 : (ds.map Document.id).Nodup := List.Nodup.map_on (fun x hx y hy e => List.inj_on_of_nodup_map hid (hds x hx).1 (hds y hy).1 e) hnd
    have : (ds.map Document.id).Subperm (rs.map Prod.fst) := List.subperm_of_subset n1 fun i hi => by
      obtain ⟨d, hd, rfl⟩ := List.mem_map.1 hi
      exact (hW _).2 ⟨d, (hds d hd).1, rfl, (hds d hd).2⟩
    simpa using this.length_le
  have heps : scoreError64 docs.length (termsOf env q).length (queries (F := F64 L) (termsOf env q)).length = errorFor docs (termsOf env q) := by
    unfold scoreError64 errorFor
    show (_ + 2 * ((2 : Nat) : ℝ) + 56) / 2^53 = _
    congr 1
    push_cast
    ring
  rw [heps] at herr hord
  have hsort := sorted64 hst _ cpus hr (fun e he => by obtain ⟨x, hx, -⟩ := herr e.1 e.2 he; exact ⟨x, hx⟩)
  refine ⟨fun hno => ?_, ?_, ?_⟩
  · apply h0
    rcases rs with _ | ⟨x, rs⟩
    · rfl
    · obtain ⟨d, hd, -, hh⟩ := (hW x.1).1 (by simp)
      exact absurd hh (hno d hd)
  · rintro ⟨ds, hnd, hl, hds⟩
    have h10' : 10 ≤ rs.length := hl ▸ hlen ds hnd hds
    obtain ⟨body, h1, h2⟩ := h10 h10' fun x hx => by
      obtain ⟨y, hy, -⟩ := herr x.1 x.2 (List.mem_of_mem_take hx)
      exact finite_of_toReal D hy
    have hfst : ((rs.take 10).map fun x => (x.1, (D.printer L).text x.2)).map Prod.fst = (rs.map Prod.fst).take 10 := by
      rw [List.map_map, ← List.map_take]; rfl
    have hget : ∀ i id, ((rs.map Prod.fst).take 10)[i]? = some id → (rs.map Prod.fst)[i]? = some id ∧ i < 10 := by
      intro i id hi
      rw [List.getElem?_take] at hi
      split at hi
      · exact ⟨hi, by assumption⟩
      · cases hi
    have hle : ∀ (i j : Nat) (d d' : Document), d ∈ docs → d' ∈ docs → (rs.map Prod.fst)[i]? = some d.id → (rs.map Prod.fst)[j]? = some d'.id → i ≤ j →
        postedScore (termsOf env) docs (termsOf env q) d' * (1 - errorFor docs (termsOf env q)) ≤
          postedScore (termsOf env) docs (termsOf env q) d * (1 + errorFor docs (termsOf env q)) := by
      intro i j d d' hd hd' hi hj hij
      by_contra hc
      push Not at hc
      have := hord j i d'.id d.id hj hi (by rw [collectionScore_posted _ hid _ hd, collectionScore_posted _ hid _ hd']; exact hc)
      omega
    refine ⟨body, _, h1, h2, by simp [h10'], ?_, ?_, ?_, ?_, ?_⟩
    · rw [hfst]; exact (List.take_sublist _ _).nodup nd
    · intro r hr'
      obtain ⟨x, hx, rfl⟩ := List.mem_map.1 hr'
      have hx' := List.mem_of_mem_take hx
      obtain ⟨d, hd, e, hh⟩ := (hW x.1).1 (List.mem_map_of_mem hx')
      obtain ⟨v, hv, hve⟩ := herr x.1 x.2 hx'
      obtain ⟨neg, p, h6, h7, -⟩ := c120_exact D hv
      refine ⟨d, hd, e, hh, neg, p, h6, ?_⟩
      rw [h7]
      rw [← e, collectionScore_posted _ hid _ hd] at hve
      exact hve
    · rw [List.pairwise_map]
      refine List.Pairwise.imp_of_mem ?_ (hsort.sublist (List.take_sublist 10 rs))
      intro a b ha hb hab neg p neg' p' d1 d2
      obtain ⟨v, hv, -⟩ := herr a.1 a.2 (List.mem_of_mem_take ha)
      obtain ⟨w, hw, -⟩ := herr b.1 b.2 (List.mem_of_mem_take hb)
      have := hab v w hv hw
      by_contra hc
      push Not at hc
      have := (c120_order D hv hw d1 d2).2 hc
      linarith
    · intro i j d d' hd hd' hi hj hij
      rw [hfst] at hi hj
      exact hle i j d d' hd hd' (hget _ _ hi).1 (hget _ _ hj).1 hij
    · intro d hd hdl d' hd' hh hnl
      rw [hfst] at hdl hnl
      obtain ⟨i, hi⟩ := List.mem_iff_getElem?.1 hdl
      obtain ⟨j, hj⟩ := List.mem_iff_getElem?.1 ((hW d'.id).2 ⟨d', hd', rfl, hh⟩)
      obtain ⟨hi1, hi2⟩ := hget _ _ hi
      have hj2 : 10 ≤ j := by
        by_contra hc
        exact hnl (List.mem_iff_getElem?.2 ⟨j, by rw [List.getElem?_take, if_pos (by omega)]; exact hj⟩)
      exact hle i j d d' hd hd' hi1 hj (by omega)
  · rintro ⟨d, hd, hh⟩ hno
    apply h9
    · have := hlen [d] (by simp) (by simpa using ⟨hd, hh⟩); simpa using this
    · by_contra hc
      apply hno
      have hsub : ∀ x ∈ (rs.map Prod.fst).take 10, ∃ d ∈ docs, d.id = x ∧ Hit (termsOf env) (termsOf env q) d := fun x hx => (hW x).1 (List.mem_of_mem_take hx)
      have : Nonempty Document := ⟨d⟩
      choose! g hg using hsub
      refine ⟨((rs.map Prod.fst).take 10).map g, List.Nodup.map_on (fun x hx y hy e => ?_) ((List.take_sublist _ _).nodup nd), by simp; omega, ?_⟩
      · rw [← (hg x hx).2.1, ← (hg y hy).2.1, e]
      · intro z hz
        obtain ⟨x, hx, rfl⟩ := List.mem_map.1 hz
        exact ⟨(hg x hx).1, (hg x hx).2.2⟩

/-- **C126 (memory store).** For all bodies of POST requests that carry every id at most once, and every query string: the bytes answered to GET /nir are the ranking of the posted documents by BM25. -/
theorem c126_memory (D : Digits) (env : TextEnv) {bodies : List (List UInt8)} {docs : List Document} (h : Accepts bodies docs) (hid : (docs.map Document.id).Nodup) :
    ∃ m, serveBodies env bodies = some m ∧ ∀ (raw bs : List UInt8) (q : String), Asks raw bs → Decodes bs q.toList → Fair (termsOf env) docs (termsOf env q) →
      ∀ cpus out, GetsBytes env (D.printer L) m.reads cpus raw out → Ranked (termsOf env) docs (termsOf env q) out := by
  have hb := (accepts_calls env h).1
  have hserve : serveBodies env bodies = servePosts env (bodies.map shouldBindJSON) := by
    unfold serveBodies servePosts
    rw [List.foldlM_map]
    rfl
  refine ⟨_, hserve.trans (servePosts_eq env _), fun raw bs q ha hq hf cpus out hg => ?_⟩
  rw [hb] at hg
  exact ranked D env hid ha hq hf (memory_consistent _) ⟨fun _ _ _ => rfl, fun _ _ _ => rfl, fun _ => rfl, fun _ => rfl, fun _ _ _ => rfl⟩ hg

/-- **C126 (disk store).** The same for the first process of the disk store that main uses, if the saves made are those of the requests, one request after the other, the cache is large enough and no save is
half done; whatever the goroutines of the store have done meanwhile. -/
theorem c126_disk (D : Digits) (env : TextEnv) {bodies : List (List UInt8)} {docs : List Document} (h : Accepts bodies docs) (hid : (docs.map Document.id).Nodup)
    {as : List Disk.Act} {s : Disk} (hr : Disk.run {} (.open_ :: as) = some s) (ho : Disk.Act.open_ ∉ as) (hb : Disk.calls as = (bodies.map shouldBindJSON).flatMap (callsOf env))
    (hi : s.idle = true) (hn : CacheSuffices as) (raw bs : List UInt8) (q : String) (ha : Asks raw bs) (hq : Decodes bs q.toList) (hf : Fair (termsOf env) docs (termsOf env q))
    (cpus : Nat) (out : Option (Nat × List UInt8)) (hg : GetsBytes env (D.printer L) s.reads cpus raw out) : Ranked (termsOf env) docs (termsOf env q) out := by
  rw [(accepts_calls env h).1] at hb
  obtain ⟨h1, h2⟩ := disk_reads_like_memory hr ho (by rw [hb]; exact savesOf_goValues _) (by rw [hb]; exact savesOf_isSave _) hi hn
  rw [hb] at h1
  exact ranked D env hid ha hq hf h2 h1.alike hg

/-- C126's hypotheses can be met: ten requests of a client and one that is rejected, and a question for which all ten are wanted. -/
example : ∃ (bodies : List (List UInt8)) (docs : List Document), Accepts bodies docs ∧ (docs.map Document.id).Nodup ∧ Fair (termsOf demoEnv) docs (termsOf demoEnv "red") ∧
    docs.length = 10 ∧ ∀ d ∈ docs, Hit (termsOf demoEnv) (termsOf demoEnv "red") d := by
  have key : ∀ ids : List String, (∀ i ∈ ids, i ≠ "") → Accepts (ids.map fun i => bodyOf i "" "red") (ids.map fun i => ⟨i, "", "red"⟩) := by
    intro ids
    induction ids with
    | nil => intro _; exact .nil
    | cons i ids ih =>
      intro h
      obtain ⟨s, h1, h2⟩ := bodyOf_carries i "" "red" (h i (by simp))
      exact .doc h1 h2 (h i (by simp)) (ih fun j hj => h j (by simp [hj]))
  have hr : "red" ∈ termsOf demoEnv "red" := by decide
  have hskip : Accepts ([] :: ["0", "1", "2", "3", "4", "5", "6", "7", "8", "9"].map fun i => bodyOf i "" "red")
      (["0", "1", "2", "3", "4", "5", "6", "7", "8", "9"].map fun i => ⟨i, "", "red"⟩) := by
    refine .skip (s := []) (Collection.decodes_utf8 []) (fun d hd => ?_) (key _ (by decide))
    have := bind_carries (Collection.decodes_utf8 []) hd
    have h0 : shouldBindJSON (Collection.utf8 []) = none := by decide +kernel
    rw [h0] at this; cases this
  refine ⟨_, _, hskip, by decide, ⟨by decide, by decide, by decide, by decide, by decide⟩, rfl, ?_⟩
  intro d hd
  obtain ⟨i, -, rfl⟩ := List.mem_map.1 hd
  exact ⟨"red", hr, .inr hr⟩

/-- and those about the disk store by the run of `c78Run`. -/
example : ∃ (bodies : List (List UInt8)) (docs : List Document), Accepts bodies docs ∧ (docs.map Document.id).Nodup ∧
    Disk.calls c78Run = (bodies.map shouldBindJSON).flatMap (callsOf demoEnv) ∧ Fair (termsOf demoEnv) docs (termsOf demoEnv "cat") := by
  obtain ⟨s, h1, h2⟩ := bodyOf_carries "7" "The Cat" "sat" (by decide)
  have ha : Accepts [bodyOf "7" "The Cat" "sat"] [⟨"7", "The Cat", "sat"⟩] := .doc h1 h2 (by decide) .nil
  refine ⟨_, _, ha, by decide, ?_, ⟨by decide, by decide, by decide, by decide, by decide⟩⟩
  rw [(accepts_calls demoEnv ha).1]
  decide

end Http
end Goir
