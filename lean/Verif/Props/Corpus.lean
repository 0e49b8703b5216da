import Verif.Spec.Corpus
import Verif.Props.Float64
import Verif.Props.Http
import Verif.Props.Text
import Verif.Props.DiskSearch
/-!
# C125: a search ranks by BM25 of the collection

The numbers that the storage keeps are, when every text is put in once, those of the collection; so the scores are those that the texts have, and not only
those that the counters of the store give (C112).
-/
namespace Goir
open Spec Text

variable {L : MathLog}

/-- the calls that put the texts in, with fields as main builds them (/repo/main.go:133-156). -/
def savesOf (S : List Entry) : List StoreOp := S.map fun e => .save e.doc (makeField e.field e.words)

/-- every document has at most one text in a field. -/
def Once (S : List Entry) : Prop := (S.map fun e => (e.doc, e.field)).Nodup

theorem makeField_tf (name : String) (w : List String) (t : String) : (makeField name w).tf.getD t 0 = (w.count t : Int) := by
  have := (c08_term_frequency w).1 t
  show (termFrequency w).getD t 0 = _
  unfold GoMap.getD
  rw [this]
  by_cases h : t ∈ w
  · simp [h]
  · simp [h, List.count_eq_zero_of_not_mem h]

theorem savesOf_goValues (S : List Entry) : GoValues (savesOf S) := by
  intro op hop
  obtain ⟨e, -, rfl⟩ := List.mem_map.1 hop
  exact (c08_term_frequency e.words).2.1

theorem savesOf_isSave (S : List Entry) : ∀ op ∈ savesOf S, op.isSave = true := by
  intro op hop
  obtain ⟨e, -, rfl⟩ := List.mem_map.1 hop
  rfl

theorem savesOf_callCount (S : List Entry) (f : String) : callCount (savesOf S) f = (column S f).length := by
  induction S with
  | nil => rfl
  | cons e S ih =>
    unfold callCount savesOf column at *
    simp only [List.map_cons, List.filter_cons]
    have : (StoreOp.save e.doc (makeField e.field e.words)).field.name = e.field := rfl
    rw [this]
    by_cases h : e.field = f <;> simp [h] at ih ⊢ <;> exact ih

theorem savesOf_lengthSum (S : List Entry) (f : String) : lengthSum (savesOf S) f = (((column S f).map List.length).sum : Nat) := by
  induction S with
  | nil => rfl
  | cons e S ih =>
    unfold lengthSum savesOf column at *
    simp only [List.map_cons, List.filter_cons]
    have h1 : (StoreOp.save e.doc (makeField e.field e.words)).field.name = e.field := rfl
    have h2 : (StoreOp.save e.doc (makeField e.field e.words)).field.length = (e.words.length : Int) := rfl
    rw [h1]
    by_cases h : e.field = f
    · simp only [h, decide_true, if_true, List.map_cons, List.sum_cons, Nat.cast_add] at ih ⊢
      rw [ih, ← h2]; rfl
    · simp only [h, decide_false] at ih ⊢
      exact ih

theorem savesOf_termCount (S : List Entry) (f t : String) : termCount (savesOf S) f t = (column S f).countP fun w => decide (t ∈ w) := by
  induction S with
  | nil => rfl
  | cons e S ih =>
    unfold termCount savesOf column at *
    simp only [List.map_cons, List.filter_cons]
    have h1 : (StoreOp.save e.doc (makeField e.field e.words)).field.name = e.field := rfl
    have h2 : (StoreOp.save e.doc (makeField e.field e.words)).isSave = true := rfl
    have h3 : t ∈ (StoreOp.save e.doc (makeField e.field e.words)).field.tf.keys ↔ t ∈ e.words := mem_makeField _ _ _
    rw [h1, h2]
    simp only [h3, true_and]
    by_cases h : e.field = f
    · by_cases h' : t ∈ e.words
      · simp only [h, h', decide_true, if_true, List.map_cons, List.countP_cons, List.length_cons, and_self] at ih ⊢
        rw [ih]
      · simp only [h, h', decide_true, decide_false, List.map_cons, List.countP_cons, and_false, Bool.false_eq_true, if_false, if_true, add_zero] at ih ⊢
        rw [ih]
    · simp only [h, decide_false, false_and, Bool.false_eq_true, if_false] at ih ⊢
      exact ih

theorem saved_iff (S : List Entry) (f t d : String) : Saved (savesOf S) f t d ↔ ∃ e ∈ S, e.doc = d ∧ e.field = f ∧ t ∈ e.words := by
  constructor
  · rintro ⟨op, hop, -, h1, h2, h3⟩
    obtain ⟨e, he, rfl⟩ := List.mem_map.1 hop
    exact ⟨e, he, h1, h2, (mem_makeField _ _ _).1 h3⟩
  · rintro ⟨e, he, h1, h2, h3⟩
    exact ⟨_, List.mem_map.2 ⟨e, he, rfl⟩, rfl, h1, h2, (mem_makeField _ _ _).2 h3⟩

theorem hits_iff (S : List Entry) (f : String) (terms : List String) (d : String) : Hits S f terms d ↔ ∃ t ∈ terms, Saved (savesOf S) f t d := by
  simp only [saved_iff, Hits]
  constructor
  · rintro ⟨e, he, h1, h2, t, ht, hw⟩; exact ⟨t, ht, e, he, h1, h2, hw⟩
  · rintro ⟨t, ht, e, he, h1, h2, hw⟩; exact ⟨e, he, h1, h2, t, ht, hw⟩

theorem Once.unique {S : List Entry} (h : Once S) {e e' : Entry} (he : e ∈ S) (he' : e' ∈ S) (h1 : e.doc = e'.doc) (h2 : e.field = e'.field) : e = e' :=
  List.inj_on_of_nodup_map h he he' (by simp [h1, h2])

theorem Once.filter {S : List Entry} (h : Once S) {e : Entry} (he : e ∈ S) : (S.filter fun x => x.doc = e.doc ∧ x.field = e.field) = [e] := by
  have nd : S.Nodup := List.Nodup.of_map _ h
  have nd' := nd.filter fun x => decide (x.doc = e.doc ∧ x.field = e.field)
  have hm : ∀ x, x ∈ (S.filter fun x => decide (x.doc = e.doc ∧ x.field = e.field)) ↔ x = e := by
    intro x
    rw [List.mem_filter]
    constructor
    · rintro ⟨hx, hd⟩
      obtain ⟨h1, h2⟩ := of_decide_eq_true hd
      exact h.unique hx he h1 h2
    · rintro rfl; exact ⟨he, by simp⟩
  have hp : (S.filter fun x => decide (x.doc = e.doc ∧ x.field = e.field)).Perm [e] :=
    (List.perm_ext_iff_of_nodup nd' (by simp)).2 (by simpa using hm)
  exact List.perm_singleton.1 hp

theorem savesOf_fieldOf {S : List Entry} (h : Once S) {e : Entry} (he : e ∈ S) :
    (Memory.run (savesOf S)).reads.fieldOf e.doc e.field = some (makeField e.field e.words) := by
  have h1 : (Memory.run (savesOf S)).reads.fieldOf e.doc e.field = lastSaved (savesOf S) e.doc e.field := by
    have := c14_memory_getFields_latest (savesOf S) [e.doc] e.field e.doc
    rw [if_pos (by simp)] at this
    exact this
  rw [h1]
  cases hl : lastSaved (savesOf S) e.doc e.field with
  | none =>
    unfold lastSaved at hl
    rw [List.findSome?_eq_none_iff] at hl
    have := hl (.save e.doc (makeField e.field e.words)) (by rw [List.mem_reverse]; exact List.mem_map.2 ⟨e, he, rfl⟩)
    have h2 : (StoreOp.save e.doc (makeField e.field e.words)).isSave = true ∧ (StoreOp.save e.doc (makeField e.field e.words)).doc = e.doc ∧
      (StoreOp.save e.doc (makeField e.field e.words)).field.name = e.field := ⟨rfl, rfl, rfl⟩
    rw [if_pos h2] at this; cases this
  | some g =>
    obtain ⟨o, ho, -, h2, h3, h4⟩ := lastSaved_some_mem _ _ _ _ hl
    obtain ⟨x, hx, rfl⟩ := List.mem_map.1 ho
    obtain rfl := h.unique hx he h2 h3
    exact congrArg some h4.symm

/-- over the reals, the score that a query gives a document by the numbers of the store is the one that the texts give. -/
theorem queryScore_corpus {S : List Entry} (h : Once S) (f : String) (boost : ℝ) (terms : List String) (d : String) :
    (Hits S f terms d → queryScore (Memory.run (savesOf S)).reads ⟨f, boost, terms⟩ d = some (contribution S f boost terms d)) ∧
    (¬ Hits S f terms d → queryScore (Memory.run (savesOf S)).reads ⟨f, boost, terms⟩ d = none ∧ contribution S f boost terms d = 0) := by
  have hm := memory_matches (savesOf S) (savesOf_isSave S) f terms d
  rw [← hits_iff] at hm
  have gv := savesOf_goValues S
  constructor
  · intro hh
    obtain ⟨e, he, rfl, rfl, -⟩ := id hh
    have h1 := (hm.2 hh).1
    unfold queryScore
    rw [if_pos h1]
    show Option.map _ ((Memory.run (savesOf S)).reads.fieldOf e.doc e.field) = _
    rw [savesOf_fieldOf h he, Option.map_some]
    congr 1
    rw [c64_bm25_formula]
    unfold contribution
    rw [h.filter he]
    simp only [List.map_cons, List.map_nil, List.sum_cons, List.sum_nil, add_zero]
    obtain ⟨n1, n2, n3⟩ := c15_memory_counters_exact (savesOf S) gv e.field terms
    have e1 : (Memory.run (savesOf S)).reads.getFieldSize e.field = ((column S e.field).length : Int) := by
      rw [← savesOf_callCount]; exact n1
    have e2 : (Memory.run (savesOf S)).reads.getFieldLength e.field = ((((column S e.field).map List.length).sum : Nat) : Int) := by
      rw [← savesOf_lengthSum]; exact n2
    have e3 : ∀ t ∈ terms, ((Memory.run (savesOf S)).reads.getNumberFieldTerm e.field terms).getD t 0 =
        (((column S e.field).countP fun w => decide (t ∈ w) : Nat) : Int) := by
      intro t ht
      have := n3 t
      rw [if_pos ht, savesOf_termCount] at this
      show GoMap.getD _ _ _ = _
      unfold GoMap.getD
      rw [show ((Memory.run (savesOf S)).reads.getNumberFieldTerm e.field terms).get? t = _ from this]
      rfl
    have e4 : (GoFloat.lit 1.2 : ℝ) = 1.2 := by show ((1.2 : Rat) : ℝ) = 1.2; norm_num
    have e5 : (GoFloat.lit 0.75 : ℝ) = 0.75 := by show ((0.75 : Rat) : ℝ) = 0.75; norm_num
    unfold Spec.bm25 textScore
    simp only []
    rw [← List.sum_map_mul_left]
    refine congrArg List.sum (List.map_congr_left fun t ht => ?_)
    simp only [e1, e2, e3 t ht, makeField_tf, e4, e5]
    unfold Spec.idf Spec.saturation
    show _ * Real.log (1 + (((column S e.field).length : Int) - (((column S e.field).countP fun w => decide (t ∈ w) : Nat) : Int) + 1 / 2) / _) *
      (((e.words.count t : Int) : ℝ) * _ / (((e.words.count t : Int) : ℝ) + 1.2 * (1 - 0.75 + 0.75 * (((e.words.length : Int) : ℝ) /
        (((((column S e.field).map List.length).sum : Nat) : Int) / ((column S e.field).length : Int)))))) = _
    simp only [Int.cast_natCast]
    rw [mul_assoc]
  · intro hh
    refine ⟨?_, ?_⟩
    · unfold queryScore
      by_cases hmm : (Memory.run (savesOf S)).reads.matches f terms d = true
      · rw [if_pos hmm]
        show Option.map _ ((Memory.run (savesOf S)).reads.fieldOf d f) = _
        cases hf : (Memory.run (savesOf S)).reads.fieldOf d f with
        | none => rfl
        | some x => exact absurd (hm.1 ⟨hmm, by rw [hf]; rfl⟩) hh
      · rw [if_neg hmm]
    · unfold contribution
      apply List.sum_eq_zero
      intro x hx
      obtain ⟨e, he, rfl⟩ := List.mem_map.1 hx
      obtain ⟨h1, h2⟩ := List.mem_filter.1 he
      obtain ⟨h3, h4⟩ := of_decide_eq_true h2
      have : textScore (column S f) terms e.words = 0 := by
        unfold textScore
        apply List.sum_eq_zero
        intro y hy
        obtain ⟨t, ht, rfl⟩ := List.mem_map.1 hy
        have h0 : e.words.count t = 0 := List.count_eq_zero_of_not_mem fun hw => hh ⟨e, h1, h3, h4, t, ht, hw⟩
        simp [h0]
      rw [this, mul_zero]

/-- the score of a document, by the texts alone: the sum over the queries. -/
noncomputable def collectionScore (S : List Entry) (query : List (Query (F64 L))) (d : String) : ℝ :=
  (query.map fun q => contribution S q.fieldName (q.boost.toReal.getD 0) q.terms d).sum

theorem exactScore_corpus {S : List Entry} (h : Once S) (query : List (Query (F64 L))) (d : String) :
    exactScore64 (Memory.run (savesOf S)).reads query d = collectionScore S query d := by
  unfold exactScore64 collectionScore docScores
  induction query with
  | nil => rfl
  | cons q query ih =>
    obtain ⟨h1, h2⟩ := queryScore_corpus h q.fieldName (q.boost.toReal.getD 0) q.terms d
    simp only [List.map_cons, List.filterMap_cons, List.sum_cons]
    by_cases hh : Hits S q.fieldName q.terms d
    · have : queryScore (Memory.run (savesOf S)).reads q.exact64 d = _ := h1 hh
      rw [this]
      simp only [List.sum_cons]
      rw [ih]
    · have : queryScore (Memory.run (savesOf S)).reads q.exact64 d = none := (h2 hh).1
      rw [this, (h2 hh).2]
      simp only [zero_add]
      exact ih

/-! ### stores that read alike -/

/-- the two stores answer everything a search uses alike: which documents are found under a term, their fields, and the numbers. -/
structure Reads.Alike (st st' : Reads) : Prop where
  has : ∀ f t d, st.has f t d = st'.has f t d
  fields : ∀ ids f d, (st.getFields ids f).get? d = (st'.getFields ids f).get? d
  size : ∀ f, st.getFieldSize f = st'.getFieldSize f
  length : ∀ f, st.getFieldLength f = st'.getFieldLength f
  nft : ∀ f l t, (st.getNumberFieldTerm f l).get? t = (st'.getNumberFieldTerm f l).get? t

theorem Reads.Same.alike {st st' : Reads} (h : st.Same st') : st.Alike st' :=
  ⟨fun f t d => by unfold Reads.has; rw [h.found, h.docs], h.fields, h.size, h.length, h.nft⟩

theorem Reads.Alike.matches {st st' : Reads} (h : st.Alike st') (f : String) (terms : List String) (d : String) : st.matches f terms d = st'.matches f terms d := by
  unfold Reads.matches
  congr 1
  funext t
  exact h.has f t d

theorem Reads.Alike.scale {st st' : Reads} (h : st.Alike st') {query : List (Query (F64 L))} {N T : Nat} {d : String} (hs : ScaleFor64 st' query N T d) :
    ScaleFor64 st query N T d := by
  obtain ⟨h1, h2, h3, h4⟩ := hs
  refine ⟨h1, h2, h3, fun q hq hm hf => ?_⟩
  have i := h4 q hq (by rw [← h.matches]; exact hm) (by
    have := h.fields [d] q.fieldName d
    unfold Reads.fieldOf at hf ⊢
    rw [← this]; exact hf)
  have hn : ∀ t, (st.getNumberFieldTerm q.fieldName q.terms).getD t 0 = (st'.getNumberFieldTerm q.fieldName q.terms).getD t 0 := by
    intro t; unfold GoMap.getD; rw [h.nft]
  refine ⟨i.boost, ?_, ?_, ?_, i.terms, ?_⟩
  · rw [h.size]; exact i.size
  · rw [h.length]; exact i.length
  · intro t ht; rw [hn, h.size]; exact i.df t ht
  · intro d f hdf
    exact i.field d f (by
      have := h.fields [d] q.fieldName d
      unfold Reads.fieldOf at hdf ⊢
      rw [← this]; exact hdf)

theorem Reads.Alike.queryScore_eq {F : Type} [GoFloat F] {st st' : Reads} (h : st.Alike st') (q : Query F) (d : String) : queryScore st q d = queryScore st' q d :=
  queryScore_congr (fun t _ => h.has _ t d) (h.fields ..) (h.size _) (h.length _) (fun t _ => by unfold GoMap.getD; rw [h.nft])

theorem Reads.Alike.exactScore {st st' : Reads} (h : st.Alike st') (query : List (Query (F64 L))) (d : String) : exactScore64 st query d = exactScore64 st' query d := by
  unfold exactScore64 docScores
  congr 2
  funext q
  exact h.queryScore_eq q d

/-! ### C125 -/

/-- the total length of the texts of a field is a Go int. -/
def WordsFit (S : List Entry) : Prop := ∀ f, ((column S f).map List.length).sum < 2^63

theorem WordsFit.words {S : List Entry} (h : WordsFit S) {e : Entry} (he : e ∈ S) : e.words.length < 2^63 :=
  lt_of_le_of_lt (List.single_le_sum (by simp) _ (List.mem_map.2 ⟨e.words, List.mem_map.2 ⟨e, List.mem_filter.2 ⟨he, by simp⟩, rfl⟩, rfl⟩)) (h e.field)

theorem savesOf_sane (S : List Entry) : Sane (savesOf S) := by
  refine ⟨savesOf_isSave S, ?_, ?_⟩
  · intro op hop t n hn
    obtain ⟨e, -, rfl⟩ := List.mem_map.1 hop
    have h1 := GoMap.get?_of_mem (c08_term_frequency e.words).2.1 (show (t, n) ∈ termFrequency e.words from hn)
    rw [(c08_term_frequency e.words).1 t] at h1
    split at h1
    · obtain rfl := Option.some.inj h1; omega
    · cases h1
  · intro op hop
    obtain ⟨e, -, rfl⟩ := List.mem_map.1 hop
    refine ⟨Int.natCast_nonneg _, fun hne => ?_⟩
    show (0 : Int) < (e.words.length : Int)
    rcases hw : e.words with _ | ⟨w, ws⟩
    · exfalso; apply hne; show termFrequency e.words = []; rw [hw]; rfl
    · simp

theorem savesOf_fits {S : List Entry} (h : WordsFit S) : Fits (savesOf S) := by
  refine ⟨?_, ?_, fun f => ?_⟩
  · intro op hop t n hn
    obtain ⟨e, he, rfl⟩ := List.mem_map.1 hop
    have h1 := GoMap.get?_of_mem (c08_term_frequency e.words).2.1 (show (t, n) ∈ termFrequency e.words from hn)
    rw [(c08_term_frequency e.words).1 t] at h1
    split at h1
    · obtain rfl := Option.some.inj h1
      have := h.words he
      have := List.count_le_length (a := t) (l := e.words)
      omega
    · cases h1
  · intro op hop
    obtain ⟨e, he, rfl⟩ := List.mem_map.1 hop
    have := h.words he
    show (e.words.length : Int) < 2^63
    omega
  · rw [savesOf_lengthSum]
    have := h f
    omega

/-- the collection and the query are not too large. -/
structure Moderate (S : List Entry) (query : List (Query (F64 L))) (N T : Nat) : Prop where
  words : WordsFit S
  texts : ∀ q ∈ query, (column S q.fieldName).length ≤ N
  terms : ∀ q ∈ query, q.terms.length ≤ T
  boost : ∀ q ∈ query, ∃ x, q.boost.toReal = some x ∧ (x = 0 ∨ (2:ℝ)^(-100:ℤ) ≤ x ∧ x ≤ (2:ℝ)^(100:ℤ))
  hN : N ≤ 2^40
  hT : T ≤ 2^40
  hQ : query.length ≤ 2^40

/-- **C125.** Let a store hold the texts `S`, each put in once (whatever store reads like a memory store that got them). Whatever the schedule, a search returns exactly the documents with
a term of one of its queries in the field of that query; the score of each is a finite float64 within `(16 N + 2 T + 2 Q + 56) / 2^53` of BM25 of the collection; and documents whose BM25 differs by more
than the errors come in the right order. -/
theorem c125_search {S : List Entry} (h : Once S) {st : Reads} (hst : st.Consistent) (hs : st.Alike (Memory.run (savesOf S)).reads) {query : List (Query (F64 L))} {N T : Nat}
    (hm : Moderate S query N T) (cpus : Nat) {l : Scores (F64 L)} (hl : SState.Returns st query cpus l) :
    (l.map Prod.fst).Nodup ∧ (∀ d, d ∈ l.map Prod.fst ↔ ∃ q ∈ query, Hits S q.fieldName q.terms d) ∧
    (∀ d v, (d, v) ∈ l → ∃ x, v.toReal = some x ∧ |x - collectionScore S query d| ≤ scoreError64 N T query.length * collectionScore S query d) ∧
    ∀ (i j : Nat) (d d' : String), (l.map Prod.fst)[i]? = some d → (l.map Prod.fst)[j]? = some d' →
      collectionScore S query d' * (1 + scoreError64 N T query.length) < collectionScore S query d * (1 - scoreError64 N T query.length) → i < j := by
  have sc : ∀ d, ScaleFor64 st query N T d := fun d => hs.scale (memory_scale64 (savesOf S) (savesOf_goValues S) (savesOf_sane S) (savesOf_fits hm.words) query hm.hN hm.hT hm.hQ
    (fun q hq => ⟨hm.boost q hq, hm.terms q hq, by rw [savesOf_callCount]; exact hm.texts q hq⟩) d)
  have ex : ∀ d, exactScore64 st query d = collectionScore S query d := fun d => by rw [hs.exactScore, exactScore_corpus h]
  refine ⟨(c59_result hst query cpus hl).1, fun d => ?_, fun d v hv => ?_, fun i j d d' hi hj hlt => ?_⟩
  · obtain ⟨l', h3, h4⟩ := search_congr hst (memory_consistent _) query (fun q _ d => hs.queryScore_eq q d) (cpus' := 1) (by omega) hl
    rw [← (h4.map Prod.fst).mem_iff, c60_sound_complete _ (savesOf_isSave S) query 1 h3 d]
    simp only [hits_iff]
  · rw [← ex]; exact c112_error hst query cpus hl (sc d) hv
  · exact c112_order hst query cpus hl (fun d _ => sc d) (by rw [ex, ex]; exact hlt) hi hj

/-- **C125, Memory store.** -/
theorem c125_memory {S : List Entry} (h : Once S) {query : List (Query (F64 L))} {N T : Nat} (hm : Moderate S query N T) (cpus : Nat) {l : Scores (F64 L)}
    (hl : SState.Returns (Memory.run (savesOf S)).reads query cpus l) :
    (l.map Prod.fst).Nodup ∧ (∀ d, d ∈ l.map Prod.fst ↔ ∃ q ∈ query, Hits S q.fieldName q.terms d) ∧
    (∀ d v, (d, v) ∈ l → ∃ x, v.toReal = some x ∧ |x - collectionScore S query d| ≤ scoreError64 N T query.length * collectionScore S query d) ∧
    ∀ (i j : Nat) (d d' : String), (l.map Prod.fst)[i]? = some d → (l.map Prod.fst)[j]? = some d' →
      collectionScore S query d' * (1 + scoreError64 N T query.length) < collectionScore S query d * (1 - scoreError64 N T query.length) → i < j :=
  c125_search h (memory_consistent _) ⟨fun _ _ _ => rfl, fun _ _ _ => rfl, fun _ => rfl, fun _ => rfl, fun _ _ _ => rfl⟩ hm cpus hl

/-- **C125, Disk store**: in the first process of a Disk store, when the texts have been put in (in any order of steps of its goroutines), with a cache for all documents. -/
theorem c125_disk {S : List Entry} (h : Once S) {as : List Disk.Act} {s : Disk} (hr : Disk.run {} (.open_ :: as) = some s) (ho : Disk.Act.open_ ∉ as)
    (hc : Disk.calls as = savesOf S) (hi : s.idle = true) (hn : CacheSuffices as) {query : List (Query (F64 L))} {N T : Nat} (hm : Moderate S query N T) (cpus : Nat)
    {l : Scores (F64 L)} (hl : SState.Returns s.reads query cpus l) :
    (l.map Prod.fst).Nodup ∧ (∀ d, d ∈ l.map Prod.fst ↔ ∃ q ∈ query, Hits S q.fieldName q.terms d) ∧
    (∀ d v, (d, v) ∈ l → ∃ x, v.toReal = some x ∧ |x - collectionScore S query d| ≤ scoreError64 N T query.length * collectionScore S query d) ∧
    ∀ (i j : Nat) (d d' : String), (l.map Prod.fst)[i]? = some d → (l.map Prod.fst)[j]? = some d' →
      collectionScore S query d' * (1 + scoreError64 N T query.length) < collectionScore S query d * (1 - scoreError64 N T query.length) → i < j := by
  obtain ⟨h1, h2⟩ := disk_reads_like_memory hr ho (by rw [hc]; exact savesOf_goValues S) (by rw [hc]; exact savesOf_isSave S) hi hn
  rw [hc] at h1
  exact c125_search h h2 h1.alike hm cpus hl

/-- two titles. -/
def c125Texts : List Entry := [⟨"e", "title", ["t", "u"]⟩, ⟨"d", "title", ["t", "t"]⟩]

/-- the search for `t` in titles. -/
noncomputable def c125Query : List (Query (F64 L)) := [⟨"title", GoFloat.lit 1, ["t"]⟩]

theorem c125_example_moderate : Once c125Texts ∧ Moderate c125Texts (c125Query (L := L)) 2 1 := by
  refine ⟨by unfold Once c125Texts; decide, fun f => ?_, ?_, ?_, ?_, by norm_num, by norm_num, by show 1 ≤ 2^40; norm_num⟩
  · by_cases h : f = "title"
    · subst h; decide
    · have : column c125Texts f = [] := by simp [column, c125Texts, Ne.symm h]
      rw [this]; simp
  · intro q hq; obtain rfl := List.mem_singleton.1 hq; show (column c125Texts "title").length ≤ 2; decide
  · intro q hq; obtain rfl := List.mem_singleton.1 hq; exact le_rfl
  · intro q hq; obtain rfl := List.mem_singleton.1 hq
    refine ⟨1, lit64_one, .inr ?_⟩
    constructor <;> norm_num

theorem c125_example_scores : collectionScore c125Texts (c125Query (L := L)) "d" = 11/8 * Real.log (6/5) ∧
    collectionScore c125Texts (c125Query (L := L)) "e" = Real.log (6/5) := by
  have hf : ∀ x, (c125Texts.filter fun e => decide (e.doc = x ∧ e.field = "title")) =
      if x = "e" then [⟨"e", "title", ["t", "u"]⟩] else if x = "d" then [⟨"d", "title", ["t", "t"]⟩] else [] := by
    intro x
    by_cases h1 : x = "e"
    · subst h1; decide
    by_cases h2 : x = "d"
    · subst h2; decide
    simp [c125Texts, h1, h2, Ne.symm h1, Ne.symm h2]
  have hc : column c125Texts "title" = [["t", "u"], ["t", "t"]] := by decide
  constructor <;>
  · simp only [collectionScore, c125Query, List.map_cons, List.map_nil, List.sum_cons, List.sum_nil, lit64_one, Option.getD_some, contribution, hf, hc, textScore]
    simp
    norm_num <;> ring

/-- C125's hypotheses can be met: the title that has the word twice comes first, on every schedule. -/
example {cpus : Nat} {l : Scores (F64 L)} (hl : SState.Returns (Memory.run (savesOf c125Texts)).reads c125Query cpus l) {i j : Nat}
    (hi : (l.map Prod.fst)[i]? = some "d") (hj : (l.map Prod.fst)[j]? = some "e") : i < j := by
  refine (c125_memory (c125_example_moderate (L := L)).1 (c125_example_moderate (L := L)).2 cpus hl).2.2.2 i j "d" "e" hi hj ?_
  have hp : 0 < Real.log (6/5) := Real.log_pos (by norm_num)
  have hw : scoreError64 2 1 (c125Query (L := L)).length = 92 / 2^53 := by simp [scoreError64, c125Query]; norm_num
  rw [c125_example_scores.1, c125_example_scores.2, hw]
  nlinarith

end Goir
