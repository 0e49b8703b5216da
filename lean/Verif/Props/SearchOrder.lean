import Verif.Lemmas.SearchOrder
import Verif.Props.Search
import Verif.Model.ScoreRounded
/-!
# C59, C61: the order in which the queries finish
-/
namespace Goir

/-- **C59.** What `c59_result` allows does happen: for every order of the queries there is a run of Search that adds up the
scores in that order. -/
theorem c59_every_order {F : Type} [GoFloat F] {st : Reads} (hst : st.Consistent) (query : List (Query F)) {cpus : Nat} (hc : 0 < cpus)
    {qs : List (Query F)} (hp : qs.Perm query) : ∃ l, SState.Returns st query cpus l ∧
      ∀ d x, (d, x) ∈ l ↔ docScores st qs d ≠ [] ∧ x = (docScores st qs d).foldl GoFloat.add (GoFloat.lit 0) := every_order hst query hc hp

/-- **C61, exactly when.** Over any kind of number: the scores of a document do not depend on timing iff the scores that the queries
give it have the same sum in every order. -/
theorem c61_iff {F : Type} [GoFloat F] {st : Reads} (hst : st.Consistent) (query : List (Query F)) {cpus : Nat} (hc : 0 < cpus) (d : String) :
    (∀ l l', SState.Returns st query cpus l → SState.Returns st query cpus l' → ∀ x, (d, x) ∈ l ↔ (d, x) ∈ l') ↔
      ∀ vs : List F, vs.Perm (docScores st query d) → vs.foldl GoFloat.add (GoFloat.lit 0) = (docScores st query d).foldl GoFloat.add (GoFloat.lit 0) := by
  have sub : ∀ (l : List (Query F)) (vs : List F), vs.Perm (docScores st l d) → ∃ qs, qs.Perm l ∧ docScores st qs d = vs := by
    intro l vs
    induction vs generalizing l with
    | nil => intro h; exact ⟨l, .refl _, List.nil_perm.1 h⟩
    | cons v vs ih =>
      intro h
      obtain ⟨q, hq, hv⟩ := List.mem_filterMap.1 (h.mem_iff.1 List.mem_cons_self)
      obtain ⟨A, B, rfl⟩ := List.append_of_mem hq
      have e : ∀ A B : List (Query F), docScores st (A ++ B) d = docScores st A d ++ docScores st B d := fun A B => List.filterMap_append ..
      have e2 : docScores st (q :: B) d = v :: docScores st B d := by
        unfold docScores; rw [List.filterMap_cons, hv]
      rw [e, e2] at h
      have h1 : vs.Perm (docScores st (A ++ B) d) := by
        rw [e]; exact (List.perm_cons v).1 (h.trans List.perm_middle)
      obtain ⟨qs, h2, h3⟩ := ih _ h1
      refine ⟨q :: qs, (h2.cons q).trans List.perm_middle.symm, ?_⟩
      show docScores st (q :: qs) d = _
      unfold docScores at h3 ⊢
      rw [List.filterMap_cons, hv, h3]
  constructor
  · intro h vs hvs
    obtain ⟨qs, h1, rfl⟩ := sub query vs hvs
    by_cases hne : docScores st query d = []
    · rw [hne] at hvs; rw [List.perm_nil.1 hvs, hne]
    obtain ⟨l, hl, hm⟩ := every_order hst query hc h1
    obtain ⟨l', hl', hm'⟩ := every_order hst query hc (List.Perm.refl query)
    have hne' : docScores st qs d ≠ [] := fun e => hne ((perm_nil_iff hvs).1 e)
    have := (h l l' hl hl' _).1 ((hm d _).2 ⟨hne', rfl⟩)
    exact ((hm' d _).1 this).2
  · intro h l l' hl hl' x
    obtain ⟨-, qs, hp, hm⟩ := c59_result hst query cpus hl
    obtain ⟨-, qs', hp', hm'⟩ := c59_result hst query cpus hl'
    have p1 := docScores_perm (st := st) hp d
    have p2 := docScores_perm (st := st) hp' d
    rw [hm, hm', h _ p1, h _ p2, ne_eq, ne_eq, perm_nil_iff p1, perm_nil_iff p2]

/-! ### With rounding -/

/-- the document of the witness. -/
def c61History : List StoreOp := [.save "d" { name := "title", length := 1, tf := [("t", 1)] }]

/-- a query of the witness. -/
noncomputable def c61Query (boost : Rat) : Query R53 := ⟨"title", GoFloat.lit boost, ["t"]⟩

namespace R53

theorem rnd_one : rnd 1 = 1 := by
  have := rnd_absorb (x := 1) (δ := 0) (m := 2^52) (k := -52) (le_refl _) (by norm_num) (by norm_num) (le_refl 0) (by positivity)
  rwa [add_zero] at this

theorem rnd_half : rnd (1/2) = 1/2 := by
  have := rnd_mul_pow 1 (-1)
  rw [rnd_one] at this
  norm_num at this ⊢
  exact this

theorem rnd_three_halves : rnd (3/2) = 3/2 := by
  have := rnd_absorb (x := 3/2) (δ := 0) (m := 3 * 2^51) (k := -52) (by norm_num) (by norm_num) (by norm_num) (le_refl 0) (by positivity)
  rwa [add_zero] at this

theorem rnd_gt {x : ℝ} (hx : 0 < x) : x * (1 - 1/2^53) ≤ rnd x := by
  have h := rnd_rel x
  have e : (2:ℝ)^(-53 : ℤ) = 1 / 2^53 := by norm_num
  rw [e, abs_of_pos hx, abs_le] at h
  linarith [h.2]

theorem rnd_lt {x : ℝ} (hx : 0 < x) : rnd x ≤ x * (1 + 1/2^53) := by
  have h := rnd_rel x
  have e : (2:ℝ)^(-53 : ℤ) = 1 / 2^53 := by norm_num
  rw [e, abs_of_pos hx, abs_le] at h
  linarith [h.1]

end R53

open R53 in
/-- the score of the document for each boost: `x`, `-x` and `x/2^54`, where `x` is a positive number of 53 bits. -/
theorem c61_scores : ∃ y : ℝ, 0 < y ∧ ∀ boost : Rat, boost ≠ 0 → rnd boost = boost →
    ∃ v, queryScore (Memory.run c61History).reads (c61Query boost) "d" = some v ∧
      (boost = 1 → v.val = rnd y) ∧ (boost = -1 → v.val = - rnd y) ∧ (boost = 1/2^54 → v.val = rnd y * 2^(-54 : ℤ)) := by
  -- the inverse document frequency
  let p : ℝ := rnd ((1/2) / (3/2))
  have hp : 1/4 < p := by
    have := rnd_gt (x := (1/2) / (3/2)) (by norm_num)
    show 1/4 < rnd _
    norm_num at this ⊢
    linarith
  let z : ℝ := rnd (1 + p)
  have hz : 1 < z := by
    have := rnd_gt (x := 1 + p) (by linarith)
    show 1 < rnd _
    norm_num at this ⊢
    nlinarith
  let y : ℝ := rnd (Real.log z)
  have hlog : 0 < Real.log z := Real.log_pos hz
  have hy : 0 < y := rnd_pos hlog
  have hyy : rnd y = y := rnd_idem hlog
  -- the other factor
  let k1 : ℝ := rnd ((1.2 : Rat) : ℝ)
  have hk1 : 0 < k1 := rnd_pos (by norm_num)
  let b : ℝ := rnd ((0.75 : Rat) : ℝ)
  have hb : 0 < b := rnd_pos (by norm_num)
  have hb1 : b < 1 := by
    have := rnd_lt (x := ((0.75 : Rat) : ℝ)) (by norm_num)
    refine lt_of_le_of_lt this ?_
    norm_num
  let w : ℝ := rnd (rnd (1 * rnd (k1 + 1)) / rnd (1 + rnd (k1 * rnd (rnd (1 - b) + rnd (b * rnd (1 / rnd (1 / 1)))))))
  have hw : 0 < w := by
    have h1 : 0 < rnd (1 / rnd (1 / 1)) := rnd_pos (by have := rnd_pos (x := 1 / 1) (by norm_num); positivity)
    have h2 : 0 < rnd (b * rnd (1 / rnd (1 / 1))) := rnd_pos (by positivity)
    have h3 : 0 < rnd (1 - b) := rnd_pos (by linarith)
    have h4 : 0 < rnd (rnd (1 - b) + rnd (b * rnd (1 / rnd (1 / 1)))) := rnd_pos (by positivity)
    have h5 : 0 < rnd (k1 * rnd (rnd (1 - b) + rnd (b * rnd (1 / rnd (1 / 1))))) := rnd_pos (by positivity)
    have h6 := rnd_pos (x := 1 + rnd (k1 * rnd (rnd (1 - b) + rnd (b * rnd (1 / rnd (1 / 1)))))) (by positivity)
    have h7 : 0 < rnd (k1 + 1) := rnd_pos (by positivity)
    have h8 : 0 < rnd (1 * rnd (k1 + 1)) := rnd_pos (by positivity)
    exact rnd_pos (by positivity)
  have hyw : 0 < y * w := by positivity
  have hr : rnd (rnd (y * w)) = rnd (y * w) := rnd_idem hyw
  refine ⟨y * w, hyw, fun boost hb0 hrb => ?_⟩
  have hq : queryScore (Memory.run c61History).reads (c61Query boost) "d" =
      some (R53.of (0 + rnd (rnd (boost * y) * w))) := by
    have e1 : (Memory.run c61History).reads.matches "title" ["t"] "d" = true := by decide
    have e2 : (Memory.run c61History).reads.fieldOf "d" "title" = some { name := "title", length := 1, tf := [("t", 1)] } := by decide
    have e3 : (Memory.run c61History).reads.getFieldLength "title" = 1 := by decide
    have e4 : (Memory.run c61History).reads.getFieldSize "title" = 1 := by decide
    have e5 : (Memory.run c61History).reads.getNumberFieldTerm "title" ["t"] = [("t", 1)] := by decide
    have e6 : GoMap.getD [("t", (1 : Int))] "t" 0 = 1 := by decide
    have hne : GoFloat.eq0 (GoFloat.lit boost : R53) = false := by
      simp only [GoFloat.eq0, GoFloat.lit, R53.of, hrb]; simpa using hb0
    unfold queryScore c61Query
    simp only [e1, e2, e3, e4, e5, if_true, Option.map_some]
    unfold bm25
    simp only [hne, Bool.false_eq_true, if_false, List.foldl_cons, List.foldl_nil]
    unfold bm25Step idfBM25
    simp only [e6]
    simp only [GoFloat.lit, GoFloat.ofInt, GoFloat.add, GoFloat.sub, GoFloat.mul, GoFloat.div, GoFloat.log, R53.of]
    congr 1
    apply R53.ext
    simp only
    have c0 : rnd ((0.0 : Rat) : ℝ) = 0 := by norm_num
    have c1 : rnd ((1 : Rat) : ℝ) = 1 := by rw [Rat.cast_one]; exact rnd_one
    have c2 : rnd ((1 : Int) : ℝ) = 1 := by rw [Int.cast_one]; exact rnd_one
    have c3 : rnd ((0.5 : Rat) : ℝ) = 1/2 := by
      have : ((0.5 : Rat) : ℝ) = 1/2 := by norm_num
      rw [this]; exact rnd_half
    have c4 : rnd (rnd (1 - 1) + 1/2) = 1/2 := by rw [sub_self, rnd_zero, zero_add]; exact rnd_half
    have c5 : rnd (1 + 1/2) = 3/2 := by
      have : (1:ℝ) + 1/2 = 3/2 := by norm_num
      rw [this]; exact rnd_three_halves
    simp only [c0, c1, c2, c3, c4, c5, hrb]
    rfl
  refine ⟨_, hq, ?_, ?_, ?_⟩ <;> simp only [R53.of]
  · rintro rfl
    rw [Rat.cast_one, one_mul, hyy, zero_add, hr]
  · rintro rfl
    rw [Rat.cast_neg, Rat.cast_one, neg_mul, one_mul, rnd_neg, hyy, zero_add, neg_mul, rnd_neg, rnd_neg, hr]
  · rintro rfl
    have e : ((1/2^54 : Rat) : ℝ) * y = y * 2^(-54 : ℤ) := by
      have : (2:ℝ)^(-54 : ℤ) = 1 / 2^54 := by norm_num
      rw [this]; push_cast; ring
    rw [e, rnd_mul_pow, hyy, zero_add]
    have e2 : y * 2^(-54 : ℤ) * w = (y * w) * 2^(-54 : ℤ) := by ring
    rw [e2, rnd_mul_pow, rnd_mul_pow, hr]

open R53 in
/-- **C61 is false of the code.** With rounding to 53 bits, three queries with boosts 1, -1 and 2^-54 on one term, and one document:
two runs of the same search on the same store return different scores. -/
theorem c61_refuted {cpus : Nat} (hc : 0 < cpus) : ∃ l l' : Scores R53,
    SState.Returns (Memory.run c61History).reads [c61Query 1, c61Query (-1), c61Query (1/2^54)] cpus l ∧
    SState.Returns (Memory.run c61History).reads [c61Query 1, c61Query (-1), c61Query (1/2^54)] cpus l' ∧
    ∃ x x' : R53, ("d", x) ∈ l ∧ ("d", x') ∈ l' ∧ 0 < x.val ∧ x'.val = 0 := by
  obtain ⟨y, hy, h⟩ := c61_scores
  have hx := rnd_pos hy
  have hid := rnd_idem hy
  obtain ⟨v1, s1, e1, -, -⟩ := h 1 (by norm_num) (by rw [Rat.cast_one]; exact rnd_one)
  obtain ⟨v2, s2, -, e2, -⟩ := h (-1) (by norm_num) (by rw [Rat.cast_neg, Rat.cast_one, rnd_neg, rnd_one])
  obtain ⟨v3, s3, -, -, e3⟩ := h (1/2^54) (by norm_num) (by
    have := rnd_mul_pow 1 (-54)
    rw [rnd_one] at this
    norm_num at this ⊢
    exact this)
  have e1 := e1 rfl
  have e2 := e2 rfl
  have e3 := e3 rfl
  have hcons := memory_consistent (Memory.run c61History)
  obtain ⟨l, hl, hm⟩ := every_order hcons [c61Query 1, c61Query (-1), c61Query (1/2^54)] hc (List.Perm.refl _)
  obtain ⟨l', hl', hm'⟩ := every_order hcons [c61Query 1, c61Query (-1), c61Query (1/2^54)] hc
    (qs := [c61Query 1, c61Query (1/2^54), c61Query (-1)]) (.cons _ (.swap ..))
  have d1 : docScores (Memory.run c61History).reads [c61Query 1, c61Query (-1), c61Query (1/2^54)] "d" = [v1, v2, v3] := by
    unfold docScores; simp only [List.filterMap_cons, s1, s2, s3, List.filterMap_nil]
  have d2 : docScores (Memory.run c61History).reads [c61Query 1, c61Query (1/2^54), c61Query (-1)] "d" = [v1, v3, v2] := by
    unfold docScores; simp only [List.filterMap_cons, s1, s2, s3, List.filterMap_nil]
  refine ⟨l, l', hl, hl', _, _, (hm "d" _).2 ⟨by rw [d1]; simp, rfl⟩, (hm' "d" _).2 ⟨by rw [d2]; simp, rfl⟩, ?_, ?_⟩
  · rw [d1]
    simp only [List.foldl_cons, List.foldl_nil, GoFloat.add, GoFloat.lit, R53.of, e1, e2, e3]
    have c0 : rnd ((0 : Rat) : ℝ) = 0 := by simp
    rw [c0, zero_add, hid, add_neg_cancel, rnd_zero, zero_add, rnd_mul_pow, hid]
    positivity
  · rw [d2]
    simp only [List.foldl_cons, List.foldl_nil, GoFloat.add, GoFloat.lit, R53.of, e1, e2, e3]
    have c0 : rnd ((0 : Rat) : ℝ) = 0 := by simp
    rw [c0, zero_add, hid, rnd_add_tiny hy, add_neg_cancel, rnd_zero]

/-- **C61, with rounding, for at most two queries.** GET /nir makes two. -/
theorem c61_two_queries_rounded {st : Reads} (hst : st.Consistent) (query : List (Query R53)) (hq : query.length ≤ 2) (cpus cpus' : Nat)
    {l l' : Scores R53} (h : SState.Returns st query cpus l) (h' : SState.Returns st query cpus' l') (d : String) (x : R53) :
    (d, x) ∈ l ↔ (d, x) ∈ l' := by
  refine c61_two_queries_partial (fun a b => ?_) hst query hq cpus cpus' h h' d x
  apply R53.ext
  have c0 : R53.rnd ((0 : Rat) : ℝ) = 0 := by simp
  simp only [GoFloat.add, GoFloat.lit, R53.of, c0, zero_add, a.rep, b.rep]
  rw [add_comm]

example : ∃ l : Scores R53, SState.Returns (Memory.run c61History).reads [c61Query 1, c61Query 2] 4 l :=
  search_returns (memory_consistent _) _ (by omega)

end Goir
