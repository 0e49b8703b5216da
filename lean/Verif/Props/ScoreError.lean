import Verif.Lemmas.Near
import Verif.Props.NaN
/-!
# C104: rounding changes scores by little, and the ranking only among nearly equal documents
-/
namespace Goir
open R53

/-- the query, with its boost as a real number. -/
noncomputable def Query.exact (q : Query R53) : Query ℝ := ⟨q.fieldName, q.boost.val, q.terms⟩

theorem near_lit (q : Rat) (h : 0 ≤ q) : Near 1 (GoFloat.lit q : R53).val (q : ℝ) := Near.rnd (by exact_mod_cast h)

theorem near_ofInt (n : Int) (h : 0 ≤ n) : Near 1 (GoFloat.ofInt n : R53).val (n : ℝ) := Near.rnd (by exact_mod_cast h)

theorem lit_b : (GoFloat.lit 0.75 : R53).val = 3/4 := by
  show R53.rnd ((0.75 : Rat) : ℝ) = 3/4
  have e : ((0.75 : Rat) : ℝ) = ((3:ℤ):ℝ) * 2^(-2 : ℤ) := by norm_num
  rw [e, rnd_mul_pow, rnd_int 3 (by norm_num)]
  norm_num

/-- the idf of a term that is in `n` of `N` documents. -/
theorem near_idf {N n : Nat} (hn : n ≤ N) (hN : N ≤ 2^40) :
    Near (8 * N + 9) (idfBM25 (GoFloat.ofInt N : R53) (GoFloat.ofInt n)).val (Spec.idf N n) := by
  have hnR : (n:ℝ) ≤ N := by exact_mod_cast hn
  have n0 : (0:ℝ) ≤ n := Nat.cast_nonneg n
  have eN : (GoFloat.ofInt N : R53).val = N := by
    show R53.rnd ((N:ℤ):ℝ) = _
    rw [rnd_int _ (by rw [abs_of_nonneg (by omega)]; omega)]; simp
  have en : (GoFloat.ofInt n : R53).val = n := by
    show R53.rnd ((n:ℤ):ℝ) = _
    rw [rnd_int _ (by rw [abs_of_nonneg (by omega)]; omega)]; simp
  have e1 : R53.rnd ((N:ℝ) - n) = N - n := by
    have := rnd_int ((N:ℤ) - n) (by rw [abs_of_nonneg (by omega)]; omega)
    push_cast at this; exact this
  have e2 : R53.rnd ((N:ℝ) - n + 1/2) = N - n + 1/2 := by
    have := rnd_half_int (2 * ((N:ℤ) - n) + 1) (by rw [abs_of_nonneg (by omega)]; omega)
    push_cast at this
    have e : (2 * ((N:ℝ) - n) + 1) / 2 = N - n + 1/2 := by ring
    rwa [e] at this
  have e3 : R53.rnd ((n:ℝ) + 1/2) = n + 1/2 := by
    have := rnd_half_int (2 * (n:ℤ) + 1) (by rw [abs_of_nonneg (by omega)]; omega)
    push_cast at this
    have e : (2 * (n:ℝ) + 1) / 2 = n + 1/2 := by ring
    rwa [e] at this
  rw [idf_rounded, eN, en, e1, e2, e3]
  set q : ℝ := (N - n + 1/2) / (n + 1/2) with hq
  have q0 : 0 ≤ q := div_nonneg (by linarith) (by linarith)
  have k1 : Near 2 (R53.rnd (1 + R53.rnd q)) (1 + q) := (((Near.refl (by norm_num)).mono (by omega)).add (Near.rnd q0)).rounded
  have hx : 1 ≤ R53.rnd (1 + R53.rnd q) := rnd_ge_one (by have := rnd_nonneg q0; linarith)
  have hy : 1 ≤ 1 + q := by linarith
  have hlog : 1 ≤ ((2 * N + 2 : ℕ) : ℝ) * Real.log (1 + q) := by
    have h1 := Real.one_sub_inv_le_log_of_pos (x := 1 + q) (by linarith)
    have h2 : (1 + q)⁻¹ = (n + 1/2) / (N + 1) := by
      have : 1 + q = (N + 1) / (n + 1/2) := by rw [hq]; field_simp; ring
      rw [this, inv_div]
    have hN1 : (0:ℝ) < N + 1 := by positivity
    have h3 : 1 / (2 * ((N:ℝ) + 1)) ≤ 1 - (1 + q)⁻¹ := by
      rw [h2, one_sub_div hN1.ne', div_le_div_iff₀ (by positivity) hN1]
      nlinarith
    have h4 : 1 / (2 * ((N:ℝ) + 1)) ≤ Real.log (1 + q) := h3.trans h1
    rw [div_le_iff₀ (by positivity)] at h4
    push_cast
    linarith
  have := (k1.log hx hy hlog (by omega)).rounded
  refine this.mono (by omega)

/-- inputs of a search that are in scale: the boost is not negative, the field has between 1 and `N` documents and a positive total
length, no more documents contain a term than have the field, and the query has at most `T` terms. -/
structure InScale (st : Reads) (N T : Nat) (q : Query R53) : Prop where
  boost : 0 ≤ q.boost.val
  size : 0 < st.getFieldSize q.fieldName ∧ st.getFieldSize q.fieldName ≤ N
  length : 0 < st.getFieldLength q.fieldName
  df : ∀ t ∈ q.terms, 0 ≤ (st.getNumberFieldTerm q.fieldName q.terms).getD t 0 ∧
    (st.getNumberFieldTerm q.fieldName q.terms).getD t 0 ≤ st.getFieldSize q.fieldName
  terms : q.terms.length ≤ T
  field : ∀ d f, st.fieldOf d q.fieldName = some f → 0 ≤ f.length ∧ ∀ t, 0 ≤ f.tf.getD t 0

/-- one query. -/
theorem near_queryScore {st : Reads} {N T : Nat} (hN : N ≤ 2^40) {q : Query R53} (d : String)
    (h : st.matches q.fieldName q.terms d = true → (st.fieldOf d q.fieldName).isSome = true → InScale st N T q) :
    match queryScore st q d, queryScore st q.exact d with
    | none, none => True
    | some x, some y => Near (8 * N + T + 25) x.val y
    | _, _ => False := by
  unfold queryScore Query.exact
  simp only
  by_cases hm : st.matches q.fieldName q.terms d = true
  · rw [if_pos hm, if_pos hm]
    cases hf : st.fieldOf d q.fieldName with
    | none => trivial
    | some field =>
      simp only [Option.map_some]
      have h := h hm (by rw [hf]; rfl)
      obtain ⟨hl, htf⟩ := h.field d field hf
      obtain ⟨s0, s1⟩ := h.size
      obtain ⟨S, hS⟩ : ∃ S : Nat, st.getFieldSize q.fieldName = S := ⟨_, (Int.toNat_of_nonneg s0.le).symm⟩
      have hSN : S ≤ N := by omega
      have hlen := h.length
      rw [hS]
      have eS : (GoFloat.ofInt (S:ℤ) : R53).val = S := by
        show R53.rnd ((S:ℤ):ℝ) = _
        rw [rnd_int _ (by rw [abs_of_nonneg (by omega)]; omega)]; simp
      -- the average
      have havg : Near 2 (GoFloat.div (GoFloat.ofInt (st.getFieldLength q.fieldName)) (GoFloat.ofInt (S:ℤ)) : R53).val
          ((st.getFieldLength q.fieldName : ℝ) / ((S:ℤ):ℝ)) := by
        show Near 2 (R53.rnd (_ / (GoFloat.ofInt (S:ℤ) : R53).val)) _
        exact ((near_ofInt _ hlen.le).div (Near.of_eq (by exact_mod_cast Nat.zero_le S) (by rw [eS]; simp))).rounded
      rw [c64_bm25_formula]
      show Near _ _ (Spec.bm25 q.terms ((1.2 : Rat) : ℝ) ((0.75 : Rat) : ℝ) (if q.boost.val = 0 then 1 else q.boost.val)
        ((st.getFieldLength q.fieldName : ℝ) / ((S:ℤ):ℝ)) ((S:ℤ):ℝ) _ _ _)
      generalize (GoFloat.div (GoFloat.ofInt (st.getFieldLength q.fieldName)) (GoFloat.ofInt (S:ℤ)) : R53) = avg at havg ⊢
      generalize ((st.getFieldLength q.fieldName : ℝ) / ((S:ℤ):ℝ)) = avg' at havg ⊢
      -- the boost
      have hboost : Near 0 (if GoFloat.eq0 q.boost = true then (GoFloat.lit 1 : R53) else q.boost).val (if q.boost.val = 0 then 1 else q.boost.val) := by
        by_cases hb : q.boost.val = 0
        · rw [if_pos (by simp [GoFloat.eq0, hb]), if_pos hb, lit_one]; exact Near.refl (by norm_num)
        · rw [if_neg (by simp [GoFloat.eq0, hb]), if_neg hb]; exact Near.refl h.boost
      unfold bm25
      simp only
      generalize (if GoFloat.eq0 q.boost = true then (GoFloat.lit 1 : R53) else q.boost) = bst at hboost ⊢
      generalize (if q.boost.val = 0 then 1 else q.boost.val) = bst' at hboost ⊢
      -- constants
      have hk : Near 1 (GoFloat.lit 1.2 : R53).val ((1.2 : Rat) : ℝ) := near_lit _ (by norm_num)
      generalize hk1 : (GoFloat.lit 1.2 : R53) = k1 at hk ⊢
      generalize hk1' : ((1.2 : Rat) : ℝ) = k1' at hk ⊢
      have hb : ((0.75 : Rat) : ℝ) = 3/4 := by norm_num
      rw [hb]
      have lb := lit_b
      generalize (GoFloat.lit 0.75 : R53) = b at lb ⊢
      have hden : Near 8 (R53.rnd (k1.val * R53.rnd (R53.rnd ((GoFloat.lit 1 : R53).val - b.val) + R53.rnd (b.val * R53.rnd ((GoFloat.ofInt field.length : R53).val / avg.val)))))
          (k1' * (1 - 3/4 + 3/4 * ((field.length : ℝ) / avg'))) := by
        rw [lit_one, lb]
        have a1 := ((near_ofInt _ hl).div havg).rounded
        have a2 := ((Near.refl (x := 3/4) (by norm_num)).mul a1).rounded
        have a3 : Near 1 (R53.rnd (1 - 3/4)) (1 - 3/4) := Near.rnd (by norm_num)
        have a4 := ((a3.mono (by omega)).add a2).rounded
        exact (hk.mul a4).rounded.mono (by omega)
      have step : ∀ t ∈ q.terms, Near (8 * N + 25)
          (R53.rnd (R53.rnd (bst.val * (idfBM25 (GoFloat.ofInt (S:ℤ) : R53) (GoFloat.ofInt ((st.getNumberFieldTerm q.fieldName q.terms).getD t 0))).val) *
            R53.rnd (R53.rnd ((GoFloat.ofInt (field.tf.getD t 0) : R53).val * R53.rnd (k1.val + (GoFloat.lit 1 : R53).val)) /
              R53.rnd ((GoFloat.ofInt (field.tf.getD t 0) : R53).val + R53.rnd (k1.val *
                R53.rnd (R53.rnd ((GoFloat.lit 1 : R53).val - b.val) + R53.rnd (b.val * R53.rnd ((GoFloat.ofInt field.length : R53).val / avg.val))))))))
          (bst' * Spec.idf ((S:ℤ):ℝ) (((st.getNumberFieldTerm q.fieldName q.terms).getD t 0 : ℤ) : ℝ) *
            Spec.saturation k1' (3/4) avg' ((field.tf.getD t 0 : ℤ) : ℝ) ((field.length : ℤ) : ℝ)) := by
        intro t ht
        obtain ⟨d0, d1⟩ := h.df t ht
        obtain ⟨n, hn⟩ : ∃ n : Nat, (st.getNumberFieldTerm q.fieldName q.terms).getD t 0 = n := ⟨_, (Int.toNat_of_nonneg d0).symm⟩
        rw [hn]
        have hidf := near_idf (N := S) (n := n) (by omega) (by omega)
        have c1 : Near 2 (R53.rnd (k1.val + (GoFloat.lit 1 : R53).val)) (k1' + 1) := by
          rw [lit_one]; exact (hk.add ((Near.refl (by norm_num)).mono (by omega))).rounded
        have hfr := near_ofInt _ (htf t)
        have c2 := (hfr.mul c1).rounded
        have c3 := ((hfr.mono (n := 8) (by omega)).add hden).rounded
        have c4 := (c2.div c3).rounded
        have c5 := (hboost.mul hidf).rounded
        have c6 := (c5.mul c4).rounded
        unfold Spec.saturation
        simp only [Int.cast_natCast]
        exact c6.mono (by omega)
      -- the sum
      have key : ∀ (ts : List String) (acc : R53) (acc' : ℝ) (m : Nat), (∀ t ∈ ts, t ∈ q.terms) → 8 * N + 25 ≤ m → Near m acc.val acc' →
          Near (m + ts.length) (ts.foldl (bm25Step k1 b bst avg (GoFloat.ofInt (S:ℤ)) (st.getNumberFieldTerm q.fieldName q.terms) field) acc).val
            (acc' + (ts.map fun t => bst' * Spec.idf ((S:ℤ):ℝ) (((st.getNumberFieldTerm q.fieldName q.terms).getD t 0 : ℤ) : ℝ) *
              Spec.saturation k1' (3/4) avg' ((field.tf.getD t 0 : ℤ) : ℝ) ((field.length : ℤ) : ℝ)).sum) := by
        intro ts
        induction ts with
        | nil => intro acc acc' m _ _ ha; simpa using ha
        | cons t ts ih =>
          intro acc acc' m hts hm ha
          rw [List.foldl_cons, List.map_cons, List.sum_cons, ← add_assoc, List.length_cons, show m + (ts.length + 1) = (m + 1) + ts.length by omega]
          refine ih _ _ (m + 1) (fun x hx => hts x (List.mem_cons_of_mem _ hx)) (by omega) ?_
          exact (ha.add ((step t (hts t List.mem_cons_self)).mono hm)).rounded
      have := key q.terms (GoFloat.lit 0.0) 0 (8 * N + 25) (fun _ h => h) le_rfl (by
        have e : (GoFloat.lit 0.0 : R53).val = 0 := by show R53.rnd ((0.0 : Rat) : ℝ) = 0; norm_num
        rw [e]; exact (Near.refl le_rfl).mono (by omega))
      rw [zero_add] at this
      have hT := h.terms
      exact this.mono (by omega)
  · rw [if_neg hm, if_neg hm]; trivial

/-- all queries. -/
theorem near_docScores {st : Reads} {N T : Nat} (hN : N ≤ 2^40) (d : String) :
    ∀ (query : List (Query R53)), (∀ q ∈ query, st.matches q.fieldName q.terms d = true → (st.fieldOf d q.fieldName).isSome = true → InScale st N T q) →
      List.Forall₂ (fun x y => Near (8 * N + T + 25) x.val y) (docScores st query d) (docScores st (query.map Query.exact) d)
  | [], _ => .nil
  | q :: query, h => by
    have ih := near_docScores hN d query fun x hx => h x (List.mem_cons_of_mem _ hx)
    have hq := near_queryScore hN d (h q List.mem_cons_self)
    unfold docScores at ih ⊢
    rw [List.map_cons, List.filterMap_cons, List.filterMap_cons]
    cases h1 : queryScore st q d <;> cases h2 : queryScore st q.exact d <;> simp only [h1, h2] at hq
    · exact ih
    · exact .cons hq ih

theorem near_sum {m : Nat} : ∀ {xs : List R53} {ys : List ℝ}, List.Forall₂ (fun x y => Near m x.val y) xs ys →
    ∀ (a : R53) (b : ℝ) (k : Nat), m ≤ k → Near k a.val b → Near (k + xs.length) (xs.foldl GoFloat.add a).val (b + ys.sum)
  | _, _, .nil, a, b, k, _, h => by simpa using h
  | x :: xs, y :: ys, .cons hxy hr, a, b, k, hk, h => by
    rw [List.foldl_cons, List.sum_cons, ← add_assoc, List.length_cons, show k + (xs.length + 1) = (k + 1) + xs.length by omega]
    exact near_sum hr _ _ (k + 1) (by omega) (h.add (hxy.mono hk)).rounded

/-- the relative error of the scores of a search with `Q` queries of at most `T` terms, on fields of at most `N` documents. -/
noncomputable def scoreError (N T Q : Nat) : ℝ := (16 * N + 2 * T + 2 * Q + 50) / 2^53

/-- the score of a document without rounding: the sum of the BM25 scores of the queries that match it. -/
noncomputable def exactScore (st : Reads) (query : List (Query R53)) (d : String) : ℝ := (docScores st (query.map Query.exact) d).sum

/-- the search is in scale for a document: every query that finds it is. -/
def ScaleFor (st : Reads) (query : List (Query R53)) (N T : Nat) (d : String) : Prop :=
  N ≤ 2^40 ∧ T ≤ 2^40 ∧ query.length ≤ 2^40 ∧
  ∀ q ∈ query, st.matches q.fieldName q.terms d = true → (st.fieldOf d q.fieldName).isSome = true → InScale st N T q

/-- **C104.** Whatever the schedule, the score of every document returned by Search is its score without rounding, up to a relative error
of `(16 N + 2 T + 2 Q + 50) / 2^53`. -/
theorem c104_error {st : Reads} (hst : st.Consistent) (query : List (Query R53)) (cpus : Nat) {N T : Nat} {l : Scores R53}
    (h : SState.Returns st query cpus l) {d : String} (hr : ScaleFor st query N T d) {x : R53} (hx : (d, x) ∈ l) :
    |x.val - exactScore st query d| ≤ scoreError N T query.length * exactScore st query d := by
  obtain ⟨hN, hT, hQ, hr⟩ := hr
  obtain ⟨-, qs, hp, hm⟩ := c59_result hst query cpus h
  obtain ⟨-, rfl⟩ := (hm d x).1 hx
  have e0 : (GoFloat.lit 0 : R53).val = 0 := by show R53.rnd ((0 : Rat) : ℝ) = 0; norm_num
  have hs := near_sum (near_docScores hN d qs fun q hq => hr q (hp.subset hq)) (GoFloat.lit 0) 0 (8 * N + T + 25) le_rfl
    (by rw [e0]; exact (Near.refl le_rfl).mono (by omega))
  have hlen : (docScores st qs d).length ≤ query.length := by
    rw [← hp.length_eq]; exact List.length_filterMap_le _ _
  have he : (docScores st (qs.map Query.exact) d).sum = exactScore st query d :=
    (docScores_perm (st := st) (hp.map Query.exact) d).sum_eq
  rw [zero_add, he] at hs
  have := (hs.mono (n := 8 * N + T + 25 + query.length) (by omega)).error (by omega)
  refine this.trans (le_of_eq ?_)
  unfold scoreError
  push_cast
  ring

/-- two searches give a document scores that differ by at most twice that, however their goroutines are scheduled (compare C61). -/
theorem c104_two_runs {st : Reads} (hst : st.Consistent) (query : List (Query R53)) (cpus cpus' : Nat) {N T : Nat} {l l' : Scores R53}
    (h : SState.Returns st query cpus l) (h' : SState.Returns st query cpus' l') {d : String} (hr : ScaleFor st query N T d) {x x' : R53}
    (hx : (d, x) ∈ l) (hx' : (d, x') ∈ l') : |x.val - x'.val| ≤ 2 * scoreError N T query.length * exactScore st query d := by
  have h1 := abs_le.1 (c104_error hst query cpus h hr hx)
  have h2 := abs_le.1 (c104_error hst query cpus' h' hr hx')
  rw [abs_le]
  constructor <;> linarith [h1.1, h1.2, h2.1, h2.2]

/-- **C104.** A document whose score without rounding is greater than that of another one by more than the errors comes before it in
the results. -/
theorem c104_order {st : Reads} (hst : st.Consistent) (query : List (Query R53)) (cpus : Nat) {N T : Nat} {l : Scores R53}
    (h : SState.Returns st query cpus l) {d d' : String} (hr : ScaleFor st query N T d) (hr' : ScaleFor st query N T d')
    (hlt : exactScore st query d' * (1 + scoreError N T query.length) < exactScore st query d * (1 - scoreError N T query.length))
    {i j : Nat} (hi : (l.map Prod.fst)[i]? = some d) (hj : (l.map Prod.fst)[j]? = some d') : i < j := by
  rw [List.getElem?_map, Option.map_eq_some_iff] at hi hj
  obtain ⟨⟨a, x⟩, hi, rfl⟩ := hi
  obtain ⟨⟨a', x'⟩, hj, rfl⟩ := hj
  have h1 := abs_le.1 (c104_error hst query cpus h hr (List.mem_of_getElem? hi))
  have h2 := abs_le.1 (c104_error hst query cpus h hr' (List.mem_of_getElem? hj))
  have hgt : x'.val < x.val := by linarith [h1.1, h2.2]
  have hsort := (c59_ranking_rounded hst query cpus h).2.2
  by_contra hc
  rcases Nat.lt_or_ge j i with hji | hji
  · obtain ⟨hi1, hi2⟩ := List.getElem?_eq_some_iff.1 hi
    obtain ⟨hj1, hj2⟩ := List.getElem?_eq_some_iff.1 hj
    have := List.pairwise_iff_getElem.1 hsort j i hj1 hi1 hji
    rw [hi2, hj2] at this
    simp only at this
    linarith
  · have : i = j := by omega
    subst this
    rw [hi] at hj
    cases hj
    exact lt_irrefl _ hgt

/-- every search on a Memory store with sane contents is in scale: `N` bounds the number of saves of each queried field. -/
theorem memory_scale (h : List StoreOp) (hgv : Spec.GoValues h) (hs : Sane h) (query : List (Query R53)) {N T : Nat} (hN : N ≤ 2^40) (hT : T ≤ 2^40)
    (hQ : query.length ≤ 2^40) (hq : ∀ q ∈ query, 0 ≤ q.boost.val ∧ q.terms.length ≤ T ∧ Spec.callCount h q.fieldName ≤ N) (d : String) :
    ScaleFor (Memory.run h).reads query N T d := by
  refine ⟨hN, hT, hQ, fun q hqm hmat hfield => ?_⟩
  obtain ⟨hboost, hterms, hcall⟩ := hq q hqm
  obtain ⟨t, ht, op', hop', -, -, hname, htk⟩ := (memory_matches h hs.save q.fieldName q.terms d).1 ⟨hmat, hfield⟩
  obtain ⟨c1, c2, c3⟩ := c15_memory_counters_exact h hgv q.fieldName q.terms
  have hsize : (Memory.run h).reads.getFieldSize q.fieldName = Spec.callCount h q.fieldName := c1
  have hlen : (Memory.run h).reads.getFieldLength q.fieldName = Spec.lengthSum h q.fieldName := c2
  have hcount : 0 < Spec.callCount h q.fieldName := by
    unfold Spec.callCount
    rw [List.length_pos_iff_exists_mem]
    exact ⟨op', by simp [hop', hname]⟩
  refine ⟨hboost, ⟨by rw [hsize]; exact_mod_cast hcount, by rw [hsize]; exact_mod_cast hcall⟩, ?_, ?_, hterms, ?_⟩
  · rw [hlen]
    unfold Spec.lengthSum
    have pos : ∀ l : List StoreOp, (∀ o ∈ l, 0 ≤ o.field.length) → 0 ≤ (l.map fun o => o.field.length).sum ∧
        (op' ∈ l → 0 < op'.field.length → 0 < (l.map fun o => o.field.length).sum) := by
      intro l
      induction l with
      | nil => intro _; exact ⟨by simp, fun hm => by cases hm⟩
      | cons o l ih =>
        intro h0
        obtain ⟨i1, i2⟩ := ih fun o ho => h0 o (by simp [ho])
        have := h0 o (by simp)
        simp only [List.map_cons, List.sum_cons]
        refine ⟨by omega, fun hm hp => ?_⟩
        rcases List.mem_cons.1 hm with rfl | hm
        · omega
        · have := i2 hm hp; omega
    refine (pos _ fun o ho => (hs.len o (List.mem_filter.1 ho).1).1).2 (by simp [hop', hname]) ?_
    exact (hs.len op' hop').2 fun e => by simp [e, GoMap.keys] at htk
  · intro t' ht'
    have e : ((Memory.run h).reads.getNumberFieldTerm q.fieldName q.terms).getD t' 0 = Spec.termCount h q.fieldName t' := by
      show GoMap.getD ((Memory.run h).getNumberFieldTerm q.fieldName q.terms) t' 0 = _
      unfold GoMap.getD
      rw [c3, if_pos ht']; rfl
    rw [e, hsize]
    refine ⟨by omega, ?_⟩
    have : Spec.termCount h q.fieldName t' ≤ Spec.callCount h q.fieldName := by
      unfold Spec.termCount Spec.callCount
      refine List.Sublist.length_le ?_
      refine List.monotone_filter_right _ ?_
      intro op ho
      simp only [decide_eq_true_eq] at ho ⊢
      exact ho.2.1
    exact_mod_cast this
  · intro d' f hf
    have hlast : Spec.lastSaved h d' q.fieldName = some f := by
      rw [← hf]
      show _ = ((Memory.run h).getFields [d'] q.fieldName).get? d'
      rw [c14_memory_getFields_latest]; simp
    obtain ⟨op, hop, -, -, -, rfl⟩ := lastSaved_some_mem h d' q.fieldName f hlast
    refine ⟨(hs.len op hop).1, fun t' => ?_⟩
    unfold GoMap.getD
    cases hg : op.field.tf.get? t' with
    | none => simp
    | some n => exact hs.tf op hop t' n (GoMap.mem_of_get? hg)

/-- **C104, over histories.** On a Memory store filled by any sane history of saves, for non-negative boosts: every score is within the
relative error, and documents that differ by more than the errors are in the right order. -/
theorem c104_memory (h : List StoreOp) (hgv : Spec.GoValues h) (hs : Sane h) (query : List (Query R53)) {N T : Nat} (hN : N ≤ 2^40) (hT : T ≤ 2^40)
    (hQ : query.length ≤ 2^40) (hq : ∀ q ∈ query, 0 ≤ q.boost.val ∧ q.terms.length ≤ T ∧ Spec.callCount h q.fieldName ≤ N) (cpus : Nat)
    {l : Scores R53} (hl : SState.Returns (Memory.run h).reads query cpus l) :
    (∀ d x, (d, x) ∈ l → |x.val - exactScore (Memory.run h).reads query d| ≤
      scoreError N T query.length * exactScore (Memory.run h).reads query d) ∧
    ∀ (i j : Nat) (d d' : String), (l.map Prod.fst)[i]? = some d → (l.map Prod.fst)[j]? = some d' →
      exactScore (Memory.run h).reads query d' * (1 + scoreError N T query.length) <
        exactScore (Memory.run h).reads query d * (1 - scoreError N T query.length) → i < j :=
  have hsc := memory_scale h hgv hs query hN hT hQ hq
  ⟨fun d _ hx => c104_error (memory_consistent _) query cpus hl (hsc d) hx,
   fun _ _ d d' hi hj hlt => c104_order (memory_consistent _) query cpus hl (hsc d) (hsc d') hlt hi hj⟩

/-- two documents of the same length, of which one has the term twice. -/
def c104History : List StoreOp :=
  [.save "d" { name := "title", length := 2, tf := [("t", 2)] }, .save "e" { name := "title", length := 2, tf := [("t", 1), ("u", 1)] }]

/-- the search for the term. -/
noncomputable def c104Query : List (Query R53) := [⟨"title", GoFloat.lit 1, ["t"]⟩]

theorem c104_example_scores : exactScore (Memory.run c104History).reads c104Query "d" = Real.log (6/5) * (11/8) ∧
    exactScore (Memory.run c104History).reads c104Query "e" = Real.log (6/5) := by
  have key : ∀ d f, (Memory.run c104History).reads.matches "title" ["t"] d = true → (Memory.run c104History).reads.fieldOf d "title" = some f →
      f.length = 2 → exactScore (Memory.run c104History).reads c104Query d =
        Real.log (6/5) * ((f.tf.getD "t" 0 : ℤ) * (11/5) / ((f.tf.getD "t" 0 : ℤ) + 6/5)) := by
    intro d f hm hf hl
    have e1 : (Memory.run c104History).reads.getFieldLength "title" = 4 := by decide
    have e2 : (Memory.run c104History).reads.getFieldSize "title" = 2 := by decide
    have e3 : (Memory.run c104History).reads.getNumberFieldTerm "title" ["t"] = [("t", 2)] := by decide
    unfold exactScore docScores c104Query Query.exact
    simp only [List.map_cons, List.map_nil, List.filterMap_cons, List.filterMap_nil]
    unfold queryScore
    simp only [hm, hf, if_true, Option.map_some, e1, e2, e3, List.sum_cons, List.sum_nil, add_zero]
    rw [c64_bm25_formula]
    simp only [GoFloat.div, GoFloat.ofInt, hl]
    unfold Spec.bm25 Spec.idf Spec.saturation
    simp only [List.map_cons, List.map_nil, List.sum_cons, List.sum_nil, add_zero]
    have e4 : GoMap.getD [("t", (2 : Int))] "t" 0 = 2 := by decide
    rw [e4]
    have e5 : (GoFloat.lit 1.2 : ℝ) = 6/5 := by show ((1.2 : Rat) : ℝ) = _; norm_num
    have e6 : (GoFloat.lit 0.75 : ℝ) = 3/4 := by show ((0.75 : Rat) : ℝ) = _; norm_num
    rw [lit_one, e5, e6]
    norm_num
  constructor
  · rw [key "d" { name := "title", length := 2, tf := [("t", 2)] } (by decide) (by decide) rfl]
    have e4 : GoMap.getD [("t", (2 : Int))] "t" 0 = 2 := by decide
    rw [e4]; norm_num
  · rw [key "e" { name := "title", length := 2, tf := [("t", 1), ("u", 1)] } (by decide) (by decide) rfl]
    have e4 : GoMap.getD [("t", (1 : Int)), ("u", 1)] "t" 0 = 1 := by decide
    rw [e4]; norm_num

/-- C104's hypotheses can be met: the document that has the term twice comes first. -/
example {cpus : Nat} {l : Scores R53} (hl : SState.Returns (Memory.run c104History).reads c104Query cpus l) {i j : Nat}
    (hi : (l.map Prod.fst)[i]? = some "d") (hj : (l.map Prod.fst)[j]? = some "e") : i < j := by
  have hgv : Spec.GoValues c104History := by unfold Spec.GoValues; decide
  have hs : Sane c104History := by
    refine ⟨by decide, ?_, by decide⟩
    intro op ho t n ht
    simp only [c104History, List.mem_cons, List.not_mem_nil, or_false] at ho
    rcases ho with rfl | rfl <;> simp [StoreOp.field] at ht
    · omega
    · rcases ht with ⟨-, rfl⟩ | ⟨-, rfl⟩ <;> omega
  have hq : ∀ q ∈ c104Query, 0 ≤ q.boost.val ∧ q.terms.length ≤ 1 ∧ Spec.callCount c104History q.fieldName ≤ 2 := by
    intro q hq
    simp only [c104Query, List.mem_cons, List.not_mem_nil, or_false] at hq
    subst hq
    refine ⟨?_, le_rfl, by decide⟩
    show 0 ≤ (GoFloat.lit 1 : R53).val
    rw [lit_one]; norm_num
  refine (c104_memory c104History hgv hs c104Query (by norm_num) (by norm_num) (by simp [c104Query]) hq cpus hl).2 i j "d" "e" hi hj ?_
  obtain ⟨e1, e2⟩ := c104_example_scores
  rw [e1, e2]
  have hp : 0 < Real.log (6/5) := Real.log_pos (by norm_num)
  have hw : scoreError 2 1 c104Query.length = 86 / 2^53 := by simp [scoreError, c104Query]; norm_num
  rw [hw]
  nlinarith

end Goir
