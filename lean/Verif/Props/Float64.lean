import Verif.Lemmas.Score64
import Mathlib.Analysis.Complex.ExponentialBounds
/-!
# C112: scores in IEEE 754 double precision

The float64 of `Verif.Model.Float64` has the range of exponents, subnormal numbers, signed zeros, infinities and NaN of the real one, and
a `math.Log` that need not be correctly rounded.
-/
namespace Goir
open R53

variable {L : MathLog}

/-- the query, with its boost as a real number (0 for a boost that is not finite). -/
noncomputable def Query.exact64 (q : Query (F64 L)) : Query ℝ := ⟨q.fieldName, q.boost.toReal.getD 0, q.terms⟩

/-- inputs of a search that are in scale: the boost is zero or between `2^-100` and `2^100`, the field has between 1 and `N` documents, its total
length and the lengths and frequencies in it are Go ints, no more documents contain a term than have the field, and the query has at most `T` terms. -/
structure InScale64 (st : Reads) (N T : Nat) (q : Query (F64 L)) : Prop where
  boost : ∃ x, q.boost.toReal = some x ∧ (x = 0 ∨ (2:ℝ)^(-100:ℤ) ≤ x ∧ x ≤ (2:ℝ)^(100:ℤ))
  size : 0 < st.getFieldSize q.fieldName ∧ st.getFieldSize q.fieldName ≤ N
  length : 0 < st.getFieldLength q.fieldName ∧ st.getFieldLength q.fieldName < 2^63
  df : ∀ t ∈ q.terms, 0 ≤ (st.getNumberFieldTerm q.fieldName q.terms).getD t 0 ∧
    (st.getNumberFieldTerm q.fieldName q.terms).getD t 0 ≤ st.getFieldSize q.fieldName
  terms : q.terms.length ≤ T
  field : ∀ d f, st.fieldOf d q.fieldName = some f → (0 ≤ f.length ∧ f.length < 2^63) ∧ ∀ t, 0 ≤ f.tf.getD t 0 ∧ f.tf.getD t 0 < 2^63

theorem w_int63 {i : ℤ} (h0 : 0 ≤ i) (h : i < 2^63) : W 1 0 63 (GoFloat.ofInt i : F64 L) (i : ℝ) :=
  W.ofInt i (Rng.int (b := 63) h0 h.le) (by norm_num) (by norm_num)

theorem w_sum {ι : Type} {f : F64 L → ι → F64 L} {y : ι → ℝ} {m : ℕ} {a b : ℤ} {k : ℕ} :
    ∀ (ts : List ι) (_ : ∀ t ∈ ts, y t ≤ (2:ℝ)^b ∧ ∀ k u s, m ≤ k → k ≤ 2^52 → W k a (b + 40) u s → W (k + 1) a (b + 40 + 1) (f u t) (s + y t))
      (j : ℕ) (u : F64 L) (s : ℝ), m ≤ k → k + ts.length ≤ 2^52 → j + ts.length ≤ 2^40 →
      (∃ x, u.toReal = some x ∧ Near k x s) → (s = 0 ∨ (2:ℝ)^a ≤ s) → s ≤ j * (2:ℝ)^b →
      W (k + ts.length) a (b + 40) (ts.foldl f u) (s + (ts.map y).sum) := by
  intro ts
  induction ts generalizing k with
  | nil =>
    intro _ j u s hm hk hj hn hlo hhi
    simp only [List.length_nil, Nat.add_zero, List.foldl_nil, List.map_nil, List.sum_nil, add_zero] at *
    obtain ⟨x, hx, hnx⟩ := hn
    refine ⟨⟨x, hx, hnx⟩, hnx.ny, hlo, hhi.trans ?_⟩
    rw [add_comm, two_zpow_add]
    refine mul_le_mul_of_nonneg_right ?_ (two_zpow_pos b).le
    have : (j:ℝ) ≤ 2^40 := by exact_mod_cast hj
    exact_mod_cast this
  | cons t ts ih =>
    intro hstep j u s hm hk hj hn hlo hhi
    rw [List.length_cons] at *
    rw [List.foldl_cons, List.map_cons, List.sum_cons, ← add_assoc s, show k + (ts.length + 1) = (k + 1) + ts.length by omega]
    obtain ⟨z, hz, hnz⟩ := hn
    have hj' : (j:ℝ) ≤ 2^40 := by
      have : j ≤ 2^40 := by omega
      exact_mod_cast this
    have hbp := two_zpow_pos b
    have e40 : (2:ℝ)^(b+40) = (2:ℝ)^b * 2^40 := by rw [two_zpow_add]; norm_cast
    have hu : W k a (b + 40) u s := ⟨⟨z, hz, hnz⟩, hnz.ny, hlo, by rw [e40]; nlinarith⟩
    obtain ⟨hy, hst⟩ := hstep t List.mem_cons_self
    have hs := hst k u s hm (by omega) hu
    refine ih (fun x hx => hstep x (List.mem_cons_of_mem _ hx)) (j + 1) _ (s + y t) (by omega) (by omega) (by omega) hs.near ?_ ?_
    · exact hs.rng.lo
    · push_cast; linarith

/-- a sum. -/
theorem w_add {m : ℕ} {a b : ℤ} {k : ℕ} (ha : -1000 ≤ a) (hb : b + 40 ≤ 990) {xs : List (F64 L)} {ys : List ℝ}
    (h : List.Forall₂ (fun x y => W m a b x y) xs ys) (j : ℕ) (u : F64 L) (s : ℝ) (hm : m ≤ k) (hk : k + xs.length ≤ 2^52) (hj : j + xs.length ≤ 2^40)
    (hn : ∃ x, u.toReal = some x ∧ Near k x s) (hlo : s = 0 ∨ (2:ℝ)^a ≤ s) (hhi : s ≤ j * (2:ℝ)^b) :
    W (k + xs.length) a (b + 40) (xs.foldl GoFloat.add u) (s + ys.sum) := by
  have hlen := h.length_eq
  have e1 : xs = (xs.zip ys).map Prod.fst := by rw [List.map_fst_zip hlen.le]
  have e2 : ys = (xs.zip ys).map Prod.snd := by rw [List.map_snd_zip hlen.ge]
  have hl : (xs.zip ys).length = xs.length := by rw [List.length_zip, hlen, Nat.min_self]
  have := w_sum (L := L) (ι := F64 L × ℝ) (f := fun u e => GoFloat.add u e.1) (y := Prod.snd) (m := m) (a := a) (b := b) (k := k) (xs.zip ys) (fun e he => by
    have he := (List.forall₂_iff_zip.1 h).2 he
    refine ⟨he.rng.hi, fun k u s hk hk' hu => ?_⟩
    exact hu.add (he.mono hk le_rfl (by omega)) hk' ha (by omega)) j u s hm (by rw [hl]; exact hk) (by rw [hl]; exact hj) hn hlo hhi
  rw [hl, ← e2] at this
  have e3 : xs.foldl GoFloat.add u = (xs.zip ys).foldl (fun u e => GoFloat.add u e.1) u := by
    conv_lhs => rw [e1, List.foldl_map]
  rw [e3]
  exact this

/-- one query. -/
theorem w_queryScore {st : Reads} {N T : Nat} (hN : N ≤ 2^40) (hT : T ≤ 2^40) {q : Query (F64 L)} (d : String)
    (h : st.matches q.fieldName q.terms d = true → (st.fieldOf d q.fieldName).isSome = true → InScale64 st N T q) :
    match queryScore st q d, queryScore st q.exact64 d with
    | none, none => True
    | some x, some y => W (8 * N + T + 28) (-248) 311 x y
    | _, _ => False := by
  unfold queryScore Query.exact64
  simp only
  by_cases hm : st.matches q.fieldName q.terms d = true
  · rw [if_pos hm, if_pos hm]
    cases hf : st.fieldOf d q.fieldName with
    | none => trivial
    | some field =>
      simp only [Option.map_some]
      have h := h hm (by rw [hf]; rfl)
      obtain ⟨⟨hl, hl'⟩, htf⟩ := h.field d field hf
      obtain ⟨s0, s1⟩ := h.size
      obtain ⟨S, hS⟩ : ∃ S : Nat, st.getFieldSize q.fieldName = S := ⟨_, (Int.toNat_of_nonneg s0.le).symm⟩
      have hSN : S ≤ N := by omega
      obtain ⟨hlen, hlen'⟩ := h.length
      rw [hS]
      have hS0 : 0 < S := by omega
      have wS : W 0 0 40 (GoFloat.ofInt (S:ℤ) : F64 L) ((S:ℤ):ℝ) := by
        have hr : Rng 0 ((40:ℕ):ℤ) ((S:ℤ):ℝ) := Rng.int (by omega) (by have : S ≤ 2^40 := by omega
                                                                       exact_mod_cast this)
        refine W.exact ?_ hr
        rw [ofInt64 (by omega)]; simp
      -- the average
      have havg : W 2 (-40) 63 (GoFloat.div (GoFloat.ofInt (st.getFieldLength q.fieldName)) (GoFloat.ofInt (S:ℤ)) : F64 L)
          ((st.getFieldLength q.fieldName : ℝ) / ((S:ℤ):ℝ)) :=
        ((w_int63 hlen.le hlen').div wS (by have : (S:ℝ) ≠ 0 := by exact_mod_cast hS0.ne'
                                            simpa using this) (by norm_num) (by norm_num) (by norm_num)).mono (by norm_num) (by norm_num) (by norm_num)
      have avg0 : ((st.getFieldLength q.fieldName : ℝ) / ((S:ℤ):ℝ)) ≠ 0 := by
        refine div_ne_zero ?_ ?_
        · exact_mod_cast hlen.ne'
        · exact_mod_cast hS0.ne'
      rw [c64_bm25_formula]
      obtain ⟨bx, hbx, hbr⟩ := h.boost
      rw [hbx, Option.getD_some]
      show W _ _ _ _ (Spec.bm25 q.terms ((1.2 : Rat) : ℝ) ((0.75 : Rat) : ℝ) (if bx = 0 then 1 else bx)
        ((st.getFieldLength q.fieldName : ℝ) / ((S:ℤ):ℝ)) ((S:ℤ):ℝ) _ _ _)
      generalize (GoFloat.div (GoFloat.ofInt (st.getFieldLength q.fieldName)) (GoFloat.ofInt (S:ℤ)) : F64 L) = avg at havg ⊢
      generalize ((st.getFieldLength q.fieldName : ℝ) / ((S:ℤ):ℝ)) = avg' at havg avg0 ⊢
      -- the boost
      have hboost : W 0 (-100) 100 (if GoFloat.eq0 q.boost = true then (GoFloat.lit 1 : F64 L) else q.boost) (if bx = 0 then 1 else bx) := by
        have heq : GoFloat.eq0 q.boost = true ↔ bx = 0 := by
          show F64.eq0 q.boost = true ↔ _
          cases hb : q.boost with
          | zero s => rw [hb] at hbx; cases hbx; simp [F64.eq0]
          | fin r u p => rw [hb] at hbx; cases hbx; simp [F64.eq0, p]
          | inf s => rw [hb] at hbx; cases hbx
          | nan => rw [hb] at hbx; cases hbx
        by_cases hb : bx = 0
        · rw [if_pos (heq.2 hb), if_pos hb]
          exact (W.exact lit64_one rng_one).mono le_rfl (by norm_num) (by norm_num)
        · rw [if_neg (fun e => hb (heq.1 e)), if_neg hb]
          have := hbr.resolve_left hb
          exact W.exact hbx (Rng.of_bounds this.1 this.2)
      unfold bm25
      simp only
      generalize (if GoFloat.eq0 q.boost = true then (GoFloat.lit 1 : F64 L) else q.boost) = bst at hboost ⊢
      generalize (if bx = 0 then 1 else bx) = bst' at hboost ⊢
      -- constants
      have hk : W 1 0 1 (GoFloat.lit 1.2 : F64 L) ((1.2 : Rat) : ℝ) := W.lit _ (Rng.of_bounds (by norm_num) (by norm_num)) (by norm_num) (by norm_num)
      have hk0 : (0:ℝ) < ((1.2 : Rat) : ℝ) := by norm_num
      generalize hk1 : (GoFloat.lit 1.2 : F64 L) = k1 at hk ⊢
      generalize hk1' : ((1.2 : Rat) : ℝ) = k1' at hk hk0 ⊢
      have hb : ((0.75 : Rat) : ℝ) = 3/4 := by norm_num
      rw [hb]
      have wb : W 0 (-1) 0 (GoFloat.lit 0.75 : F64 L) (3/4) := W.exact lit64_b (Rng.of_bounds (by norm_num) (by norm_num))
      have w1 : W 0 0 0 (GoFloat.lit 1 : F64 L) 1 := W.exact lit64_one rng_one
      have w1b : W 0 (-2) 0 (GoFloat.sub (GoFloat.lit 1) (GoFloat.lit 0.75) : F64 L) (1 - 3/4) := by
        have e : (1:ℝ) - 3/4 = 1/4 := by norm_num
        have hr : Rng (-2) 0 ((1:ℝ) - 3/4) := by rw [e]; exact Rng.of_bounds (by norm_num) (by norm_num)
        exact W.exact (sub_exact lit64_one lit64_b (by rw [e]; exact rnd_quarter) hr (by norm_num) (by norm_num)) hr
      generalize (GoFloat.lit 0.75 : F64 L) = b at wb w1b ⊢
      have havp : 0 < avg' := lt_of_le_of_ne havg.rng.nn (Ne.symm avg0)
      have hl0 : (0:ℝ) ≤ field.length := by exact_mod_cast hl
      have hden : W 6 (-64) 104 (GoFloat.fma 0 b (GoFloat.div (GoFloat.ofInt field.length) avg) (GoFloat.sub (GoFloat.lit 1) b))
          (1 - 3/4 + 3/4 * ((field.length : ℝ) / avg')) := by
        have a1 := ((w_int63 (L := L) hl hl').div havg avg0 (by norm_num) (by norm_num) (by norm_num)).mono (m' := 4) (a' := -63) (b' := 103) (by norm_num) (by norm_num) (by norm_num)
        exact (W.fma 0 wb a1 (w1b.mono (m' := 5) (a' := -64) (b' := 103) (by omega) (by norm_num) (by norm_num)) (by norm_num) (by norm_num) (by norm_num) (by norm_num)
          (by norm_num) (by norm_num)).mono (by norm_num) (by norm_num) (by norm_num)
      have hdp : 0 < k1' * (1 - 3/4 + 3/4 * ((field.length : ℝ) / avg')) := by
        have : 0 ≤ (field.length : ℝ) / avg' := div_nonneg hl0 havp.le
        refine mul_pos hk0 ?_
        linarith
      have hT' := h.terms
      have z0 : (GoFloat.lit 0.0 : F64 L).toReal = some 0 :=
        lit_exact64 0.0 (by norm_num) rnd_zero (Rng.zero 0 0) (by norm_num) (by norm_num)
      have step : ∀ t ∈ q.terms, (bst' * Spec.idf ((S:ℤ):ℝ) (((st.getNumberFieldTerm q.fieldName q.terms).getD t 0 : ℤ) : ℝ) *
            Spec.saturation k1' (3/4) avg' ((field.tf.getD t 0 : ℤ) : ℝ) ((field.length : ℤ) : ℝ)) ≤ (2:ℝ)^(271:ℤ) ∧
          ∀ k u s, 8 * N + 28 ≤ k → k ≤ 2^52 → W k (-248) (271 + 40) u s → W (k + 1) (-248) (271 + 40 + 1)
            (bm25Step k1 b bst avg (GoFloat.ofInt (S:ℤ) : F64 L) (st.getNumberFieldTerm q.fieldName q.terms) field u t)
            (s + bst' * Spec.idf ((S:ℤ):ℝ) (((st.getNumberFieldTerm q.fieldName q.terms).getD t 0 : ℤ) : ℝ) *
              Spec.saturation k1' (3/4) avg' ((field.tf.getD t 0 : ℤ) : ℝ) ((field.length : ℤ) : ℝ)) := by
        intro t ht
        obtain ⟨d0, d1⟩ := h.df t ht
        obtain ⟨n, hn⟩ : ∃ n : Nat, (st.getNumberFieldTerm q.fieldName q.terms).getD t 0 = n := ⟨_, (Int.toNat_of_nonneg d0).symm⟩
        unfold bm25Step
        simp only
        rw [hn]
        have hidf := w_idf (L := L) (N := S) (n := n) (by omega) (by omega)
        obtain ⟨f0, f1⟩ := htf t
        have hfr := w_int63 (L := L) f0 f1
        have fn : (0:ℝ) ≤ ((field.tf.getD t 0 : ℤ) : ℝ) := by exact_mod_cast f0
        have c1 := (hk.add (w1.mono (m' := 1) (a' := 0) (b' := 1) (by omega) (by norm_num) (by norm_num)) (by norm_num) (by norm_num) (by norm_num)).mono (m' := 2) (a' := 0) (b' := 2) (by norm_num) (by norm_num) (by norm_num)
        have c2 := (hfr.mul c1 (by norm_num) (by norm_num) (by norm_num)).mono (m' := 4) (a' := 0) (b' := 65) (by norm_num) (by norm_num) (by norm_num)
        have c3 := (W.fma 1 hk hden (hfr.mono (m' := 8) (a' := -64) (b' := 105) (by omega) (by norm_num) (by norm_num)) (by norm_num) (by norm_num) (by norm_num) (by norm_num)
          (by norm_num) (by norm_num)).mono (m' := 9) (a' := -64) (b' := 106) (by norm_num) (by norm_num) (by norm_num)
        have c4 := (c2.div c3 (by linarith) (by norm_num) (by norm_num) (by norm_num)).mono (m' := 14) (a' := -106) (b' := 129) (by norm_num) (by norm_num) (by norm_num)
        have c5 := (hboost.mul hidf (by omega) (by norm_num) (by norm_num)).mono (m' := 8 * N + 13) (a' := -142) (b' := 142) (by omega) (by norm_num) (by norm_num)
        unfold Spec.saturation
        simp only [Int.cast_natCast]
        refine ⟨(c5.rng.mul c4.rng).hi.trans (two_zpow_le (by norm_num)), fun k u s hk' hk'' hu => ?_⟩
        exact W.fma 2 c5 c4 hu (by omega) hk'' (by norm_num) (by norm_num) (by norm_num) (by norm_num)
      have := w_sum (L := L) (k := 8 * N + 28) q.terms step 0 (GoFloat.lit 0.0) 0 le_rfl (by omega) (by omega)
        ⟨0, z0, (Near.refl le_rfl).mono (by omega)⟩ (.inl rfl) (by simp)
      rw [zero_add] at this
      exact this.mono (by omega) le_rfl (by norm_num)
  · rw [if_neg hm, if_neg hm]; trivial

/-- all queries. -/
theorem w_docScores {st : Reads} {N T : Nat} (hN : N ≤ 2^40) (hT : T ≤ 2^40) (d : String) :
    ∀ (query : List (Query (F64 L))), (∀ q ∈ query, st.matches q.fieldName q.terms d = true → (st.fieldOf d q.fieldName).isSome = true → InScale64 st N T q) →
      List.Forall₂ (fun x y => W (8 * N + T + 28) (-248) 311 x y) (docScores st query d) (docScores st (query.map Query.exact64) d)
  | [], _ => .nil
  | q :: query, h => by
    have ih := w_docScores hN hT d query fun x hx => h x (List.mem_cons_of_mem _ hx)
    have hq := w_queryScore hN hT d (h q List.mem_cons_self)
    unfold docScores at ih ⊢
    rw [List.map_cons, List.filterMap_cons, List.filterMap_cons]
    cases h1 : queryScore st q d <;> cases h2 : queryScore st q.exact64 d <;> simp only [h1, h2] at hq
    · exact ih
    · exact .cons hq ih

/-- the relative error of the scores of a search with `Q` queries of at most `T` terms, on fields of at most `N` documents. -/
noncomputable def scoreError64 (N T Q : Nat) : ℝ := (16 * N + 2 * T + 2 * Q + 56) / 2^53

/-- the score of a document without rounding: the sum of the BM25 scores of the queries that match it. -/
noncomputable def exactScore64 (st : Reads) (query : List (Query (F64 L))) (d : String) : ℝ := (docScores st (query.map Query.exact64) d).sum

/-- the search is in scale for a document: every query that finds it is. -/
def ScaleFor64 (st : Reads) (query : List (Query (F64 L))) (N T : Nat) (d : String) : Prop :=
  N ≤ 2^40 ∧ T ≤ 2^40 ∧ query.length ≤ 2^40 ∧
  ∀ q ∈ query, st.matches q.fieldName q.terms d = true → (st.fieldOf d q.fieldName).isSome = true → InScale64 st N T q

/-- **C112.** Whatever the schedule, the score of every document returned by Search is a finite number, and it is the score without rounding up to a
relative error of `(16 N + 2 T + 2 Q + 56) / 2^53`. -/
theorem c112_error {st : Reads} (hst : st.Consistent) (query : List (Query (F64 L))) (cpus : Nat) {N T : Nat} {l : Scores (F64 L)}
    (h : SState.Returns st query cpus l) {d : String} (hr : ScaleFor64 st query N T d) {v : F64 L} (hx : (d, v) ∈ l) :
    ∃ x, v.toReal = some x ∧ |x - exactScore64 st query d| ≤ scoreError64 N T query.length * exactScore64 st query d := by
  obtain ⟨hN, hT, hQ, hr⟩ := hr
  obtain ⟨-, qs, hp, hm⟩ := c59_result hst query cpus h
  obtain ⟨-, rfl⟩ := (hm d v).1 hx
  have z0 : (GoFloat.lit 0 : F64 L).toReal = some 0 := lit_exact64 0 (by norm_num) rnd_zero (Rng.zero 0 0) (by norm_num) (by norm_num)
  have hlen : (docScores st qs d).length ≤ query.length := by
    rw [← hp.length_eq]; exact List.length_filterMap_le _ _
  have hs := w_add (L := L) (k := 8 * N + T + 28) (by norm_num) (by norm_num) (w_docScores hN hT d qs fun q hq => hr q (hp.subset hq)) 0 (GoFloat.lit 0) 0
    le_rfl (by omega) (by omega) ⟨0, z0, (Near.refl le_rfl).mono (by omega)⟩ (.inl rfl) (by simp)
  have he : (docScores st (qs.map Query.exact64) d).sum = exactScore64 st query d :=
    (docScores_perm (st := st) (hp.map Query.exact64) d).sum_eq
  rw [zero_add, he] at hs
  obtain ⟨x, hx, hn⟩ := hs.near
  refine ⟨x, hx, ?_⟩
  have := (hn.mono (n := 8 * N + T + 28 + query.length) (by omega)).error (by omega)
  refine this.trans (le_of_eq ?_)
  unfold scoreError64
  push_cast
  ring

/-- two searches give a document scores that differ by at most twice that, however their goroutines are scheduled (compare C61). -/
theorem c112_two_runs {st : Reads} (hst : st.Consistent) (query : List (Query (F64 L))) (cpus cpus' : Nat) {N T : Nat} {l l' : Scores (F64 L)}
    (h : SState.Returns st query cpus l) (h' : SState.Returns st query cpus' l') {d : String} (hr : ScaleFor64 st query N T d) {v v' : F64 L}
    (hx : (d, v) ∈ l) (hx' : (d, v') ∈ l') : ∃ x x', v.toReal = some x ∧ v'.toReal = some x' ∧
      |x - x'| ≤ 2 * scoreError64 N T query.length * exactScore64 st query d := by
  obtain ⟨x, e, h1⟩ := c112_error hst query cpus h hr hx
  obtain ⟨x', e', h2⟩ := c112_error hst query cpus' h' hr hx'
  refine ⟨x, x', e, e', ?_⟩
  rw [abs_le] at *
  constructor <;> linarith [h1.1, h1.2, h2.1, h2.2]

theorem gt_fin {u v : F64 L} {x y : ℝ} (hu : u.toReal = some x) (hv : v.toReal = some y) : GoFloat.gt u v = decide (y < x) := by
  show F64.gt u v = _
  cases u with
  | nan => cases hu
  | inf s => cases hu
  | zero s =>
    cases v with
    | nan => cases hv
    | inf s => cases hv
    | zero s => cases hu; cases hv; simp [F64.gt, F64.toReal]
    | fin r q p => cases hu; cases hv; simp [F64.gt, F64.toReal]
  | fin r q p =>
    cases v with
    | nan => cases hv
    | inf s => cases hv
    | zero s => cases hu; cases hv; simp [F64.gt, F64.toReal]
    | fin r' q' p' => cases hu; cases hv; simp [F64.gt, F64.toReal]

/-- finite scores come out sorted. -/
theorem sorted64 {st : Reads} (hst : st.Consistent) (query : List (Query (F64 L))) (cpus : Nat) {l : Scores (F64 L)}
    (h : SState.Returns st query cpus l) (hf : ∀ e ∈ l, ∃ x, e.2.toReal = some x) :
    l.Pairwise fun a b => ∀ x y, a.2.toReal = some x → b.2.toReal = some y → y ≤ x := by
  obtain ⟨s, hs, hr⟩ := h
  have hi := Reaches.invariant (P := SInv st query cpus) hs (sinv_start query cpus) (fun _ _ hp hs => sinv_step hst hp hs)
  obtain ⟨order, h1, -⟩ := sinv_result hi hr
  have hf' : ∀ e ∈ order, ∃ x, e.2.toReal = some x := fun e he => hf e (h1.1.mem_iff.2 he)
  have := h1.2 (fun e he => by obtain ⟨x, hx⟩ := hf' e he; rw [gt_fin hx hx]; simp)
    (fun a ha b hb c hc h h' => by
      obtain ⟨x, hx⟩ := hf' a ha; obtain ⟨y, hy⟩ := hf' b hb; obtain ⟨z, hz⟩ := hf' c hc
      rw [gt_fin hx hy] at h; rw [gt_fin hy hz] at h'; rw [gt_fin hx hz]
      simp only [decide_eq_true_eq] at *; linarith)
    (fun a ha b hb c hc h h' => by
      obtain ⟨x, hx⟩ := hf' a ha; obtain ⟨y, hy⟩ := hf' b hb; obtain ⟨z, hz⟩ := hf' c hc
      rw [gt_fin hx hy] at h; rw [gt_fin hy hz] at h'; rw [gt_fin hx hz]
      simp only [decide_eq_false_iff_not, not_lt] at *; linarith)
  refine this.imp fun {a b} h x y hx hy => ?_
  rw [gt_fin hy hx] at h
  simpa using h

/-- **C112.** If the search is in scale for every document it returns, a document whose score without rounding is greater than that of another one by
more than the errors comes before it in the results. -/
theorem c112_order {st : Reads} (hst : st.Consistent) (query : List (Query (F64 L))) (cpus : Nat) {N T : Nat} {l : Scores (F64 L)}
    (h : SState.Returns st query cpus l) (hr : ∀ d ∈ l.map Prod.fst, ScaleFor64 st query N T d) {d d' : String}
    (hlt : exactScore64 st query d' * (1 + scoreError64 N T query.length) < exactScore64 st query d * (1 - scoreError64 N T query.length))
    {i j : Nat} (hi : (l.map Prod.fst)[i]? = some d) (hj : (l.map Prod.fst)[j]? = some d') : i < j := by
  have hsort := sorted64 hst query cpus h (fun e he => by
    obtain ⟨x, hx, -⟩ := c112_error hst query cpus h (hr e.1 (List.mem_map_of_mem he)) (v := e.2) he
    exact ⟨x, hx⟩)
  have hrd := hr d (List.mem_of_getElem? hi)
  have hrd' := hr d' (List.mem_of_getElem? hj)
  rw [List.getElem?_map, Option.map_eq_some_iff] at hi hj
  obtain ⟨⟨a, v⟩, hi, rfl⟩ := hi
  obtain ⟨⟨a', v'⟩, hj, rfl⟩ := hj
  obtain ⟨x, ex, h1⟩ := c112_error hst query cpus h hrd (List.mem_of_getElem? hi)
  obtain ⟨x', ex', h2⟩ := c112_error hst query cpus h hrd' (List.mem_of_getElem? hj)
  rw [abs_le] at h1 h2
  have hgt : x' < x := by linarith [h1.1, h2.2]
  by_contra hc
  rcases Nat.lt_or_ge j i with hji | hji
  · obtain ⟨hi1, hi2⟩ := List.getElem?_eq_some_iff.1 hi
    obtain ⟨hj1, hj2⟩ := List.getElem?_eq_some_iff.1 hj
    have := List.pairwise_iff_getElem.1 hsort j i hj1 hi1 hji x' x (by rw [hj2]; exact ex') (by rw [hi2]; exact ex)
    linarith
  · have : i = j := by omega
    subst this
    rw [hi] at hj
    cases hj
    rw [ex] at ex'; cases ex'
    exact lt_irrefl _ hgt

/-- lengths and frequencies are Go ints, and the total length of a field does not overflow. -/
structure Fits (h : List StoreOp) : Prop where
  tf  : ∀ op ∈ h, ∀ t n, (t, n) ∈ op.field.tf → n < 2^63
  len : ∀ op ∈ h, op.field.length < 2^63
  sum : ∀ f, Spec.lengthSum h f < 2^63

/-- every search on a Memory store with sane contents is in scale: `N` bounds the number of saves of each queried field. -/
theorem memory_scale64 (h : List StoreOp) (hgv : Spec.GoValues h) (hs : Sane h) (hfit : Fits h) (query : List (Query (F64 L))) {N T : Nat} (hN : N ≤ 2^40)
    (hT : T ≤ 2^40) (hQ : query.length ≤ 2^40)
    (hq : ∀ q ∈ query, (∃ x, q.boost.toReal = some x ∧ (x = 0 ∨ (2:ℝ)^(-100:ℤ) ≤ x ∧ x ≤ (2:ℝ)^(100:ℤ))) ∧ q.terms.length ≤ T ∧
      Spec.callCount h q.fieldName ≤ N) (d : String) : ScaleFor64 (Memory.run h).reads query N T d := by
  refine ⟨hN, hT, hQ, fun q hqm hmat hfield => ?_⟩
  obtain ⟨hboost, hterms, hcall⟩ := hq q hqm
  have key := memory_scale h hgv hs [⟨q.fieldName, GoFloat.lit 0, q.terms⟩] (N := N) (T := T) hN hT (by simp) (by
    intro q' hq'
    simp only [List.mem_cons, List.not_mem_nil, or_false] at hq'
    subst hq'
    refine ⟨?_, hterms, hcall⟩
    show 0 ≤ R53.rnd ((0 : Rat) : ℝ)
    norm_num) d
  have key := key.2.2.2 _ (List.mem_cons_self) hmat hfield
  refine ⟨hboost, key.size, ⟨key.length, ?_⟩, key.df, hterms, fun d' f hf => ?_⟩
  · have : (Memory.run h).reads.getFieldLength q.fieldName = Spec.lengthSum h q.fieldName := (c15_memory_counters_exact h hgv q.fieldName q.terms).2.1
    rw [this]; exact hfit.sum _
  · obtain ⟨k1, k2⟩ := key.field d' f hf
    have hlast : Spec.lastSaved h d' q.fieldName = some f := by
      rw [← hf]
      show _ = ((Memory.run h).getFields [d'] q.fieldName).get? d'
      rw [c14_memory_getFields_latest]; simp
    obtain ⟨op, hop, -, -, -, rfl⟩ := lastSaved_some_mem h d' q.fieldName f hlast
    refine ⟨⟨k1, hfit.len op hop⟩, fun t => ⟨k2 t, ?_⟩⟩
    unfold GoMap.getD
    cases hg : op.field.tf.get? t with
    | none => simp
    | some n => exact hfit.tf op hop t n (GoMap.mem_of_get? hg)

/-- **C112, over histories.** On a Memory store filled by any sane history of saves whose numbers fit, for boosts of a sensible size: every score is a
finite float64 within the relative error, and documents that differ by more than the errors are in the right order. -/
theorem c112_memory (h : List StoreOp) (hgv : Spec.GoValues h) (hs : Sane h) (hfit : Fits h) (query : List (Query (F64 L))) {N T : Nat} (hN : N ≤ 2^40)
    (hT : T ≤ 2^40) (hQ : query.length ≤ 2^40)
    (hq : ∀ q ∈ query, (∃ x, q.boost.toReal = some x ∧ (x = 0 ∨ (2:ℝ)^(-100:ℤ) ≤ x ∧ x ≤ (2:ℝ)^(100:ℤ))) ∧ q.terms.length ≤ T ∧
      Spec.callCount h q.fieldName ≤ N) (cpus : Nat) {l : Scores (F64 L)} (hl : SState.Returns (Memory.run h).reads query cpus l) :
    (∀ d v, (d, v) ∈ l → ∃ x, v.toReal = some x ∧ |x - exactScore64 (Memory.run h).reads query d| ≤
      scoreError64 N T query.length * exactScore64 (Memory.run h).reads query d) ∧
    ∀ (i j : Nat) (d d' : String), (l.map Prod.fst)[i]? = some d → (l.map Prod.fst)[j]? = some d' →
      exactScore64 (Memory.run h).reads query d' * (1 + scoreError64 N T query.length) <
        exactScore64 (Memory.run h).reads query d * (1 - scoreError64 N T query.length) → i < j :=
  have hsc := memory_scale64 h hgv hs hfit query hN hT hQ hq
  ⟨fun d _ hx => c112_error (memory_consistent _) query cpus hl (hsc d) hx,
   fun _ _ _ _ hi hj hlt => c112_order (memory_consistent _) query cpus hl (fun d _ => hsc d) hlt hi hj⟩

/-- the search of `c104Query`. -/
noncomputable def c112Query : List (Query (F64 L)) := [⟨"title", GoFloat.lit 1, ["t"]⟩]

theorem c112_example_exact (d : String) : exactScore64 (Memory.run c104History).reads (c112Query (L := L)) d =
    exactScore (Memory.run c104History).reads c104Query d := by
  unfold exactScore64 exactScore c112Query c104Query
  simp only [List.map_cons, List.map_nil]
  have : Query.exact64 (⟨"title", GoFloat.lit 1, ["t"]⟩ : Query (F64 L)) = Query.exact ⟨"title", GoFloat.lit 1, ["t"]⟩ := by
    unfold Query.exact64 Query.exact
    simp only [lit64_one, lit_one, Option.getD_some]
  rw [this]

/-- C112's hypotheses can be met: the document that has the term twice comes first. -/
example {cpus : Nat} {l : Scores (F64 L)} (hl : SState.Returns (Memory.run c104History).reads c112Query cpus l) {i j : Nat}
    (hi : (l.map Prod.fst)[i]? = some "d") (hj : (l.map Prod.fst)[j]? = some "e") : i < j := by
  have hgv : Spec.GoValues c104History := by unfold Spec.GoValues; decide
  have htf : ∀ op ∈ c104History, ∀ t n, (t, n) ∈ op.field.tf → 0 ≤ n ∧ n ≤ 2 := by
    intro op ho t n ht
    simp only [c104History, List.mem_cons, List.not_mem_nil, or_false] at ho
    rcases ho with rfl | rfl <;> simp [StoreOp.field] at ht
    · omega
    · rcases ht with ⟨-, rfl⟩ | ⟨-, rfl⟩ <;> omega
  have hs : Sane c104History := ⟨by decide, fun op ho t n ht => (htf op ho t n ht).1, by decide⟩
  have hfit : Fits c104History := by
    refine ⟨fun op ho t n ht => by have := htf op ho t n ht; omega, by decide, fun f => ?_⟩
    unfold Spec.lengthSum c104History
    by_cases hf : "title" = f <;> simp [hf, StoreOp.field]
  have hq : ∀ q ∈ c112Query (L := L), (∃ x, q.boost.toReal = some x ∧ (x = 0 ∨ (2:ℝ)^(-100:ℤ) ≤ x ∧ x ≤ (2:ℝ)^(100:ℤ))) ∧ q.terms.length ≤ 1 ∧
      Spec.callCount c104History q.fieldName ≤ 2 := by
    intro q hq
    simp only [c112Query, List.mem_cons, List.not_mem_nil, or_false] at hq
    subst hq
    refine ⟨⟨1, lit64_one, .inr ⟨?_, ?_⟩⟩, le_rfl, (by decide : Spec.callCount c104History "title" ≤ 2)⟩
    · exact zpow_le_one_of_nonpos₀ (by norm_num) (by norm_num)
    · exact one_le_zpow₀ (by norm_num) (by norm_num)
  refine (c112_memory c104History hgv hs hfit c112Query (by norm_num) (by norm_num) (by simp [c112Query]) hq cpus hl).2 i j "d" "e" hi hj ?_
  rw [c112_example_exact, c112_example_exact]
  obtain ⟨e1, e2⟩ := c104_example_scores
  rw [e1, e2]
  have hp : 0 < Real.log (6/5) := Real.log_pos (by norm_num)
  have hw : scoreError64 2 1 (c112Query (L := L)).length = 92 / 2^53 := by simp [scoreError64, c112Query]; norm_num
  rw [hw]
  nlinarith

/-! ### Boosts out of scale

With a boost near the end of the range the conclusion fails: the product of the boost and the idf overflows to infinity, and infinity times the frequency 0
of a term that the document does not contain is NaN. -/

/-- the boost `2^1023` (about 9e307). -/
noncomputable def hugeBoost : F64 L := .fin ((2:ℝ)^(1023:ℤ)) ⟨2^52, 971, by norm_num, by norm_num, by norm_num, by
  rw [show (1023:ℤ) = 52 + 971 by norm_num, two_zpow_add]
  congr 1
  rw [Int.cast_pow, Int.cast_ofNat]
  exact zpow_ofNat 2 52⟩ (two_zpow_pos _).ne'

theorem huge_mul {v : F64 L} {x : ℝ} (hv : v.toReal = some x) (hx : 2 ≤ x) : GoFloat.mul hugeBoost v = .inf false := by
  cases v with
  | nan => cases hv
  | inf s => cases hv
  | zero s => cases hv; norm_num at hx
  | fin r q p =>
    cases hv
    show F64.round false ((2:ℝ)^(1023:ℤ) * x) = _
    have hp := two_zpow_pos 1023
    have h2 : (2:ℝ)^(1024:ℤ) ≤ R53.rnd ((2:ℝ)^(1023:ℤ) * x) := by
      rw [mul_comm, rnd_mul_pow]
      have h2 : R53.rnd 2 ≤ R53.rnd x := rnd_mono hx
      have e2 := rnd_int 2 (by norm_num)
      push_cast at e2
      rw [e2] at h2
      rw [show (1024:ℤ) = 1 + 1023 by norm_num, two_zpow_add, zpow_one]
      exact mul_le_mul_of_nonneg_right h2 hp.le
    have hpos : 0 < (2:ℝ)^(1023:ℤ) * x := mul_pos hp (by linarith)
    have e : rnd64 ((2:ℝ)^(1023:ℤ) * x) = R53.rnd ((2:ℝ)^(1023:ℤ) * x) := by
      refine rnd64_eq ?_
      rw [abs_of_pos hpos]
      refine (two_zpow_le (by norm_num : (-1022:ℤ) ≤ 1023)).trans ?_
      exact le_mul_of_one_le_right hp.le (by linarith)
    have h3 := (two_zpow_pos 1024).trans_le h2
    unfold F64.round
    rw [dif_neg (by rw [e]; exact h3.ne'), dif_neg (by rw [e, abs_of_pos h3]; exact not_lt.2 h2)]
    unfold F64.sgn
    rw [decide_eq_false (not_lt.2 hpos.le)]

/-- three documents, one of which has the term "t". -/
def hugeHistory : List StoreOp :=
  [.save "d" { name := "title", length := 1, tf := [("t", 1)] }, .save "e" { name := "title", length := 1, tf := [("v", 1)] },
   .save "f" { name := "title", length := 1, tf := [("v", 1)] }]

/-- the search for "t" and "u" with the boost `2^1023`. -/
noncomputable def hugeQuery : Query (F64 L) := ⟨"title", hugeBoost, ["t", "u"]⟩

theorem add_nan (v : F64 L) : GoFloat.add v (.nan : F64 L) = .nan := by show F64.add v .nan = _; cases v <;> rfl

theorem huge_score : queryScore (Memory.run hugeHistory).reads (hugeQuery (L := L)) "d" = some .nan := by
  have hm : (Memory.run hugeHistory).reads.matches "title" ["t", "u"] "d" = true := by decide
  have hf : (Memory.run hugeHistory).reads.fieldOf "d" "title" = some { name := "title", length := 1, tf := [("t", 1)] } := by decide
  have e1 : (Memory.run hugeHistory).reads.getFieldLength "title" = 3 := by decide
  have e2 : (Memory.run hugeHistory).reads.getFieldSize "title" = 3 := by decide
  have e3 : ((Memory.run hugeHistory).reads.getNumberFieldTerm "title" ["t", "u"]).getD "u" 0 = 0 := by decide
  have e4 : GoMap.getD [("t", (1:Int))] "u" 0 = 0 := by decide
  unfold queryScore hugeQuery
  simp only [hm, hf, if_true, Option.map_some, e1, e2]
  congr 1
  unfold bm25
  simp only [List.foldl_cons, List.foldl_nil]
  generalize (bm25Step _ _ _ _ _ _ _ _ "t" : F64 L) = s
  have hb : GoFloat.eq0 (hugeBoost : F64 L) = false := rfl
  rw [hb]
  simp only [Bool.false_eq_true, if_false]
  unfold bm25Step
  simp only [e3, e4]
  -- the idf
  obtain ⟨⟨x, hx, hn⟩, -⟩ := w_idf (L := L) (N := 3) (n := 0) (by norm_num) (by norm_num)
  have hx2 : 2 ≤ x := by
    have e : Spec.idf ((3:ℕ):ℝ) ((0:ℕ):ℝ) = 3 * Real.log 2 := by
      unfold Spec.idf
      rw [show (1 + (((3:ℕ):ℝ) - ((0:ℕ):ℝ) + 1/2) / (((0:ℕ):ℝ) + 1/2)) = 2^3 by norm_num, Real.log_pow]; norm_num
    rw [e] at hn
    have h1 := hn.ge
    have h2 := Real.log_two_gt_d9
    have h3 : (0.99:ℝ) ≤ rho^(8 * 3 + 12) := by unfold rho; norm_num
    have h4 := mul_le_mul (by linarith : (2.07:ℝ) ≤ 3 * Real.log 2) h3 (by norm_num) (by linarith)
    norm_num at h4 h1
    linarith
  have hmul := huge_mul hx hx2
  simp only [Nat.cast_ofNat, Nat.cast_zero] at hmul
  rw [hmul]
  -- the other factor is zero
  have z0 : (GoFloat.ofInt 0 : F64 L) = .zero false := by
    show F64.round false ((0:ℤ):ℝ) = _
    unfold F64.round
    rw [dif_pos (by simp)]; simp
  have k1 : W 2 0 2 (GoFloat.add (GoFloat.lit 1.2) (GoFloat.lit 1) : F64 L) (((1.2 : Rat) : ℝ) + 1) := by
    have hk : W 1 0 1 (GoFloat.lit 1.2 : F64 L) ((1.2 : Rat) : ℝ) := W.lit _ (Rng.of_bounds (by norm_num) (by norm_num)) (by norm_num) (by norm_num)
    exact (hk.add ((W.exact lit64_one rng_one).mono (by omega) le_rfl (by norm_num)) (by norm_num) (by norm_num) (by norm_num)).mono le_rfl le_rfl (by norm_num)
  obtain ⟨⟨y, hy, -⟩, -⟩ := k1
  have hnum : ∃ s, GoFloat.mul (GoFloat.ofInt 0) (GoFloat.add (GoFloat.lit 1.2) (GoFloat.lit 1)) = (F64.zero s : F64 L) := by
    rw [z0]
    generalize (GoFloat.add (GoFloat.lit 1.2) (GoFloat.lit 1) : F64 L) = v at hy
    cases v with
    | nan => cases hy
    | inf s => cases hy
    | zero s => exact ⟨_, rfl⟩
    | fin r q p => exact ⟨_, rfl⟩
  obtain ⟨s0, hnum⟩ := hnum
  rw [hnum]
  have hprod : ∀ w : F64 L, GoFloat.mul (F64.inf false) (GoFloat.div (.zero s0) w) = (F64.nan : F64 L) := by
    intro w
    cases w <;> rfl
  generalize (GoFloat.fma 1 _ _ _ : F64 L) = w
  have hfused : F64.fmadd (F64.inf false) (GoFloat.div (.zero s0) w) s = F64.add s (GoFloat.mul (F64.inf false) (GoFloat.div (.zero s0) w)) := by
    unfold F64.fmadd; rfl
  show (if L.fuse 2 then F64.fmadd (F64.inf false) (GoFloat.div (.zero s0) w) s
    else GoFloat.add s (GoFloat.mul (F64.inf false) (GoFloat.div (.zero s0) w))) = (F64.nan : F64 L)
  rw [hfused, hprod]
  split <;> exact add_nan _

/-- **C112, at the end of the range.** With a boost of `2^1023` a search on three small documents gives NaN. -/
theorem c112_huge_boost_refuted : Spec.GoValues hugeHistory ∧ Sane hugeHistory ∧ Fits hugeHistory ∧
    (hugeQuery (L := L)).boost.toReal = some ((2:ℝ)^(1023:ℤ)) ∧ (∃ l, SState.Returns (Memory.run hugeHistory).reads [hugeQuery (L := L)] 4 l) ∧
    ∀ cpus l, SState.Returns (Memory.run hugeHistory).reads [hugeQuery (L := L)] cpus l → ("d", F64.nan) ∈ l := by
  have htf : ∀ op ∈ hugeHistory, ∀ t n, (t, n) ∈ op.field.tf → n = 1 := by
    intro op ho t n ht
    simp only [hugeHistory, List.mem_cons, List.not_mem_nil, or_false] at ho
    rcases ho with rfl | rfl | rfl <;> simp [StoreOp.field] at ht <;> exact ht.2
  refine ⟨by unfold Spec.GoValues; decide, ⟨by decide, fun op ho t n ht => by rw [htf op ho t n ht]; norm_num, by decide⟩,
    ⟨fun op ho t n ht => by rw [htf op ho t n ht]; norm_num, by decide, fun f => ?_⟩, rfl, search_returns (memory_consistent _) _ (by norm_num), ?_⟩
  · unfold Spec.lengthSum hugeHistory
    by_cases hf : "title" = f <;> simp [hf, StoreOp.field]
  · intro cpus l hl
    obtain ⟨-, qs, hp, hm⟩ := c59_result (memory_consistent _) [hugeQuery] cpus hl
    rw [List.perm_singleton.1 hp] at hm
    have e : docScores (Memory.run hugeHistory).reads [hugeQuery (L := L)] "d" = [.nan] := by
      unfold docScores
      rw [List.filterMap_cons, huge_score]
      rfl
    refine (hm "d" .nan).2 ⟨by rw [e]; simp, ?_⟩
    rw [e]
    simp only [List.foldl_cons, List.foldl_nil]
    rw [add_nan]

end Goir
