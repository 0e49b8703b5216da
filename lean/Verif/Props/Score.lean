import Verif.Model.ScoreReal
import Verif.Spec.Score
import Mathlib.Tactic.Linarith
import Mathlib.Tactic.FieldSimp
import Mathlib.Tactic.Ring
import Mathlib.Tactic.NormNum
import Mathlib.Tactic.Positivity
import Mathlib.Algebra.Order.BigOperators.Group.List
/-!
# C63–C67: IDF and BM25 over the reals
-/
namespace Goir
open GoFloat

/-! ### C63 -/

theorem idf_eq (N n : ℝ) : idfBM25 N n = Spec.idf N n := by
  unfold idfBM25 Spec.idf
  simp only [GoFloat.add, GoFloat.sub, GoFloat.div, GoFloat.lit, GoFloat.log]
  norm_num

theorem idf_log {N n : ℝ} (hn : 0 ≤ n) : Spec.idf N n = Real.log ((N + 1) / (n + 1 / 2)) := by
  unfold Spec.idf
  congr 1
  have : n + 1 / 2 ≠ 0 := by positivity
  field_simp
  ring

/-- **C63.** The code computes the idf of the formula. -/
theorem c63_idf_formula (N n : ℝ) : idfBM25 N n = Real.log (1 + (N - n + 1 / 2) / (n + 1 / 2)) := idf_eq N n

/-- **C63.** The idf of a term is positive exactly if fewer than `N + 1/2` documents have it. -/
theorem c63_idf_positive {N n : ℝ} (hN : 0 ≤ N) (hn : 0 ≤ n) : 0 < idfBM25 N n ↔ n < N + 1 / 2 := by
  rw [idf_eq, idf_log hn, Real.log_pos_iff (by positivity), lt_div_iff₀ (by positivity)]
  constructor <;> intro h <;> linarith

/-- **C63.** The rarer the term, the higher its idf. -/
theorem c63_idf_decreases {N n n' : ℝ} (hN : 0 ≤ N) (hn : 0 ≤ n) (h : n < n') : idfBM25 N n' < idfBM25 N n := by
  rw [idf_eq, idf_eq, idf_log hn, idf_log (by linarith)]
  apply Real.log_lt_log
  · have : 0 < n' := by linarith
    positivity
  · apply div_lt_div_of_pos_left <;> linarith

/-- **C63.** The larger the collection, the higher the idf. -/
theorem c63_idf_increases {N N' n : ℝ} (hN : 0 ≤ N) (hn : 0 ≤ n) (h : N < N') : idfBM25 N n < idfBM25 N' n := by
  rw [idf_eq, idf_eq, idf_log hn, idf_log hn]
  apply Real.log_lt_log
  · positivity
  · apply div_lt_div_of_pos_right <;> linarith

example : (0 : ℝ) < idfBM25 (3 : ℝ) 1 := (c63_idf_positive (by norm_num) (by norm_num)).2 (by norm_num)
example : ¬ (0 : ℝ) < idfBM25 (3 : ℝ) 4 := fun h => by
  have := (c63_idf_positive (N := 3) (n := 4) (by norm_num) (by norm_num)).1 h
  norm_num at this

/-! ### The formula -/

/-- what the code makes of the boost parameter. -/
noncomputable def boostOf (boost : ℝ) : ℝ := if boost = 0 then 1 else boost

theorem bm25_foldl (query : List String) (k1 b boost avg N : ℝ) (ndt : GoMap String Int) (field : Field) (acc : ℝ) :
    query.foldl (bm25Step k1 b boost avg N ndt field) acc =
      acc + Spec.bm25 query k1 b boost avg N (fun t => ndt.getD t 0) (fun t => field.tf.getD t 0) field.length := by
  induction query generalizing acc with
  | nil => simp [Spec.bm25]
  | cons t q ih =>
    rw [List.foldl_cons, ih]
    simp only [Spec.bm25, List.map_cons, List.sum_cons, bm25Step, GoFloat.fma, idf_eq, GoFloat.add, GoFloat.mul, GoFloat.div, GoFloat.sub,
      GoFloat.lit, GoFloat.ofInt, Spec.saturation]
    push_cast
    ring

/-- The code computes the BM25 formula, with boost 0 standing for boost 1. -/
theorem c64_bm25_formula (query : List String) (k1 b boost avg N : ℝ) (ndt : GoMap String Int) (field : Field) :
    bm25 query k1 b boost avg N ndt field =
      Spec.bm25 query k1 b (if boost = 0 then 1 else boost) avg N (fun t => ndt.getD t 0) (fun t => field.tf.getD t 0) field.length := by
  unfold bm25
  rw [bm25_foldl]
  have h : (if eq0 boost = true then (lit 1 : ℝ) else boost) = if boost = 0 then 1 else boost := by
    simp [GoFloat.eq0, GoFloat.lit]
  rw [h]
  simp only [GoFloat.lit]
  norm_num

/-! ### C64 -/

theorem idf_nonneg {N n : ℝ} (hn : 0 ≤ n) (h : n ≤ N) : 0 < Spec.idf N n := by
  rw [← idf_eq]
  exact (c63_idf_positive (by linarith) hn).2 (by linarith)

theorem denominator_pos {k1 b avg f len : ℝ} (hk : 0 < k1) (hb0 : 0 ≤ b) (hb1 : b < 1) (ha : 0 < avg) (hf : 0 ≤ f) (hl : 0 ≤ len) :
    0 < f + k1 * (1 - b + b * (len / avg)) := by
  have h1 : 0 ≤ b * (len / avg) := by positivity
  have h2 : 0 < 1 - b + b * (len / avg) := by linarith
  have := mul_pos hk h2
  linarith

theorem saturation_nonneg {k1 b avg f len : ℝ} (hk : 0 < k1) (hb0 : 0 ≤ b) (hb1 : b < 1) (ha : 0 < avg) (hf : 0 ≤ f) (hl : 0 ≤ len) :
    0 ≤ Spec.saturation k1 b avg f len := by
  unfold Spec.saturation
  exact div_nonneg (by positivity) (denominator_pos hk hb0 hb1 ha hf hl).le

theorem saturation_eq_zero {k1 b avg f len : ℝ} (hk : 0 < k1) (hb0 : 0 ≤ b) (hb1 : b < 1) (ha : 0 < avg) (hf : 0 ≤ f) (hl : 0 ≤ len) :
    Spec.saturation k1 b avg f len = 0 ↔ f = 0 := by
  unfold Spec.saturation
  rw [div_eq_zero_iff]
  have := denominator_pos hk hb0 hb1 ha hf hl
  constructor
  · rintro (h | h)
    · rcases mul_eq_zero.1 h with h | h
      · exact h
      · linarith
    · linarith
  · rintro rfl; left; simp

/-- inputs for which a score is meaningful: `0 ≤ b < 1 `, positive `k1` and average length, no negative boost, frequency or length, and
no term in more documents than there are. -/
structure InRange (query : List String) (k1 b boost avg N : ℝ) (ndt : GoMap String Int) (field : Field) : Prop where
  k1 : 0 < k1
  b0 : 0 ≤ b
  b1 : b < 1
  boost : 0 ≤ boost
  avg : 0 < avg
  len : 0 ≤ field.length
  tf : ∀ t, 0 ≤ field.tf.getD t 0
  n0 : ∀ t ∈ query, 0 ≤ ndt.getD t 0
  nN : ∀ t ∈ query, (ndt.getD t 0 : ℝ) ≤ N

theorem boost_pos {boost : ℝ} (h : 0 ≤ boost) : 0 < (if boost = 0 then (1 : ℝ) else boost) := by
  split
  · norm_num
  · rename_i h'; exact lt_of_le_of_ne h (Ne.symm h')

/-- **C64.** Scores are not negative. -/
theorem c64_nonneg {query : List String} {k1 b boost avg N : ℝ} {ndt : GoMap String Int} {field : Field}
    (h : InRange query k1 b boost avg N ndt field) : 0 ≤ bm25 query k1 b boost avg N ndt field := by
  rw [c64_bm25_formula]
  unfold Spec.bm25
  apply List.sum_nonneg
  intro x hx
  obtain ⟨t, ht, rfl⟩ := List.mem_map.1 hx
  have h1 := boost_pos h.boost
  have h2 : 0 < Spec.idf N (ndt.getD t 0 : ℝ) := idf_nonneg (by exact_mod_cast h.n0 t ht) (h.nN t ht)
  have h3 := saturation_nonneg (f := (field.tf.getD t 0 : ℝ)) (len := (field.length : ℝ)) h.k1 h.b0 h.b1 h.avg
    (by exact_mod_cast h.tf t) (by exact_mod_cast h.len)
  exact mul_nonneg (mul_nonneg h1.le h2.le) h3

/-- **C64.** A score is zero exactly if no query term occurs in the field. -/
theorem c64_zero_iff {query : List String} {k1 b boost avg N : ℝ} {ndt : GoMap String Int} {field : Field}
    (h : InRange query k1 b boost avg N ndt field) :
    bm25 query k1 b boost avg N ndt field = 0 ↔ ∀ t ∈ query, field.tf.getD t 0 = 0 := by
  rw [c64_bm25_formula]
  unfold Spec.bm25
  have h1 := boost_pos h.boost
  have hn : ∀ t ∈ query, 0 ≤ (if boost = 0 then (1 : ℝ) else boost) * Spec.idf N (ndt.getD t 0 : ℝ) *
      Spec.saturation k1 b avg (field.tf.getD t 0 : ℝ) (field.length : ℝ) := by
    intro t ht
    have h2 : 0 < Spec.idf N (ndt.getD t 0 : ℝ) := idf_nonneg (by exact_mod_cast h.n0 t ht) (h.nN t ht)
    have h3 := saturation_nonneg (f := (field.tf.getD t 0 : ℝ)) (len := (field.length : ℝ)) h.k1 h.b0 h.b1 h.avg
      (by exact_mod_cast h.tf t) (by exact_mod_cast h.len)
    exact mul_nonneg (mul_nonneg h1.le h2.le) h3
  have key : ∀ t ∈ query, ((if boost = 0 then (1 : ℝ) else boost) * Spec.idf N (ndt.getD t 0 : ℝ) *
      Spec.saturation k1 b avg (field.tf.getD t 0 : ℝ) (field.length : ℝ) = 0 ↔ field.tf.getD t 0 = 0) := by
    intro t ht
    have h2 : 0 < Spec.idf N (ndt.getD t 0 : ℝ) := idf_nonneg (by exact_mod_cast h.n0 t ht) (h.nN t ht)
    rw [mul_eq_zero, saturation_eq_zero h.k1 h.b0 h.b1 h.avg (by exact_mod_cast h.tf t) (by exact_mod_cast h.len)]
    constructor
    · rintro (h' | h')
      · exact absurd h' (mul_pos h1 h2).ne'
      · exact_mod_cast h'
    · intro h'; right; exact_mod_cast h'
  clear h
  induction query with
  | nil => simp
  | cons t q ih =>
    have ih := ih (fun u hu => hn u (List.mem_cons_of_mem _ hu)) (fun u hu => key u (List.mem_cons_of_mem _ hu))
    rw [List.map_cons, List.sum_cons, List.forall_mem_cons, ← propext ih, ← propext (key t List.mem_cons_self)]
    have a1 := hn t List.mem_cons_self
    have a2 : 0 ≤ (q.map fun t => (if boost = 0 then (1 : ℝ) else boost) * Spec.idf N (ndt.getD t 0 : ℝ) *
        Spec.saturation k1 b avg (field.tf.getD t 0 : ℝ) (field.length : ℝ)).sum := by
      apply List.sum_nonneg
      intro x hx
      obtain ⟨u, hu, rfl⟩ := List.mem_map.1 hx
      exact hn u (List.mem_cons_of_mem _ hu)
    constructor
    · intro h; constructor <;> linarith
    · rintro ⟨h1, h2⟩; linarith

/-- a document that matches one of two query terms, with the constants Search uses (/repo/search/Standard.go:35). -/
theorem c64_example : InRange ["a", "b"] (lit 1.2 : ℝ) (lit 0.75 : ℝ) 1 5 3 [("a", 2)] { name := "title", length := 4, tf := [("a", 1)] } := by
  refine ⟨?_, ?_, ?_, by norm_num, by norm_num, by norm_num, ?_, ?_, ?_⟩
  · simp only [GoFloat.lit]; norm_num
  · simp only [GoFloat.lit]; norm_num
  · simp only [GoFloat.lit]; norm_num
  · intro t; by_cases h : t = "a" <;> simp [GoMap.getD, GoMap.get?_cons, h, eq_comm]
  · decide
  · intro t ht
    rcases List.mem_cons.1 ht with rfl | ht
    · norm_num [GoMap.getD, GoMap.get?_cons]
    · rcases List.mem_cons.1 ht with rfl | ht
      · rw [show GoMap.getD [("a", (2 : Int))] "b" 0 = 0 from by decide]; norm_num
      · cases ht

example : 0 < bm25 ["a", "b"] (lit 1.2 : ℝ) (lit 0.75 : ℝ) 1 5 3 [("a", 2)] { name := "title", length := 4, tf := [("a", 1)] } :=
  lt_of_le_of_ne (c64_nonneg c64_example) fun e => by
    have := (c64_zero_iff c64_example).1 e.symm "a" (by simp)
    revert this; decide

/-! ### C65 -/

theorem saturation_mono {k1 b avg f f' len : ℝ} (hk : 0 < k1) (hb0 : 0 ≤ b) (hb1 : b < 1) (ha : 0 < avg) (hf : 0 ≤ f) (hl : 0 ≤ len)
    (h : f < f') : Spec.saturation k1 b avg f len < Spec.saturation k1 b avg f' len := by
  unfold Spec.saturation
  have hd := denominator_pos hk hb0 hb1 ha le_rfl hl
  have d1 := denominator_pos hk hb0 hb1 ha hf hl
  have d2 := denominator_pos (f := f') hk hb0 hb1 ha (by linarith) hl
  rw [div_lt_div_iff₀ d1 d2]
  set c := k1 * (1 - b + b * (len / avg)) with hc
  have hc0 : 0 < c := by linarith
  have : 0 < (k1 + 1) * c * (f' - f) := by
    have : 0 < f' - f := by linarith
    positivity
  nlinarith

theorem saturation_anti {k1 b avg f len len' : ℝ} (hk : 0 < k1) (hb0 : 0 < b) (hb1 : b < 1) (ha : 0 < avg) (hf : 0 < f) (hl : 0 ≤ len)
    (h : len < len') : Spec.saturation k1 b avg f len' < Spec.saturation k1 b avg f len := by
  unfold Spec.saturation
  have d1 := denominator_pos hk hb0.le hb1 ha hf.le hl
  have hdiv : len / avg < len' / avg := div_lt_div_of_pos_right h ha
  apply div_lt_div_of_pos_left
  · positivity
  · exact d1
  · have : b * (len / avg) < b * (len' / avg) := mul_lt_mul_of_pos_left hdiv hb0
    have : k1 * (1 - b + b * (len / avg)) < k1 * (1 - b + b * (len' / avg)) := mul_lt_mul_of_pos_left (by linarith) hk
    linarith

theorem saturation_lt {k1 b avg f len : ℝ} (hk : 0 < k1) (hb0 : 0 ≤ b) (hb1 : b < 1) (ha : 0 < avg) (hf : 0 ≤ f) (hl : 0 ≤ len) :
    Spec.saturation k1 b avg f len < k1 + 1 := by
  unfold Spec.saturation
  have hd := denominator_pos hk hb0 hb1 ha le_rfl hl
  have d1 := denominator_pos hk hb0 hb1 ha hf hl
  rw [div_lt_iff₀ d1]
  have : 0 < (k1 + 1) * (k1 * (1 - b + b * (len / avg))) := by
    have : 0 < k1 * (1 - b + b * (len / avg)) := by linarith
    positivity
  nlinarith

/-- **C65.** If every query term occurs at least as often and some query term more often, the score is higher. -/
theorem c65_frequency {query : List String} {k1 b boost avg N : ℝ} {ndt : GoMap String Int} {field field' : Field}
    (h : InRange query k1 b boost avg N ndt field) (hlen : field'.length = field.length)
    (hle : ∀ t ∈ query, field.tf.getD t 0 ≤ field'.tf.getD t 0) :
    bm25 query k1 b boost avg N ndt field ≤ bm25 query k1 b boost avg N ndt field' ∧
      ((∃ t ∈ query, field.tf.getD t 0 < field'.tf.getD t 0) →
        bm25 query k1 b boost avg N ndt field < bm25 query k1 b boost avg N ndt field') := by
  rw [c64_bm25_formula, c64_bm25_formula, hlen]
  unfold Spec.bm25
  have h1 := boost_pos h.boost
  have hlt : ∀ t ∈ query, field.tf.getD t 0 < field'.tf.getD t 0 →
      (if boost = 0 then (1 : ℝ) else boost) * Spec.idf N (ndt.getD t 0 : ℝ) * Spec.saturation k1 b avg (field.tf.getD t 0 : ℝ) field.length <
      (if boost = 0 then (1 : ℝ) else boost) * Spec.idf N (ndt.getD t 0 : ℝ) * Spec.saturation k1 b avg (field'.tf.getD t 0 : ℝ) field.length := by
    intro t ht hl
    have h2 : 0 < Spec.idf N (ndt.getD t 0 : ℝ) := idf_nonneg (by exact_mod_cast h.n0 t ht) (h.nN t ht)
    exact mul_lt_mul_of_pos_left (saturation_mono h.k1 h.b0 h.b1 h.avg (by exact_mod_cast h.tf t) (by exact_mod_cast h.len)
      (by exact_mod_cast hl)) (mul_pos h1 h2)
  have hle' : ∀ t ∈ query,
      (if boost = 0 then (1 : ℝ) else boost) * Spec.idf N (ndt.getD t 0 : ℝ) * Spec.saturation k1 b avg (field.tf.getD t 0 : ℝ) field.length ≤
      (if boost = 0 then (1 : ℝ) else boost) * Spec.idf N (ndt.getD t 0 : ℝ) * Spec.saturation k1 b avg (field'.tf.getD t 0 : ℝ) field.length := by
    intro t ht
    rcases lt_or_eq_of_le (hle t ht) with hl | he
    · exact (hlt t ht hl).le
    · rw [he]
  refine ⟨List.sum_le_sum hle', ?_⟩
  rintro ⟨t, ht, hl⟩
  exact List.sum_lt_sum _ _ hle' ⟨t, ht, hlt t ht hl⟩

/-- **C65.** With the same frequencies, a longer field scores at most as high, and less if a query term occurs and `b > 0`. -/
theorem c65_length {query : List String} {k1 b boost avg N : ℝ} {ndt : GoMap String Int} {field field' : Field}
    (h : InRange query k1 b boost avg N ndt field) (hb : 0 < b) (htf : ∀ t ∈ query, field'.tf.getD t 0 = field.tf.getD t 0)
    (hlen : field.length < field'.length) :
    bm25 query k1 b boost avg N ndt field' ≤ bm25 query k1 b boost avg N ndt field ∧
      ((∃ t ∈ query, field.tf.getD t 0 ≠ 0) → bm25 query k1 b boost avg N ndt field' < bm25 query k1 b boost avg N ndt field) := by
  rw [c64_bm25_formula, c64_bm25_formula]
  unfold Spec.bm25
  have h1 := boost_pos h.boost
  have hlt : ∀ t ∈ query, field.tf.getD t 0 ≠ 0 →
      (if boost = 0 then (1 : ℝ) else boost) * Spec.idf N (ndt.getD t 0 : ℝ) * Spec.saturation k1 b avg (field'.tf.getD t 0 : ℝ) field'.length <
      (if boost = 0 then (1 : ℝ) else boost) * Spec.idf N (ndt.getD t 0 : ℝ) * Spec.saturation k1 b avg (field.tf.getD t 0 : ℝ) field.length := by
    intro t ht hne
    have h2 : 0 < Spec.idf N (ndt.getD t 0 : ℝ) := idf_nonneg (by exact_mod_cast h.n0 t ht) (h.nN t ht)
    have hf : 0 < field.tf.getD t 0 := lt_of_le_of_ne (h.tf t) (Ne.symm hne)
    rw [htf t ht]
    exact mul_lt_mul_of_pos_left (saturation_anti h.k1 hb h.b1 h.avg (by exact_mod_cast hf) (by exact_mod_cast h.len)
      (by exact_mod_cast hlen)) (mul_pos h1 h2)
  have hle' : ∀ t ∈ query,
      (if boost = 0 then (1 : ℝ) else boost) * Spec.idf N (ndt.getD t 0 : ℝ) * Spec.saturation k1 b avg (field'.tf.getD t 0 : ℝ) field'.length ≤
      (if boost = 0 then (1 : ℝ) else boost) * Spec.idf N (ndt.getD t 0 : ℝ) * Spec.saturation k1 b avg (field.tf.getD t 0 : ℝ) field.length := by
    intro t ht
    by_cases hz : field.tf.getD t 0 = 0
    · rw [htf t ht, hz]; simp [Spec.saturation]
    · exact (hlt t ht hz).le
  refine ⟨List.sum_le_sum hle', ?_⟩
  rintro ⟨t, ht, hl⟩
  exact List.sum_lt_sum _ _ hle' ⟨t, ht, hlt t ht hl⟩

/-- **C65.** However often a term occurs, it contributes less than boost·idf·(k1+1). -/
theorem c65_saturates {t : String} {k1 b boost avg N : ℝ} {ndt : GoMap String Int} {field : Field}
    (h : InRange [t] k1 b boost avg N ndt field) :
    bm25 [t] k1 b boost avg N ndt field < (if boost = 0 then 1 else boost) * idfBM25 N (ndt.getD t 0 : ℝ) * (k1 + 1) := by
  rw [c64_bm25_formula, idf_eq]
  unfold Spec.bm25
  simp only [List.map_cons, List.map_nil, List.sum_cons, List.sum_nil, add_zero]
  have h2 : 0 < Spec.idf N (ndt.getD t 0 : ℝ) := idf_nonneg (by exact_mod_cast h.n0 t (by simp)) (h.nN t (by simp))
  exact mul_lt_mul_of_pos_left (saturation_lt h.k1 h.b0 h.b1 h.avg (by exact_mod_cast h.tf t) (by exact_mod_cast h.len))
    (mul_pos (boost_pos h.boost) h2)

example : bm25 ["a", "b"] (lit 1.2 : ℝ) (lit 0.75 : ℝ) 1 5 3 [("a", 2)] { name := "title", length := 4, tf := [("a", 1)] } <
    bm25 ["a", "b"] (lit 1.2 : ℝ) (lit 0.75 : ℝ) 1 5 3 [("a", 2)] { name := "title", length := 4, tf := [("a", 2)] } :=
  (c65_frequency (field' := { name := "title", length := 4, tf := [("a", 2)] }) c64_example rfl (by decide)).2 ⟨"a", by simp, by decide⟩

example : bm25 ["a", "b"] (lit 1.2 : ℝ) (lit 0.75 : ℝ) 1 5 3 [("a", 2)] { name := "title", length := 9, tf := [("a", 1)] } <
    bm25 ["a", "b"] (lit 1.2 : ℝ) (lit 0.75 : ℝ) 1 5 3 [("a", 2)] { name := "title", length := 4, tf := [("a", 1)] } :=
  (c65_length (field' := { name := "title", length := 9, tf := [("a", 1)] }) c64_example (by simp only [GoFloat.lit]; norm_num) (by decide) (by decide)).2 ⟨"a", by simp, by decide⟩

/-! ### C66 -/

/-- **C66.** Boosts scale the score. -/
theorem c66_boost_scales (query : List String) (k1 b avg N c boost : ℝ) (ndt : GoMap String Int) (field : Field)
    (hc : c ≠ 0) (hb : boost ≠ 0) :
    bm25 query k1 b (c * boost) avg N ndt field = c * bm25 query k1 b boost avg N ndt field := by
  rw [c64_bm25_formula, c64_bm25_formula, if_neg (mul_ne_zero hc hb), if_neg hb]
  unfold Spec.bm25
  rw [← List.sum_map_mul_left]
  congr 1
  apply List.map_congr_left
  intro t _
  ring

/-- **C66.** Boost 0 means boost 1. -/
theorem c66_boost_zero (query : List String) (k1 b avg N : ℝ) (ndt : GoMap String Int) (field : Field) :
    bm25 query k1 b 0 avg N ndt field = bm25 query k1 b 1 avg N ndt field := by
  rw [c64_bm25_formula, c64_bm25_formula]; simp

/-! ### C67 -/

/-- **C67.** The score of a concatenated query is the sum of the scores. -/
theorem c67_append (q₁ q₂ : List String) (k1 b boost avg N : ℝ) (ndt : GoMap String Int) (field : Field) :
    bm25 (q₁ ++ q₂) k1 b boost avg N ndt field = bm25 q₁ k1 b boost avg N ndt field + bm25 q₂ k1 b boost avg N ndt field := by
  simp only [c64_bm25_formula, Spec.bm25, List.map_append, List.sum_append]

/-- **C67.** The order of the query terms does not matter. -/
theorem c67_order {q₁ q₂ : List String} (h : q₁.Perm q₂) (k1 b boost avg N : ℝ) (ndt : GoMap String Int) (field : Field) :
    bm25 q₁ k1 b boost avg N ndt field = bm25 q₂ k1 b boost avg N ndt field := by
  simp only [c64_bm25_formula, Spec.bm25]
  exact (h.map _).sum_eq

/-- **C67.** A term listed `k` times counts `k` times. -/
theorem c67_repeat (k : Nat) (t : String) (k1 b boost avg N : ℝ) (ndt : GoMap String Int) (field : Field) :
    bm25 (List.replicate k t) k1 b boost avg N ndt field = k * bm25 [t] k1 b boost avg N ndt field := by
  simp only [c64_bm25_formula, Spec.bm25, List.map_replicate, List.sum_replicate, List.map_cons, List.map_nil, List.sum_cons,
    List.sum_nil, add_zero, nsmul_eq_mul]

example : (["a", "b", "a"] : List String).Perm ["b", "a", "a"] := by decide

end Goir
