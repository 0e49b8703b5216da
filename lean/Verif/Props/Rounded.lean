import Verif.Props.SearchOrder
import Verif.Props.Score
/-!
# C59, C63, C64 with rounding to 53 bits
-/
namespace Goir
namespace R53

/-- rounding keeps the order. -/
theorem nearest_mono {x y : ℝ} (h : x ≤ y) : nearest x ≤ nearest y := by
  by_contra hc
  have hc : nearest y + 1 ≤ nearest x := by omega
  have hc' : (nearest y : ℝ) + 1 ≤ nearest x := by exact_mod_cast hc
  have hx := nearest_sub x
  have hy := nearest_sub y
  rw [abs_le] at hx hy
  -- both are exactly half way, so equal
  have e : x = y := by linarith [hx.1, hy.2]
  subst e
  omega

theorem rnd_of_pos {x : ℝ} (hx : 0 < x) : rnd x = nearest (x / ulp x) * ulp x := by
  unfold rnd; rw [sign_pos hx, abs_of_pos hx]; simp

/-- a power of two is not changed. -/
theorem rnd_pow (k : ℤ) : rnd (2^k) = 2^k := by
  have := rnd_mul_pow 1 k
  rwa [rnd_one, one_mul] at this

theorem rnd_mono_pos {x y : ℝ} (hx : 0 < x) (h : x ≤ y) : rnd x ≤ rnd y := by
  have hy : 0 < y := lt_of_lt_of_le hx h
  obtain ⟨x1, x2⟩ := log_bounds hx
  obtain ⟨y1, y2⟩ := log_bounds hy
  have hle : Int.log 2 x ≤ Int.log 2 y := Int.log_mono_right (b := 2) hx h
  rcases eq_or_lt_of_le hle with e | e
  · -- the same binade
    have hu : ulp x = ulp y := by unfold ulp; rw [abs_of_pos hx, abs_of_pos hy, e]
    rw [rnd_of_pos hx, rnd_of_pos hy, hu]
    have hup := ulp_pos y
    apply mul_le_mul_of_nonneg_right _ hup.le
    exact_mod_cast nearest_mono (div_le_div_of_nonneg_right h hup.le)
  · -- a power of two lies between
    have s1 : rnd x ≤ 2^(Int.log 2 x + 1) := by
      rw [rnd_of_pos hx]
      have hs := (significand hx.ne').2
      rw [abs_of_pos hx] at hs
      have hn : nearest (x / ulp x) ≤ 2^53 := by
        have := nearest_mono hs.le
        have e : (2:ℝ)^53 = ((2^53 : ℤ) : ℝ) := by norm_cast
        rwa [e, nearest_int] at this
      have hn' : (nearest (x / ulp x) : ℝ) ≤ 2^53 := by exact_mod_cast hn
      calc (nearest (x / ulp x) : ℝ) * ulp x ≤ 2^53 * ulp x := mul_le_mul_of_nonneg_right hn' (ulp_pos x).le
        _ = 2^(Int.log 2 x + 1) := by
          unfold ulp; rw [abs_of_pos hx, ← zpow_natCast, ← zpow_add₀ (by norm_num)]; congr 1; push_cast; ring
    have s2 : (2:ℝ)^(Int.log 2 y) ≤ rnd y := by
      rw [rnd_of_pos hy]
      have hs := (significand hy.ne').1
      rw [abs_of_pos hy] at hs
      have hn : 2^52 ≤ nearest (y / ulp y) := by
        have := nearest_mono hs
        have e : (2:ℝ)^52 = ((2^52 : ℤ) : ℝ) := by norm_cast
        rwa [e, nearest_int] at this
      have hn' : (2:ℝ)^52 ≤ (nearest (y / ulp y) : ℝ) := by exact_mod_cast hn
      calc (2:ℝ)^(Int.log 2 y) = 2^52 * ulp y := by
            unfold ulp; rw [abs_of_pos hy, ← zpow_natCast, ← zpow_add₀ (by norm_num)]; congr 1; push_cast; ring
        _ ≤ _ := mul_le_mul_of_nonneg_right hn' (ulp_pos y).le
    have s3 : (2:ℝ)^(Int.log 2 x + 1) ≤ 2^(Int.log 2 y) := zpow_le_zpow_right₀ (by norm_num) (by omega)
    linarith

theorem rnd_mono {x y : ℝ} (h : x ≤ y) : rnd x ≤ rnd y := by
  rcases lt_trichotomy x 0 with hx | rfl | hx
  · have nx : rnd x < 0 := by
      have := rnd_pos (neg_pos.2 hx); rw [rnd_neg] at this; linarith
    rcases lt_trichotomy y 0 with hy | rfl | hy
    · have := rnd_mono_pos (neg_pos.2 hy) (neg_le_neg h)
      rw [rnd_neg, rnd_neg] at this
      linarith
    · rw [rnd_zero]; exact nx.le
    · have := rnd_pos hy; linarith
  · rcases eq_or_lt_of_le h with e | hy
    · rw [← e]
    · rw [rnd_zero]; exact (rnd_pos hy).le
  · exact rnd_mono_pos hx h

theorem rnd_nonneg {x : ℝ} (h : 0 ≤ x) : 0 ≤ rnd x := by have := rnd_mono h; rwa [rnd_zero] at this

end R53
open R53

/-! ### C59 -/

/-- **C59, with rounding.** Whatever the schedule, Search returns every document that some query matches exactly once, sorted by
non-increasing score. -/
theorem c59_ranking_rounded {st : Reads} (hst : st.Consistent) (query : List (Query R53)) (cpus : Nat) {l : Scores R53}
    (h : SState.Returns st query cpus l) : (l.map Prod.fst).Nodup ∧ (∀ d, d ∈ l.map Prod.fst ↔ docScores st query d ≠ []) ∧
      l.Pairwise fun a b => b.2.val ≤ a.2.val := by
  obtain ⟨hn, qs, hp, hm⟩ := c59_result hst query cpus h
  refine ⟨hn, fun d => ?_, ?_⟩
  · have hperm := docScores_perm (st := st) hp d
    have : docScores st qs d ≠ [] ↔ docScores st query d ≠ [] := by rw [ne_eq, ne_eq, perm_nil_iff hperm]
    rw [← this, List.mem_map]
    constructor
    · rintro ⟨⟨d', x⟩, he, rfl⟩; exact ((hm d' x).1 he).1
    · intro hne; exact ⟨(d, _), (hm d _).2 ⟨hne, rfl⟩, rfl⟩
  · obtain ⟨s, hs, hr⟩ := h
    have hi := Reaches.invariant (P := SInv st query cpus) hs (sinv_start query cpus) (fun _ _ hp hs => sinv_step hst hp hs)
    obtain ⟨order, h1, -⟩ := sinv_result hi hr
    have gt_iff : ∀ x y : R53, GoFloat.gt x y = true ↔ y.val < x.val := fun x y => by simp [GoFloat.gt]
    have gt_false : ∀ x y : R53, GoFloat.gt x y = false ↔ x.val ≤ y.val := fun x y => by simp [GoFloat.gt]
    have := h1.2 (fun x _ => (gt_false _ _).2 le_rfl)
      (fun x _ y _ z _ h h' => (gt_iff _ _).2 (((gt_iff _ _).1 h').trans ((gt_iff _ _).1 h)))
      (fun x _ y _ z _ h h' => (gt_false _ _).2 (((gt_false _ _).1 h).trans ((gt_false _ _).1 h')))
    exact this.imp fun h => (gt_false _ _).1 h

/-! ### C63 -/

theorem lit_half : (GoFloat.lit 0.5 : R53).val = 1/2 := by
  show rnd ((0.5 : Rat) : ℝ) = 1/2
  have : ((0.5 : Rat) : ℝ) = 1/2 := by norm_num
  rw [this]; exact rnd_half

theorem lit_one : (GoFloat.lit 1 : R53).val = 1 := by
  show rnd ((1 : Rat) : ℝ) = 1
  rw [Rat.cast_one]; exact rnd_one

/-- the code, spelled out with rounding. -/
theorem idf_rounded (N n : R53) : (idfBM25 N n).val = rnd (Real.log (rnd (1 + rnd (rnd (rnd (N.val - n.val) + 1/2) / rnd (n.val + 1/2))))) := by
  unfold idfBM25
  show rnd (Real.log (rnd ((GoFloat.lit 1 : R53).val + rnd (rnd (rnd (N.val - n.val) + (GoFloat.lit 0.5 : R53).val) / rnd (n.val + (GoFloat.lit 0.5 : R53).val))))) = _
  rw [lit_half, lit_one]

theorem rnd_ge_one {x : ℝ} (h : 1 ≤ x) : 1 ≤ rnd x := by have := rnd_mono h; rwa [rnd_one] at this

theorem rnd_ge_half {x : ℝ} (h : 1/2 ≤ x) : 1/2 ≤ rnd x := by have := rnd_mono h; rwa [rnd_half] at this

/-- **C63, with rounding.** The idf of a term that is in at most all documents is not negative, and it is positive if the term is in
fewer than 2^50 documents. -/
theorem c63_idf_rounded_nonneg {N n : R53} (hn : 0 ≤ n.val) (h : n.val ≤ N.val) :
    0 ≤ (idfBM25 N n).val ∧ (n.val ≤ 2^50 → 0 < (idfBM25 N n).val) := by
  rw [idf_rounded]
  have h1 : 0 ≤ rnd (N.val - n.val) := rnd_nonneg (by linarith)
  have h2 : 1/2 ≤ rnd (rnd (N.val - n.val) + 1/2) := rnd_ge_half (by linarith)
  have h3 : 0 < rnd (n.val + 1/2) := rnd_pos (by linarith)
  have h4 : 0 ≤ rnd (rnd (rnd (N.val - n.val) + 1/2) / rnd (n.val + 1/2)) := rnd_nonneg (by positivity)
  refine ⟨rnd_nonneg (Real.log_nonneg (rnd_ge_one (by linarith))), fun hb => ?_⟩
  have h5 : rnd (n.val + 1/2) ≤ 2^(51 : ℤ) := by
    have := rnd_mono (x := n.val + 1/2) (y := 2^(51 : ℤ)) (by norm_num at hb ⊢; linarith)
    rwa [rnd_pow] at this
  have h6 : (2:ℝ)^(-52 : ℤ) ≤ rnd (rnd (rnd (N.val - n.val) + 1/2) / rnd (n.val + 1/2)) := by
    have := rnd_mono (x := 2^(-52 : ℤ)) (y := rnd (rnd (N.val - n.val) + 1/2) / rnd (n.val + 1/2)) (by
      rw [le_div_iff₀ h3]
      have : (2:ℝ)^(-52 : ℤ) * rnd (n.val + 1/2) ≤ 2^(-52 : ℤ) * 2^(51 : ℤ) := mul_le_mul_of_nonneg_left h5 (by positivity)
      have e : (2:ℝ)^(-52 : ℤ) * 2^(51 : ℤ) = 1/2 := by norm_num
      linarith)
    rwa [rnd_pow] at this
  have h7 : 1 + (2:ℝ)^(-52 : ℤ) ≤ rnd (1 + rnd (rnd (rnd (N.val - n.val) + 1/2) / rnd (n.val + 1/2))) := by
    have e := rnd_absorb (x := 1 + (2:ℝ)^(-52 : ℤ)) (δ := 0) (m := 2^52 + 1) (k := -52) (by norm_num) (by norm_num) (by norm_num) (le_refl 0) (by positivity)
    rw [add_zero] at e
    have := rnd_mono (x := 1 + (2:ℝ)^(-52 : ℤ)) (y := 1 + rnd (rnd (rnd (N.val - n.val) + 1/2) / rnd (n.val + 1/2))) (by linarith)
    rwa [e] at this
  have h8 : (0:ℝ) < 2^(-52 : ℤ) := by positivity
  exact rnd_pos (Real.log_pos (by linarith))

/-- **C63, with rounding.** A rarer term never has a lower idf … -/
theorem c63_idf_rounded_decreases {N n n' : R53} (hn : 0 ≤ n.val) (h : n.val ≤ n'.val) (hN : n'.val ≤ N.val) : (idfBM25 N n').val ≤ (idfBM25 N n).val := by
  rw [idf_rounded, idf_rounded]
  have a1 : 0 ≤ rnd (N.val - n'.val) := rnd_nonneg (by linarith)
  have a2 : rnd (N.val - n'.val) ≤ rnd (N.val - n.val) := rnd_mono (by linarith)
  have a3 : rnd (rnd (N.val - n'.val) + 1/2) ≤ rnd (rnd (N.val - n.val) + 1/2) := rnd_mono (by linarith)
  have a4 : 0 ≤ rnd (rnd (N.val - n'.val) + 1/2) := rnd_nonneg (by linarith)
  have a5 : 0 < rnd (n.val + 1/2) := rnd_pos (by linarith)
  have a6 : rnd (n.val + 1/2) ≤ rnd (n'.val + 1/2) := rnd_mono (by linarith)
  have a7 := rnd_mono (div_le_div₀ (by linarith) a3 a5 a6)
  have a8 : 0 ≤ rnd (rnd (rnd (N.val - n'.val) + 1/2) / rnd (n'.val + 1/2)) := rnd_nonneg (div_nonneg a4 (by linarith))
  have a9 := rnd_mono (add_le_add_right a7 1)
  exact rnd_mono (Real.log_le_log (rnd_pos (by linarith)) a9)

/-- … and in a larger collection the idf is never lower. -/
theorem c63_idf_rounded_increases {N N' n : R53} (hn : 0 ≤ n.val) (h : n.val ≤ N.val) (hN : N.val ≤ N'.val) : (idfBM25 N n).val ≤ (idfBM25 N' n).val := by
  rw [idf_rounded, idf_rounded]
  have a1 : 0 ≤ rnd (N.val - n.val) := rnd_nonneg (by linarith)
  have a2 : rnd (N.val - n.val) ≤ rnd (N'.val - n.val) := rnd_mono (by linarith)
  have a3 : rnd (rnd (N.val - n.val) + 1/2) ≤ rnd (rnd (N'.val - n.val) + 1/2) := rnd_mono (by linarith)
  have a4 : 0 ≤ rnd (rnd (N.val - n.val) + 1/2) := rnd_nonneg (by linarith)
  have a5 : 0 < rnd (n.val + 1/2) := rnd_pos (by linarith)
  have a7 := rnd_mono (div_le_div_of_nonneg_right a3 a5.le)
  have a8 : 0 ≤ rnd (rnd (rnd (N.val - n.val) + 1/2) / rnd (n.val + 1/2)) := rnd_nonneg (div_nonneg a4 (by linarith))
  have a9 := rnd_mono (add_le_add_right a7 1)
  exact rnd_mono (Real.log_le_log (rnd_pos (by linarith)) a9)

example : 0 < (idfBM25 (GoFloat.ofInt 1 : R53) (GoFloat.ofInt 1)).val := by
  have e : (GoFloat.ofInt 1 : R53).val = 1 := by show rnd ((1 : Int) : ℝ) = 1; rw [Int.cast_one]; exact rnd_one
  exact (c63_idf_rounded_nonneg (by rw [e]; norm_num) (le_refl _)).2 (by rw [e]; norm_num)

/-! ### C64 -/

/-- inputs for which a score is meaningful, as `InRange`. -/
structure InRange53 (query : List String) (k1 b boost avg N : R53) (ndt : GoMap String Int) (field : Field) : Prop where
  k1 : 0 ≤ k1.val
  b0 : 0 ≤ b.val
  b1 : b.val ≤ 1
  boost : 0 ≤ boost.val
  avg : 0 ≤ avg.val
  len : 0 ≤ field.length
  tf : ∀ t, 0 ≤ field.tf.getD t 0
  n0 : ∀ t ∈ query, 0 ≤ ndt.getD t 0
  nN : ∀ t ∈ query, (GoFloat.ofInt (ndt.getD t 0) : R53).val ≤ N.val

/-- **C64, with rounding.** Scores are not negative. -/
theorem c64_rounded_nonneg {query : List String} {k1 b boost avg N : R53} {ndt : GoMap String Int} {field : Field}
    (h : InRange53 query k1 b boost avg N ndt field) : 0 ≤ (bm25 query k1 b boost avg N ndt field).val := by
  unfold bm25
  have hboost : 0 ≤ (if GoFloat.eq0 boost = true then (GoFloat.lit 1 : R53) else boost).val := by
    split
    · rw [lit_one]; norm_num
    · exact h.boost
  generalize (if GoFloat.eq0 boost = true then (GoFloat.lit 1 : R53) else boost) = bst at hboost ⊢
  have key : ∀ (q : List String) (acc : R53), (∀ t ∈ q, t ∈ query) → 0 ≤ acc.val → 0 ≤ (q.foldl (bm25Step k1 b bst avg N ndt field) acc).val := by
    intro q
    induction q with
    | nil => intro acc _ ha; exact ha
    | cons t q ih =>
      intro acc hq ha
      rw [List.foldl_cons]
      refine ih _ (fun x hx => hq x (List.mem_cons_of_mem _ hx)) ?_
      have ht := hq t List.mem_cons_self
      have hn : 0 ≤ (GoFloat.ofInt (ndt.getD t 0) : R53).val := rnd_nonneg (by exact_mod_cast h.n0 t ht)
      have hidf := (c63_idf_rounded_nonneg hn (h.nN t ht)).1
      have hf : 0 ≤ (GoFloat.ofInt (field.tf.getD t 0) : R53).val := rnd_nonneg (by exact_mod_cast h.tf t)
      have hl : 0 ≤ (GoFloat.ofInt field.length : R53).val := rnd_nonneg (by exact_mod_cast h.len)
      unfold bm25Step
      have hk := h.k1
      have hb0 := h.b0
      have hb1 := h.b1
      have havg := h.avg
      show 0 ≤ rnd (acc.val + rnd (rnd (bst.val * (idfBM25 N (GoFloat.ofInt (ndt.getD t 0))).val) *
        rnd (rnd ((GoFloat.ofInt (field.tf.getD t 0) : R53).val * rnd (k1.val + (GoFloat.lit 1 : R53).val)) /
          rnd ((GoFloat.ofInt (field.tf.getD t 0) : R53).val + rnd (k1.val *
            rnd (rnd ((GoFloat.lit 1 : R53).val - b.val) + rnd (b.val * rnd ((GoFloat.ofInt field.length : R53).val / avg.val))))))))
      rw [lit_one]
      have c1 : 0 ≤ rnd (k1.val + 1) := rnd_nonneg (by linarith)
      have c2 : 0 ≤ rnd ((GoFloat.ofInt (field.tf.getD t 0) : R53).val * rnd (k1.val + 1)) := rnd_nonneg (mul_nonneg hf c1)
      have c3 : 0 ≤ rnd ((GoFloat.ofInt field.length : R53).val / avg.val) := rnd_nonneg (div_nonneg hl havg)
      have c4 : 0 ≤ rnd (b.val * rnd ((GoFloat.ofInt field.length : R53).val / avg.val)) := rnd_nonneg (mul_nonneg hb0 c3)
      have c5 : 0 ≤ rnd (1 - b.val) := rnd_nonneg (by linarith)
      have c6 := rnd_nonneg (add_nonneg c5 c4)
      have c7 := rnd_nonneg (mul_nonneg hk c6)
      have c8 := rnd_nonneg (add_nonneg hf c7)
      have c9 := rnd_nonneg (div_nonneg c2 c8)
      have c10 := rnd_nonneg (mul_nonneg hboost hidf)
      exact rnd_nonneg (add_nonneg ha (rnd_nonneg (mul_nonneg c10 c9)))
  refine key query _ (fun _ h => h) ?_
  show 0 ≤ rnd ((0.0 : Rat) : ℝ)
  norm_num

example : InRange53 ["house", "tree"] (GoFloat.lit 1.2) (GoFloat.lit 0.75) (GoFloat.lit 1) (GoFloat.lit 2) (GoFloat.ofInt 3)
    [("house", 2)] { name := "title", length := 3, tf := [("house", 1), ("garden", 2)] } := by
  refine ⟨?_, ?_, ?_, ?_, ?_, by decide, ?_, by decide, ?_⟩
  · exact rnd_nonneg (by norm_num)
  · exact rnd_nonneg (by norm_num)
  · have := rnd_mono (x := ((0.75 : Rat) : ℝ)) (y := 1) (by norm_num); rwa [rnd_one] at this
  · exact rnd_nonneg (by norm_num)
  · exact rnd_nonneg (by norm_num)
  · intro t
    simp only [GoMap.getD, GoMap.get?]
    split
    · simp
    · split <;> simp
  · intro t ht
    refine rnd_mono ?_
    have : GoMap.getD [("house", (2 : Int))] t 0 ≤ 3 := by
      simp only [List.mem_cons, List.not_mem_nil, or_false] at ht
      rcases ht with rfl | rfl <;> decide
    exact_mod_cast this

end Goir
