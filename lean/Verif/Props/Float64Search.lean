import Mathlib.Data.EReal.Basic
import Verif.Props.Float64Ops
import Verif.Props.SearchOrder
import Verif.Props.ServerAsked
/-!
# Rankings in float64

C59, C61, C64, C100 and C103 over the float64 numbers of Model/Float64 (range of exponents, signed zeros, infinities and NaN included), where
the earlier statements are over the reals or over numbers that never overflow.
-/
namespace Goir
open R53
variable {L : MathLog}

namespace F64

/-- the number on the extended real line (NaN has no place there; it is put at 0). -/
noncomputable def value : F64 L → EReal
  | zero _ => 0
  | fin x _ _ => (x : EReal)
  | inf false => ⊤
  | inf true => ⊥
  | nan => 0

theorem gt_value {a b : F64 L} (ha : a ≠ nan) (hb : b ≠ nan) : GoFloat.gt a b = true ↔ b.value < a.value := by
  show F64.gt a b = true ↔ _
  cases a with
  | nan => exact absurd rfl ha
  | zero s =>
    cases b with
    | nan => exact absurd rfl hb
    | zero s' => simp [gt, value, toReal]
    | fin y _ _ => simp [gt, value, toReal]
    | inf s' => cases s' <;> simp [gt, value]
  | fin x _ _ =>
    cases b with
    | nan => exact absurd rfl hb
    | zero s' => simp [gt, value, toReal]
    | fin y _ _ => simp [gt, value, toReal]
    | inf s' => cases s' <;> simp [gt, value]
  | inf s =>
    cases b with
    | nan => exact absurd rfl hb
    | zero s' => cases s <;> simp [gt, value]
    | fin y _ _ => cases s <;> simp [gt, value]
    | inf s' => cases s <;> cases s' <;> simp [gt, value]

theorem add_comm (a b : F64 L) : F64.add a b = F64.add b a := by
  cases a <;> cases b <;> simp [F64.add, _root_.add_comm, Bool.and_comm] <;> split <;> simp_all [eq_comm]

theorem lit_zero : (GoFloat.lit 0 : F64 L) = .zero false := by
  show F64.round false ((0 : Rat) : ℝ) = _
  simp [F64.round]

/-- `(0 + a) + b = (0 + b) + a`, for all float64 numbers. -/
theorem add_swap (a b : F64 L) : GoFloat.add (GoFloat.add (GoFloat.lit 0) a) b = GoFloat.add (GoFloat.add (GoFloat.lit 0) b) a := by
  rw [lit_zero]
  show F64.add (F64.add (.zero false) a) b = F64.add (F64.add (.zero false) b) a
  have h0 : ∀ c : F64 L, (∃ s, c = .zero s) ∨ F64.add (.zero false) c = c := by
    intro c; cases c with
    | zero s => exact .inl ⟨s, rfl⟩
    | _ => right; rfl
  rcases h0 a with ⟨s, rfl⟩ | ha <;> rcases h0 b with ⟨s', rfl⟩ | hb
  · cases s <;> cases s' <;> rfl
  · rw [hb]; cases b <;> cases s <;> simp_all [F64.add]
  · rw [ha]; cases a <;> cases s' <;> simp_all [F64.add]
  · rw [ha, hb, add_comm]

end F64

/-- **C61, in float64, for at most two queries.** Two runs give every document the same score, whatever the numbers are (NaN and infinities included).
GET /nir makes two queries. -/
theorem c61_two_queries_float64 {st : Reads} (hst : st.Consistent) (query : List (Query (F64 L))) (hq : query.length ≤ 2) (cpus cpus' : Nat)
    {l l' : Scores (F64 L)} (h : SState.Returns st query cpus l) (h' : SState.Returns st query cpus' l') (d : String) (x : F64 L) :
    (d, x) ∈ l ↔ (d, x) ∈ l' := c61_two_queries_partial F64.add_swap hst query hq cpus cpus' h h' d x

/-- **C103, for GET /nir, in float64.** While nobody saves, the scores that a GET of the running server finds are determined by the store alone. -/
theorem c103_get_float64 {allow : CDisk.Act → Prop} {cpus : Nat} {s₁ s₂ s : Server (F64 L)} (h1 : Reaches (Server.Step allow cpus) ({} : Server (F64 L)) s₁)
    (hd : s₁.disk.up = false) (gv : Spec.GoValues s₁.disk.hist)
    (h2 : Reaches (Server.Step Server.OnlyReads cpus) s₁ s₂) (hu : s₂.disk.up = true) {terms : List String}
    (h3 : Reaches (Server.UpStep Server.OnlyReads cpus) { s₂ with reqs := s₂.reqs ++ [DReq.start (Http.queries terms)] } s)
    {r : DReq (F64 L)} (hr : s.reqs[s₂.reqs.length]? = some r) {l : Scores (F64 L)} (hl : r.result = some l) (d : String) (x : F64 L) :
    (d, x) ∈ l ↔ docScores (s.disk.readsOf s₁.disk.onDisk) (Http.queries (F := F64 L) terms) d ≠ [] ∧
      x = (docScores (s.disk.readsOf s₁.disk.onDisk) (Http.queries (F := F64 L) terms) d).foldl GoFloat.add (GoFloat.lit 0) :=
  c103_get F64.add_swap h1 hd gv h2 hu h3 hr hl d x

/-- sorting without NaN. -/
theorem sorted_value {order l : Scores (F64 L)} (h1 : SortSlice order l) (hf : ∀ e ∈ l, e.2 ≠ .nan) :
    l.Pairwise fun a b => b.2.value ≤ a.2.value := by
  have hf' : ∀ e ∈ order, e.2 ≠ .nan := fun e he => hf e (h1.1.mem_iff.2 he)
  have := h1.2 (fun e he => by
      rw [Bool.eq_false_iff]; intro h; exact lt_irrefl _ ((F64.gt_value (hf' e he) (hf' e he)).1 h))
    (fun a ha b hb c hc h h' => (F64.gt_value (hf' a ha) (hf' c hc)).2
      (lt_trans ((F64.gt_value (hf' b hb) (hf' c hc)).1 h') ((F64.gt_value (hf' a ha) (hf' b hb)).1 h)))
    (fun a ha b hb c hc h h' => by
      rw [Bool.eq_false_iff] at *
      intro hh
      have e1 := not_lt.1 (fun hlt => h ((F64.gt_value (hf' a ha) (hf' b hb)).2 hlt))
      have e2 := not_lt.1 (fun hlt => h' ((F64.gt_value (hf' b hb) (hf' c hc)).2 hlt))
      exact absurd ((F64.gt_value (hf' a ha) (hf' c hc)).1 hh) (not_lt.2 (e1.trans e2)))
  refine (this.imp_of_mem ?_)
  intro a b ha hb h
  refine not_lt.1 fun hlt => ?_
  rw [(F64.gt_value (hf b hb) (hf a ha)).2 hlt] at h
  cases h

/-- **C59, in float64.** Whatever the schedule, Search returns every document that some query matches exactly once; and if no score is NaN the results are
sorted by non-increasing score. -/
theorem c59_ranking_float64 {st : Reads} (hst : st.Consistent) (query : List (Query (F64 L))) (cpus : Nat) {l : Scores (F64 L)}
    (h : SState.Returns st query cpus l) : (l.map Prod.fst).Nodup ∧ (∀ d, d ∈ l.map Prod.fst ↔ docScores st query d ≠ []) ∧
      ((∀ e ∈ l, e.2 ≠ .nan) → l.Pairwise fun a b => b.2.value ≤ a.2.value) := by
  obtain ⟨hn, qs, hp, he⟩ := c59_result hst query cpus h
  refine ⟨hn, fun d => ?_, fun hf => ?_⟩
  · have hp' := docScores_perm (st := st) hp d
    constructor
    · intro hd hnil
      obtain ⟨e, he', rfl⟩ := List.mem_map.1 hd
      have := ((he e.1 e.2).1 he').1
      rw [hnil] at hp'
      exact this (List.perm_nil.1 hp')
    · intro hd
      refine List.mem_map.2 ⟨(d, _), (he d _).2 ⟨?_, rfl⟩, rfl⟩
      intro hnil; rw [hnil] at hp'; exact hd (List.nil_perm.1 hp')
  · obtain ⟨s, hs, hr⟩ := h
    have hi := Reaches.invariant (P := SInv st query cpus) hs (sinv_start query cpus) (fun _ _ hp hs => sinv_step hst hp hs)
    obtain ⟨order, h1, -⟩ := sinv_result hi hr
    exact sorted_value h1 hf

/-- **C100, in float64.** The answer to a GET of the running server is sorted by non-increasing score unless a score is NaN. -/
theorem c100_sorted_float64 {allow : CDisk.Act → Prop} {cpus : Nat} {s : Server (F64 L)} (h : Reaches (Server.Step allow cpus) ({} : Server (F64 L)) s)
    (gv : Spec.GoValues s.disk.hist) {r : DReq (F64 L)} (hr : r ∈ s.reqs) {l : Scores (F64 L)} (hl : r.result = some l) (hf : ∀ e ∈ l, e.2 ≠ .nan) :
    l.Pairwise fun a b => b.2.value ≤ a.2.value := by
  obtain ⟨-, -, -, -, order, h1⟩ := DReq.collects_result ((Server.sound_reach h).col gv r hr) hl
  exact sorted_value h1 hf

/-! ### C61 fails for three queries -/

theorem mul_toReal {u v : F64 L} {x y : ℝ} (hu : u.toReal = some x) (hv : v.toReal = some y)
    (h : (2:ℝ)^(-1022:ℤ) ≤ |x * y| ∧ |x * y| ≤ (2:ℝ)^(1023:ℤ)) : (GoFloat.mul u v : F64 L).toReal = some (R53.rnd (x * y)) := by
  show (F64.mul u v).toReal = _
  cases u with
  | nan => cases hu
  | inf s => cases hu
  | zero s => cases hu; rw [zero_mul, abs_zero] at h; exact absurd h.1 (not_le.2 (two_zpow_pos _))
  | fin r q p =>
    cases hu
    cases v with
    | nan => cases hv
    | inf s => cases hv
    | zero s => cases hv; rw [mul_zero, abs_zero] at h; exact absurd h.1 (not_le.2 (two_zpow_pos _))
    | fin r' q' p' => cases hv; exact round_toReal false (.inr h)

theorem toReal_isF64 {u : F64 L} {x : ℝ} (hu : u.toReal = some x) : IsF64 x := by
  cases u with
  | nan => cases hu
  | inf s => cases hu
  | zero s => cases hu; exact isF64_zero
  | fin r q p => cases hu; exact q

/-- `0 + x * y`, fused or not. -/
theorem fma_zero_toReal (site : Nat) {u v z : F64 L} {x y : ℝ} (hu : u.toReal = some x) (hv : v.toReal = some y) (hz : z.toReal = some 0)
    (h : (2:ℝ)^(-1022:ℤ) ≤ |x * y| ∧ |x * y| ≤ (2:ℝ)^(1023:ℤ)) : (GoFloat.fma site u v z : F64 L).toReal = some (R53.rnd (x * y)) := by
  have hm := mul_toReal hu hv h
  show (if L.fuse site then F64.fmadd u v z else F64.add z (F64.mul u v)).toReal = _
  have two : (F64.add z (F64.mul u v)).toReal = some (R53.rnd (x * y)) := by
    have h' : (F64.mul u v).toReal = some (R53.rnd (x * y)) := hm
    cases z with
    | nan => cases hz
    | inf s => cases hz
    | fin r q p => cases hz; exact absurd rfl p
    | zero s =>
      cases hc : F64.mul u v with
      | zero s' => rw [hc] at h'; exact h'
      | fin r q p => rw [hc] at h'; exact h'
      | inf s' => rw [hc] at h'; cases h'
      | nan => rw [hc] at h'; cases h'
  split
  · cases u with
    | nan => exact two
    | inf s => exact two
    | zero s => exact two
    | fin r q p =>
      cases v with
      | nan => exact two
      | inf s => exact two
      | zero s => exact two
      | fin r' q' p' =>
        cases z with
        | nan => cases hz
        | inf s => cases hz
        | fin r q p => cases hz; exact absurd rfl p
        | zero s => cases hu; cases hv; exact round_toReal false (.inr h)
  · exact two

/-- a query of the witness. -/
noncomputable def c61Query64 (boost : Rat) : Query (F64 L) := ⟨"title", GoFloat.lit boost, ["t"]⟩

/-- both factors of the score of the witness are numbers of moderate size. -/
theorem c61_factors : ∃ (idf sat : F64 L) (i s : ℝ), idf.toReal = some i ∧ sat.toReal = some s ∧ (2:ℝ)^(-200:ℤ) ≤ i ∧ i ≤ (2:ℝ)^(200:ℤ) ∧
    (2:ℝ)^(-200:ℤ) ≤ s ∧ s ≤ (2:ℝ)^(200:ℤ) ∧ ∀ boost : Rat, GoFloat.eq0 (GoFloat.lit boost : F64 L) = false →
      queryScore (Memory.run c61History).reads (c61Query64 boost) "d" = some (GoFloat.fma 2 (GoFloat.mul (GoFloat.lit boost) idf) sat (GoFloat.lit 0.0)) := by
  have hidf := w_idf (L := L) (N := 1) (n := 1) le_rfl (by norm_num)
  have i1 : W 1 0 63 (GoFloat.ofInt 1 : F64 L) ((1:ℤ):ℝ) := w_int63 (by norm_num) (by norm_num)
  have avg : W 3 (-63) 63 (GoFloat.div (GoFloat.ofInt 1) (GoFloat.ofInt 1) : F64 L) (((1:ℤ):ℝ) / ((1:ℤ):ℝ)) := i1.div i1 (by norm_num) (by norm_num) (by norm_num) (by norm_num)
  have a1 : W 5 (-63) 126 (GoFloat.div (GoFloat.ofInt 1) (GoFloat.div (GoFloat.ofInt 1) (GoFloat.ofInt 1)) : F64 L) _ := i1.div avg (by norm_num) (by norm_num) (by norm_num) (by norm_num)
  have hk : W 1 0 1 (GoFloat.lit 1.2 : F64 L) ((1.2 : Rat) : ℝ) := W.lit _ (Rng.of_bounds (by norm_num) (by norm_num)) (by norm_num) (by norm_num)
  have wb : W 0 (-1) 0 (GoFloat.lit 0.75 : F64 L) (3/4) := W.exact lit64_b (Rng.of_bounds (by norm_num) (by norm_num))
  have w1 : W 0 0 0 (GoFloat.lit 1 : F64 L) 1 := W.exact lit64_one rng_one
  have w1b : W 0 (-2) 0 (GoFloat.sub (GoFloat.lit 1) (GoFloat.lit 0.75) : F64 L) (1 - 3/4) := by
    have e : (1:ℝ) - 3/4 = 1/4 := by norm_num
    have hr : Rng (-2) 0 ((1:ℝ) - 3/4) := by rw [e]; exact Rng.of_bounds (by norm_num) (by norm_num)
    exact W.exact (sub_exact lit64_one lit64_b (by rw [e]; exact rnd_quarter) hr (by norm_num) (by norm_num)) hr
  have d1 := (W.fma 0 wb a1 (w1b.mono (m' := 6) (a' := -64) (b' := 126) (by omega) (by norm_num) (by norm_num)) (by norm_num) (by norm_num) (by norm_num) (by norm_num)
          (by norm_num) (by norm_num)).mono (m' := 7) (a' := -64) (b' := 127) (by norm_num) (by norm_num) (by norm_num)
  have d2 := (W.fma 1 hk d1 (i1.mono (m' := 9) (a' := -64) (b' := 128) (by omega) (by norm_num) (by norm_num)) (by norm_num) (by norm_num) (by norm_num) (by norm_num)
          (by norm_num) (by norm_num)).mono (m' := 10) (a' := -64) (b' := 129) (by norm_num) (by norm_num) (by norm_num)
  have c1 := (hk.add (w1.mono (m' := 1) (a' := 0) (b' := 1) (by omega) (by norm_num) (by norm_num)) (by norm_num) (by norm_num) (by norm_num)).mono (m' := 2) (a' := 0) (b' := 2) (by norm_num) (by norm_num) (by norm_num)
  have c2 := (i1.mul c1 (by norm_num) (by norm_num) (by norm_num)).mono (m' := 4) (a' := 0) (b' := 65) (by norm_num) (by norm_num) (by norm_num)
  have hsat := (c2.div d2 (by norm_num) (by norm_num) (by norm_num) (by norm_num)).mono (m' := 15) (a' := -150) (b' := 150) (by norm_num) (by norm_num) (by norm_num)
  obtain ⟨⟨i, hi, hin⟩, hir⟩ := hidf
  obtain ⟨⟨s, hs, hsn⟩, hsr⟩ := hsat
  have idf0 : Spec.idf ((1:ℕ):ℝ) ((1:ℕ):ℝ) ≠ 0 := by
    unfold Spec.idf
    exact (Real.log_pos (by norm_num)).ne'
  have big : ∀ {m : ℕ} {a b : ℤ} {x y : ℝ}, Near m x y → Rng a b y → y ≠ 0 → m ≤ 2^52 → -199 ≤ a → b ≤ 199 → (2:ℝ)^(-200:ℤ) ≤ x ∧ x ≤ (2:ℝ)^(200:ℤ) := by
    intro m a b x y hn hr h0 hm ha hb
    obtain ⟨h1, h2⟩ := Goir.Near.half hn hm
    have l1 := (two_zpow_le ha).trans (hr.lo.resolve_left h0)
    have l2 := hr.hi.trans (two_zpow_le hb)
    have e1 : (2:ℝ)^(-199:ℤ) = 2 * (2:ℝ)^(-200:ℤ) := by
      rw [show (-199:ℤ) = 1 + (-200) by norm_num, two_zpow_add, zpow_one]
    have e2 : (2:ℝ)^(200:ℤ) = 2 * (2:ℝ)^(199:ℤ) := by
      rw [show (200:ℤ) = 1 + 199 by norm_num, two_zpow_add, zpow_one]
    rw [e1] at l1
    rw [e2]
    generalize (2:ℝ)^(-200:ℤ) = A at *
    generalize (2:ℝ)^(199:ℤ) = B at *
    constructor <;> linarith
  obtain ⟨i1', i2'⟩ := big hin hir idf0 (by norm_num) (by norm_num) (by norm_num)
  obtain ⟨s1', s2'⟩ := big hsn hsr (by norm_num) (by norm_num) (by norm_num) (by norm_num)
  refine ⟨_, _, i, s, hi, hs, i1', i2', s1', s2', fun boost hne => ?_⟩
  have e1 : (Memory.run c61History).reads.matches "title" ["t"] "d" = true := by decide
  have e2 : (Memory.run c61History).reads.fieldOf "d" "title" = some { name := "title", length := 1, tf := [("t", 1)] } := by decide
  have e3 : (Memory.run c61History).reads.getFieldLength "title" = 1 := by decide
  have e4 : (Memory.run c61History).reads.getFieldSize "title" = 1 := by decide
  have e5 : (Memory.run c61History).reads.getNumberFieldTerm "title" ["t"] = [("t", 1)] := by decide
  have e6 : GoMap.getD [("t", (1 : Int))] "t" 0 = 1 := by decide
  unfold queryScore c61Query64
  simp only [e1, e2, e3, e4, e5, if_true, Option.map_some]
  unfold bm25
  simp only [hne, Bool.false_eq_true, if_false, List.foldl_cons, List.foldl_nil]
  unfold bm25Step
  simp only [e6]
  rfl

/-- **C61 is false of the code, in float64.** Three queries with boosts 1, -1 and 2^-54 on one term, and one document: two runs of the same search on the
same store return different scores, whichever implementation `math.Log` has and whether the compiler fuses multiplications with additions or not. -/
theorem c61_float64_refuted {cpus : Nat} (hc : 0 < cpus) : ∃ l l' : Scores (F64 L),
    SState.Returns (Memory.run c61History).reads [c61Query64 1, c61Query64 (-1), c61Query64 (1/2^54)] cpus l ∧
    SState.Returns (Memory.run c61History).reads [c61Query64 1, c61Query64 (-1), c61Query64 (1/2^54)] cpus l' ∧
    ∃ (v v' : F64 L) (x : ℝ), ("d", v) ∈ l ∧ ("d", v') ∈ l' ∧ v.toReal = some x ∧ 0 < x ∧ v'.toReal = some 0 := by
  obtain ⟨idf, sat, i, s, hi, hs, i1, i2, s1, s2, hq⟩ := c61_factors (L := L)
  have hi0 : 0 < i := (two_zpow_pos _).trans_le i1
  have hs0 : 0 < s := (two_zpow_pos _).trans_le s1
  have p1 : (2:ℝ)^(-400:ℤ) ≤ i * s := by
    rw [show (-400:ℤ) = -200 + -200 by norm_num, two_zpow_add]; exact mul_le_mul i1 s1 (two_zpow_pos _).le hi0.le
  have p2 : i * s ≤ (2:ℝ)^(400:ℤ) := by
    rw [show (400:ℤ) = 200 + 200 by norm_num, two_zpow_add]; exact mul_le_mul i2 s2 hs0.le (two_zpow_pos _).le
  have p0 : 0 < i * s := mul_pos hi0 hs0
  set r := R53.rnd (i * s) with hr
  have r0 : 0 < r := R53.rnd_pos p0
  have hn : Near 1 r (i * s) := Near.rnd p0.le
  obtain ⟨hh1, hh2⟩ := Goir.Near.half hn (by norm_num)
  have r1 : (2:ℝ)^(-401:ℤ) ≤ r := by
    have : (2:ℝ)^(-400:ℤ) = 2 * (2:ℝ)^(-401:ℤ) := by rw [show (-400:ℤ) = 1 + (-401) by norm_num, two_zpow_add, zpow_one]
    rw [this] at p1; generalize (2:ℝ)^(-401:ℤ) = A at *; linarith
  have r2 : r ≤ (2:ℝ)^(401:ℤ) := by
    have : (2:ℝ)^(401:ℤ) = 2 * (2:ℝ)^(400:ℤ) := by rw [show (401:ℤ) = 1 + 400 by norm_num, two_zpow_add, zpow_one]
    rw [this]; generalize (2:ℝ)^(400:ℤ) = A at *; linarith
  have hid : R53.rnd r = r := R53.rnd_idem p0
  have hI : R53.rnd i = i := rnd_of_isF64 (toReal_isF64 hi)
  have z0 : (GoFloat.lit 0.0 : F64 L).toReal = some 0 := lit_exact64 0.0 (by norm_num) R53.rnd_zero (Rng.zero 0 0) (by norm_num) (by norm_num)
  have z0' : (GoFloat.lit 0 : F64 L).toReal = some 0 := lit_exact64 0 (by norm_num) R53.rnd_zero (Rng.zero 0 0) (by norm_num) (by norm_num)
  have e54 : (2:ℝ)^(-54:ℤ) = 1/2^54 := by norm_num
  have rng : ∀ {y : ℝ}, (2:ℝ)^(-700:ℤ) ≤ |y| → |y| ≤ (2:ℝ)^(700:ℤ) → (2:ℝ)^(-1022:ℤ) ≤ |y| ∧ |y| ≤ (2:ℝ)^(1023:ℤ) :=
    fun h1 h2 => ⟨(two_zpow_le (by norm_num)).trans h1, h2.trans (two_zpow_le (by norm_num))⟩
  -- the score for a boost of ± 2^k
  have score : ∀ (q : Rat) (c : ℝ) (k : ℤ), (c = (2:ℝ)^k ∨ c = -(2:ℝ)^k) → -60 ≤ k → k ≤ 60 → (GoFloat.lit q : F64 L).toReal = some c →
      ∃ v : F64 L, queryScore (Memory.run c61History).reads (c61Query64 q) "d" = some v ∧ v.toReal = some (r * c) := by
    intro q c k hck hk1 hk2 hqc
    have hac : |c| = (2:ℝ)^k := by rcases hck with rfl | rfl <;> simp
    have hscale : ∀ y : ℝ, R53.rnd (y * c) = R53.rnd y * c := by
      intro y
      rcases hck with rfl | rfl
      · exact R53.rnd_mul_pow y k
      · rw [mul_neg, R53.rnd_neg, R53.rnd_mul_pow, mul_neg]
    have hne : GoFloat.eq0 (GoFloat.lit q : F64 L) = false := by
      show F64.eq0 _ = false
      cases h : (GoFloat.lit q : F64 L) with
      | zero s =>
        rw [h] at hqc
        have : (0:ℝ) = c := Option.some.inj hqc
        rw [← this, abs_zero] at hac
        exact absurd hac (two_zpow_pos k).ne
      | _ => rfl
    have m1 : (GoFloat.mul (GoFloat.lit q) idf : F64 L).toReal = some (i * c) := by
      have hab : |c * i| = (2:ℝ)^k * i := by rw [abs_mul, hac, abs_of_pos hi0]
      have := mul_toReal hqc hi (rng (by
          rw [hab]
          calc (2:ℝ)^(-700:ℤ) ≤ (2:ℝ)^(k + -200) := two_zpow_le (by omega)
            _ = (2:ℝ)^k * (2:ℝ)^(-200:ℤ) := two_zpow_add _ _
            _ ≤ _ := mul_le_mul_of_nonneg_left i1 (two_zpow_pos k).le) (by
          rw [hab]
          calc (2:ℝ)^k * i ≤ (2:ℝ)^k * (2:ℝ)^(200:ℤ) := mul_le_mul_of_nonneg_left i2 (two_zpow_pos k).le
            _ = (2:ℝ)^(k + 200) := (two_zpow_add _ _).symm
            _ ≤ _ := two_zpow_le (by omega)))
      rw [this, mul_comm c i, hscale, hI]
    refine ⟨_, hq q hne, ?_⟩
    have e : i * c * s = i * s * c := by ring
    have hab : |i * c * s| = (2:ℝ)^k * (i * s) := by rw [e, abs_mul, hac, abs_of_pos p0, mul_comm]
    rw [fma_zero_toReal 2 m1 hs z0 (rng (by
        rw [hab]
        calc (2:ℝ)^(-700:ℤ) ≤ (2:ℝ)^(k + -400) := two_zpow_le (by omega)
          _ = (2:ℝ)^k * (2:ℝ)^(-400:ℤ) := two_zpow_add _ _
          _ ≤ _ := mul_le_mul_of_nonneg_left p1 (two_zpow_pos k).le) (by
        rw [hab]
        calc (2:ℝ)^k * (i * s) ≤ (2:ℝ)^k * (2:ℝ)^(400:ℤ) := mul_le_mul_of_nonneg_left p2 (two_zpow_pos k).le
          _ = (2:ℝ)^(k + 400) := (two_zpow_add _ _).symm
          _ ≤ _ := two_zpow_le (by omega))), e, hscale]
  obtain ⟨v1, q1, t1⟩ := score 1 1 0 (.inl (by norm_num)) (by norm_num) (by norm_num) lit64_one
  obtain ⟨v2, q2, t2⟩ := score (-1) (-1) 0 (.inr (by norm_num)) (by norm_num) (by norm_num) (by
    show (F64.round false (((-1 : Rat)) : ℝ) : F64 L).toReal = _
    have e : ((-1 : Rat) : ℝ) = -1 := by norm_num
    rw [e, round_toReal false (.inr ⟨by rw [abs_neg, abs_one]; exact (two_zpow_le (show (-1022:ℤ) ≤ 0 by norm_num)).trans (by norm_num),
      by rw [abs_neg, abs_one]; exact le_trans (by norm_num) (two_zpow_le (show (0:ℤ) ≤ 1023 by norm_num))⟩), R53.rnd_neg, R53.rnd_one])
  obtain ⟨v3, q3, t3⟩ := score (1/2^54) ((2:ℝ)^(-54:ℤ)) (-54) (.inl rfl) (by norm_num) (by norm_num) (by
    refine lit_exact64 _ (by rw [e54]; norm_num) ?_ (a := -54) (b := -54) (Rng.of_bounds le_rfl le_rfl) (by norm_num) (by norm_num)
    have := R53.rnd_mul_pow 1 (-54)
    rwa [R53.rnd_one, one_mul] at this)
  rw [mul_one] at t1
  rw [mul_neg, mul_one] at t2
  have hcons := memory_consistent (Memory.run c61History)
  obtain ⟨l, hl, hm⟩ := every_order hcons [c61Query64 (L := L) 1, c61Query64 (-1), c61Query64 (1/2^54)] hc (List.Perm.refl _)
  obtain ⟨l', hl', hm'⟩ := every_order hcons [c61Query64 (L := L) 1, c61Query64 (-1), c61Query64 (1/2^54)] hc
    (qs := [c61Query64 1, c61Query64 (1/2^54), c61Query64 (-1)]) (.cons _ (.swap ..))
  have d1 : docScores (Memory.run c61History).reads [c61Query64 (L := L) 1, c61Query64 (-1), c61Query64 (1/2^54)] "d" = [v1, v2, v3] := by
    unfold docScores; simp only [List.filterMap_cons, q1, q2, q3, List.filterMap_nil]
  have d2 : docScores (Memory.run c61History).reads [c61Query64 (L := L) 1, c61Query64 (1/2^54), c61Query64 (-1)] "d" = [v1, v3, v2] := by
    unfold docScores; simp only [List.filterMap_cons, q1, q2, q3, List.filterMap_nil]
  have ra : |r| = r := abs_of_pos r0
  have a1 : (GoFloat.add (GoFloat.lit 0) v1 : F64 L).toReal = some r := by
    have := add_toReal z0' t1 (.inr (by rw [zero_add, ra]; exact ⟨(two_zpow_le (by norm_num)).trans r1, r2.trans (two_zpow_le (by norm_num))⟩))
    rw [this, zero_add, hid]
  refine ⟨l, l', hl, hl', _, _, r * (2:ℝ)^(-54:ℤ), (hm "d" _).2 ⟨by rw [d1]; simp, rfl⟩, (hm' "d" _).2 ⟨by rw [d2]; simp, rfl⟩, ?_, by positivity, ?_⟩
  · rw [d1]
    simp only [List.foldl_cons, List.foldl_nil]
    have a2 := add_toReal a1 t2 (.inl (by ring))
    rw [add_neg_cancel, R53.rnd_zero] at a2
    have hp : 0 < r * (2:ℝ)^(-54:ℤ) := by positivity
    have a3 := add_toReal a2 t3 (.inr (by
      rw [zero_add, abs_of_pos hp]
      constructor
      · calc (2:ℝ)^(-1022:ℤ) ≤ (2:ℝ)^(-401 + -54 : ℤ) := two_zpow_le (by norm_num)
          _ = (2:ℝ)^(-401:ℤ) * (2:ℝ)^(-54:ℤ) := two_zpow_add _ _
          _ ≤ _ := mul_le_mul_of_nonneg_right r1 (two_zpow_pos _).le
      · calc r * (2:ℝ)^(-54:ℤ) ≤ (2:ℝ)^(401:ℤ) * (2:ℝ)^(-54:ℤ) := mul_le_mul_of_nonneg_right r2 (two_zpow_pos _).le
          _ = (2:ℝ)^(401 + -54 : ℤ) := (two_zpow_add _ _).symm
          _ ≤ _ := two_zpow_le (by norm_num)))
    rw [a3, zero_add, R53.rnd_mul_pow, hid]
  · rw [d2]
    simp only [List.foldl_cons, List.foldl_nil]
    have hle : (2:ℝ)^(-54:ℤ) ≤ 1 := by norm_num
    have hp : 0 < r * (2:ℝ)^(-54:ℤ) := by positivity
    have hp' : r * (2:ℝ)^(-54:ℤ) ≤ r := mul_le_of_le_one_right r0.le hle
    have a2 := add_toReal a1 t3 (.inr (by
      rw [abs_of_pos (by linarith)]
      constructor
      · exact (two_zpow_le (by norm_num)).trans (r1.trans (by linarith))
      · have : (2:ℝ)^(402:ℤ) = 2 * (2:ℝ)^(401:ℤ) := by rw [show (402:ℤ) = 1 + 401 by norm_num, two_zpow_add, zpow_one]
        refine le_trans ?_ (two_zpow_le (show (402:ℤ) ≤ 1023 by norm_num))
        rw [this]
        exact (add_le_add r2 (hp'.trans r2)).trans (two_mul _).ge))
    rw [R53.rnd_add_tiny p0] at a2
    have a3 := add_toReal a2 t2 (.inl (by ring))
    rw [add_neg_cancel, R53.rnd_zero] at a3
    exact a3

/-! ### C64 -/

/-- **C64, in float64.** In scale, the score that a query gives a document is a finite number, not negative, and zero exactly if no query term occurs in the
field. -/
theorem c64_float64 {st : Reads} {N T : Nat} (hN : N ≤ 2^40) (hT : T ≤ 2^40) {q : Query (F64 L)} {d : String} {field : Field}
    (hf : st.fieldOf d q.fieldName = some field) (h : InScale64 st N T q) {v : F64 L} (hv : queryScore st q d = some v) :
    ∃ x, v.toReal = some x ∧ 0 ≤ x ∧ (x = 0 ↔ ∀ t ∈ q.terms, field.tf.getD t 0 = 0) := by
  have w := w_queryScore hN hT d (fun _ _ => h)
  have hm : st.matches q.fieldName q.terms d = true := by
    by_contra hne
    unfold queryScore at hv
    rw [if_neg hne] at hv
    cases hv
  have he : queryScore st q.exact64 d = some (bm25 q.terms (GoFloat.lit 1.2) (GoFloat.lit 0.75) (q.boost.toReal.getD 0)
        (GoFloat.div (GoFloat.ofInt (st.getFieldLength q.fieldName)) (GoFloat.ofInt (st.getFieldSize q.fieldName)))
        (GoFloat.ofInt (st.getFieldSize q.fieldName)) (st.getNumberFieldTerm q.fieldName q.terms) field) := by
    unfold queryScore Query.exact64
    simp only [hm, if_true, hf, Option.map_some]
  rw [hv, he] at w
  obtain ⟨⟨x, hx, hn⟩, -⟩ := w
  refine ⟨x, hx, hn.nx, ?_⟩
  rw [hn.zero_iff]
  refine c64_zero_iff ⟨?_, ?_, ?_, ?_, ?_, (h.field d field hf).1.1, fun t => ((h.field d field hf).2 t).1, fun t ht => (h.df t ht).1, fun t ht => ?_⟩
  · show (0:ℝ) < ((1.2 : Rat) : ℝ); norm_num
  · show (0:ℝ) ≤ ((0.75 : Rat) : ℝ); norm_num
  · show ((0.75 : Rat) : ℝ) < 1; norm_num
  · obtain ⟨b, hb, hb'⟩ := h.boost
    rw [hb, Option.getD_some]
    rcases hb' with rfl | hb'
    · exact le_rfl
    · exact (two_zpow_pos _).le.trans hb'.1
  · show (0:ℝ) < ((st.getFieldLength q.fieldName : ℤ) : ℝ) / ((st.getFieldSize q.fieldName : ℤ) : ℝ)
    exact div_pos (by exact_mod_cast h.length.1) (by exact_mod_cast h.size.1)
  · show (((st.getNumberFieldTerm q.fieldName q.terms).getD t 0 : ℤ) : ℝ) ≤ ((st.getFieldSize q.fieldName : ℤ) : ℝ)
    exact_mod_cast (h.df t ht).2

/-! ### C65, C66 -/

/-- the exact score of a matching document, and how close the float64 is to it. -/
theorem score64_near {st : Reads} {N T : Nat} (hN : N ≤ 2^40) (hT : T ≤ 2^40) {q : Query (F64 L)} {d : String} {field : Field}
    (hf : st.fieldOf d q.fieldName = some field) (h : InScale64 st N T q) {v : F64 L} (hv : queryScore st q d = some v) :
    InRange q.terms ((1.2 : Rat) : ℝ) ((0.75 : Rat) : ℝ) (q.boost.toReal.getD 0) ((st.getFieldLength q.fieldName : ℝ) / (st.getFieldSize q.fieldName : ℝ))
        (st.getFieldSize q.fieldName : ℝ) (st.getNumberFieldTerm q.fieldName q.terms) field ∧
    ∃ x, v.toReal = some x ∧ Near (8 * N + T + 28) x (bm25 q.terms ((1.2 : Rat) : ℝ) ((0.75 : Rat) : ℝ) (q.boost.toReal.getD 0)
        ((st.getFieldLength q.fieldName : ℝ) / (st.getFieldSize q.fieldName : ℝ))
        (st.getFieldSize q.fieldName : ℝ) (st.getNumberFieldTerm q.fieldName q.terms) field) := by
  have w := w_queryScore hN hT d (fun _ _ => h)
  have hm : st.matches q.fieldName q.terms d = true := by
    by_contra hne
    unfold queryScore at hv
    rw [if_neg hne] at hv
    cases hv
  have he : queryScore st q.exact64 d = some (bm25 q.terms (GoFloat.lit 1.2) (GoFloat.lit 0.75) (q.boost.toReal.getD 0)
        (GoFloat.div (GoFloat.ofInt (st.getFieldLength q.fieldName)) (GoFloat.ofInt (st.getFieldSize q.fieldName)))
        (GoFloat.ofInt (st.getFieldSize q.fieldName)) (st.getNumberFieldTerm q.fieldName q.terms) field) := by
    unfold queryScore Query.exact64
    simp only [hm, if_true, hf, Option.map_some]
  rw [hv, he] at w
  obtain ⟨⟨x, hx, hn⟩, -⟩ := w
  refine ⟨⟨by norm_num, by norm_num, by norm_num, ?_, div_pos (by exact_mod_cast h.length.1) (by exact_mod_cast h.size.1), (h.field d field hf).1.1,
    fun t => ((h.field d field hf).2 t).1, fun t ht => (h.df t ht).1, fun t ht => by exact_mod_cast (h.df t ht).2⟩, x, hx, hn⟩
  obtain ⟨b, hb, hb'⟩ := h.boost
  rw [hb, Option.getD_some]
  rcases hb' with rfl | hb'
  · exact le_rfl
  · exact (two_zpow_pos _).le.trans hb'.1

/-- **C65, in float64.** In scale: a document in whose field every query term occurs at least as often as in that of another document, and whose field is not
longer, has a score that is not lower by more than the rounding errors. -/
theorem c65_float64 {st : Reads} {N T : Nat} (hN : N ≤ 2^40) (hT : T ≤ 2^40) {q : Query (F64 L)} {d d' : String} {field field' : Field}
    (hf : st.fieldOf d q.fieldName = some field) (hf' : st.fieldOf d' q.fieldName = some field') (h : InScale64 st N T q)
    {v v' : F64 L} (hv : queryScore st q d = some v) (hv' : queryScore st q d' = some v')
    (htf : ∀ t ∈ q.terms, field.tf.getD t 0 ≤ field'.tf.getD t 0) (hlen : field'.length ≤ field.length) :
    ∃ x x', v.toReal = some x ∧ v'.toReal = some x' ∧ (1 - scoreError64 N T 0) * x ≤ (1 + scoreError64 N T 0) * x' := by
  obtain ⟨r, x, hx, hn⟩ := score64_near hN hT hf h hv
  obtain ⟨r', x', hx', hn'⟩ := score64_near hN hT hf' h hv'
  refine ⟨x, x', hx, hx', ?_⟩
  have e := hn.error (by omega)
  have e' := hn'.error (by omega)
  have he : 2 * ((8 * N + T + 28 : ℕ) : ℝ) / 2^53 = scoreError64 N T 0 := by unfold scoreError64; push_cast; ring
  rw [he] at e e'
  have h0 : 0 ≤ scoreError64 N T 0 := by unfold scoreError64; positivity
  have h1 : scoreError64 N T 0 ≤ 1 := by
    rw [← he, div_le_one (by positivity)]
    have : 2 * (8 * N + T + 28) ≤ 2^53 := by omega
    exact_mod_cast this
  have hmono : bm25 q.terms ((1.2 : Rat) : ℝ) ((0.75 : Rat) : ℝ) (q.boost.toReal.getD 0) ((st.getFieldLength q.fieldName : ℝ) / (st.getFieldSize q.fieldName : ℝ))
        (st.getFieldSize q.fieldName : ℝ) (st.getNumberFieldTerm q.fieldName q.terms) field ≤
      bm25 q.terms ((1.2 : Rat) : ℝ) ((0.75 : Rat) : ℝ) (q.boost.toReal.getD 0) ((st.getFieldLength q.fieldName : ℝ) / (st.getFieldSize q.fieldName : ℝ))
        (st.getFieldSize q.fieldName : ℝ) (st.getNumberFieldTerm q.fieldName q.terms) field' := by
    -- the frequencies of the second field in one of the length of the first
    let mid : Field := { field' with length := field.length }
    have hfreq := (c65_frequency (field' := mid) r rfl htf).1
    rcases hlen.eq_or_lt with he | hlt
    · have : mid = field' := by cases field'; simp only [mid, Field.mk.injEq] at *; simp [he]
      rwa [this] at hfreq
    · exact hfreq.trans (c65_length (field := field') (field' := mid) r' (by norm_num) (fun _ _ => rfl) hlt).1
  generalize bm25 q.terms ((1.2 : Rat) : ℝ) ((0.75 : Rat) : ℝ) (q.boost.toReal.getD 0) ((st.getFieldLength q.fieldName : ℝ) / (st.getFieldSize q.fieldName : ℝ))
        (st.getFieldSize q.fieldName : ℝ) (st.getNumberFieldTerm q.fieldName q.terms) field = y at *
  generalize bm25 q.terms ((1.2 : Rat) : ℝ) ((0.75 : Rat) : ℝ) (q.boost.toReal.getD 0) ((st.getFieldLength q.fieldName : ℝ) / (st.getFieldSize q.fieldName : ℝ))
        (st.getFieldSize q.fieldName : ℝ) (st.getNumberFieldTerm q.fieldName q.terms) field' = y' at *
  generalize scoreError64 N T 0 = ε at *
  rw [abs_le] at e e'
  have g1 : x ≤ (1 + ε) * y := by linarith [e.2]
  have g2 : (1 - ε) * y' ≤ x' := by linarith [e'.1]
  calc (1 - ε) * x ≤ (1 - ε) * ((1 + ε) * y) := mul_le_mul_of_nonneg_left g1 (by linarith)
    _ ≤ (1 - ε) * ((1 + ε) * y') := by
      refine mul_le_mul_of_nonneg_left (mul_le_mul_of_nonneg_left hmono (by linarith)) (by linarith)
    _ = (1 + ε) * ((1 - ε) * y') := by ring
    _ ≤ (1 + ε) * x' := mul_le_mul_of_nonneg_left g2 (by linarith)

/-- **C66, in float64.** Boost 0, of either sign, means boost 1. -/
theorem c66_boost_zero_float64 (query : List String) (k1 b avg N : F64 L) (s : Bool) (ndt : GoMap String Int) (field : Field) :
    bm25 query k1 b (.zero s) avg N ndt field = bm25 query k1 b (GoFloat.lit 1) avg N ndt field := by
  unfold bm25
  have h1 : GoFloat.eq0 (F64.zero s : F64 L) = true := rfl
  simp only [h1, if_true, ite_self]

/-- the hypotheses are met: two documents of a Memory store, one with the term once, one with the term twice. -/
example : ∃ (st : Reads) (q : Query (F64 L)) (field field' : Field) (v v' : F64 L), st.fieldOf "e" q.fieldName = some field ∧
    st.fieldOf "d" q.fieldName = some field' ∧ InScale64 st 2 1 q ∧ queryScore st q "e" = some v ∧ queryScore st q "d" = some v' ∧
    (∀ t ∈ q.terms, field.tf.getD t 0 ≤ field'.tf.getD t 0) ∧ field'.length ≤ field.length := by
  have e1 : (Memory.run c104History).reads.matches "title" ["t"] "d" = true := by decide
  have e1' : (Memory.run c104History).reads.matches "title" ["t"] "e" = true := by decide
  have e2 : (Memory.run c104History).reads.fieldOf "d" "title" = some { name := "title", length := 2, tf := [("t", 2)] } := by decide
  have e2' : (Memory.run c104History).reads.fieldOf "e" "title" = some { name := "title", length := 2, tf := [("t", 1), ("u", 1)] } := by decide
  have hgv : Spec.GoValues c104History := by unfold Spec.GoValues; decide
  have htf : ∀ op ∈ c104History, ∀ t n, (t, n) ∈ op.field.tf → 0 ≤ n ∧ n ≤ 2 := by
    intro op ho t n ht
    simp only [c104History, List.mem_cons, List.not_mem_nil, or_false] at ho
    rcases ho with rfl | rfl <;> simp [StoreOp.field] at ht
    · omega
    · rcases ht with ⟨-, rfl⟩ | ⟨-, rfl⟩ <;> omega
  have hs : Sane c104History := ⟨by decide, fun op ho t n ht => (htf op ho t n ht).1, by decide⟩
  have hfit : Fits c104History := by
    refine ⟨fun op ho t n ht => by have := htf op ho t n ht; omega, by decide, fun f => ?_⟩
    unfold Spec.lengthSum c104History
    by_cases hf : "title" = f <;> simp [hf, StoreOp.field]
  have hq : ∀ q ∈ c112Query (L := L), (∃ x, q.boost.toReal = some x ∧ (x = 0 ∨ (2:ℝ)^(-100:ℤ) ≤ x ∧ x ≤ (2:ℝ)^(100:ℤ))) ∧ q.terms.length ≤ 1 ∧
      Spec.callCount c104History q.fieldName ≤ 2 := by
    intro q hq
    simp only [c112Query, List.mem_cons, List.not_mem_nil, or_false] at hq
    subst hq
    refine ⟨⟨1, lit64_one, .inr ⟨?_, ?_⟩⟩, le_rfl, (by decide : Spec.callCount c104History "title" ≤ 2)⟩
    · exact zpow_le_one_of_nonpos₀ (by norm_num) (by norm_num)
    · exact one_le_zpow₀ (by norm_num) (by norm_num)
  have sc := memory_scale64 c104History hgv hs hfit c112Query (by norm_num) (by norm_num) (by simp [c112Query]) hq "d"
  have s1 : ∃ v, queryScore (Memory.run c104History).reads (⟨"title", GoFloat.lit 1, ["t"]⟩ : Query (F64 L)) "d" = some v := by
    unfold queryScore; simp only [e1, if_true, e2, Option.map_some]; exact ⟨_, rfl⟩
  have s2 : ∃ v, queryScore (Memory.run c104History).reads (⟨"title", GoFloat.lit 1, ["t"]⟩ : Query (F64 L)) "e" = some v := by
    unfold queryScore; simp only [e1', if_true, e2', Option.map_some]; exact ⟨_, rfl⟩
  obtain ⟨v', hv'⟩ := s1
  obtain ⟨v, hv⟩ := s2
  refine ⟨(Memory.run c104History).reads, ⟨"title", GoFloat.lit 1, ["t"]⟩, _, _, v, v', e2', e2, sc.2.2.2 _ (by simp [c112Query]) e1 (by rw [e2]; rfl), hv, hv', ?_, le_rfl⟩
  intro t ht
  rw [List.mem_singleton.1 ht]
  decide

end Goir
