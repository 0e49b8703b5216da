import Verif.Model.ScoreX
import Verif.Props.Search
import Verif.Props.Score
/-!
# C68: are scores finite?

Over the reals with infinities and NaN. Refuted for fields whose lengths are 0; proved when lengths say how many terms a field has.
-/
namespace Goir
open GoMap GoFloat

section
variable (x y : ℝ)
@[simp] theorem x_lit (q : Rat) : (lit q : XReal) = .fin (lit q : ℝ) := rfl
@[simp] theorem x_ofInt (n : Int) : (ofInt n : XReal) = .fin (ofInt n : ℝ) := rfl
@[simp] theorem x_add : (GoFloat.add (XReal.fin x) (XReal.fin y)) = .fin (GoFloat.add x y) := rfl
@[simp] theorem x_sub : (GoFloat.sub (XReal.fin x) (XReal.fin y)) = .fin (GoFloat.sub x y) := by
  show XReal.fin (x + -y) = .fin (x - y); rw [sub_eq_add_neg]
@[simp] theorem x_mul : (GoFloat.mul (XReal.fin x) (XReal.fin y)) = .fin (GoFloat.mul x y) := rfl
theorem x_div (h : y ≠ 0) : (GoFloat.div (XReal.fin x) (XReal.fin y)) = .fin (GoFloat.div x y) := by
  show XReal.div _ _ = _; simp [XReal.div, h]; rfl
theorem x_log (h : 0 < x) : (GoFloat.log (XReal.fin x)) = .fin (GoFloat.log x) := by
  show XReal.log _ = _; simp [XReal.log, not_lt.2 h.le, h.ne']; rfl
@[simp] theorem x_eq0 : (GoFloat.eq0 (XReal.fin x)) = GoFloat.eq0 x := rfl
@[simp] theorem x_add_nan (a : XReal) : GoFloat.add a XReal.nan = .nan := by cases a <;> rfl
@[simp] theorem x_nan_add (a : XReal) : GoFloat.add XReal.nan a = .nan := by cases a <;> rfl
@[simp] theorem x_mul_nan (a : XReal) : GoFloat.mul a XReal.nan = .nan := by cases a <;> rfl
@[simp] theorem x_div_nan (a : XReal) : GoFloat.div a XReal.nan = .nan := by cases a <;> rfl
end

theorem xfma (i : Nat) (x y z : XReal) : GoFloat.fma i x y z = GoFloat.add z (GoFloat.mul x y) := rfl
theorem rfma (i : Nat) (x y z : ℝ) : GoFloat.fma i x y z = GoFloat.add z (GoFloat.mul x y) := rfl

/-- idf never leaves the finite numbers. -/
theorem x_idf {N n : ℝ} (hN : 0 ≤ N) (hn : 0 ≤ n) : idfBM25 (XReal.fin N) (XReal.fin n) = .fin (idfBM25 N n) := by
  have h1 : GoFloat.add n (lit 0.5 : ℝ) = n + 1 / 2 := by simp only [GoFloat.add, GoFloat.lit]; norm_num
  have h2 : GoFloat.add (GoFloat.sub N n) (lit 0.5 : ℝ) = N - n + 1 / 2 := by simp only [GoFloat.add, GoFloat.sub, GoFloat.lit]; norm_num
  unfold idfBM25
  simp only [x_lit, x_sub, x_add]
  rw [x_div _ _ (by rw [h1]; positivity), x_add, x_log]
  rw [h1, h2]
  show (0 : ℝ) < GoFloat.add (lit 1 : ℝ) (GoFloat.div (N - n + 1 / 2) (n + 1 / 2))
  simp only [GoFloat.add, GoFloat.div, GoFloat.lit]
  have : ((1 : ℚ) : ℝ) + (N - n + 1 / 2) / (n + 1 / 2) = (N + 1) / (n + 1 / 2) := by
    field_simp; push_cast; ring
  rw [this]; positivity

/-- BM25 never leaves the finite numbers, and is what it is over the reals, if lengths and frequencies are not negative, the average is
positive and the constants are those of Search. -/
theorem x_bm25 (query : List String) (boost avg N : ℝ) (ndt : GoMap String Int) (field : Field) (havg : 0 < avg) (hN : 0 ≤ N)
    (hn : ∀ t, 0 ≤ ndt.getD t 0) (hf : ∀ t, 0 ≤ field.tf.getD t 0) (hl : 0 ≤ field.length) :
    bm25 query (lit 1.2) (lit 0.75) (XReal.fin boost) (.fin avg) (.fin N) ndt field =
      .fin (bm25 query (lit 1.2) (lit 0.75) boost avg N ndt field) := by
  have hb : (if eq0 (XReal.fin boost) = true then (lit 1 : XReal) else .fin boost) =
      .fin (if eq0 boost = true then (lit 1 : ℝ) else boost) := by rw [x_eq0]; split <;> rfl
  unfold bm25
  simp only [hb]
  generalize (if eq0 boost = true then (lit 1 : ℝ) else boost) = bo
  have step : ∀ (a : ℝ) t, bm25Step (lit 1.2) (lit 0.75) (XReal.fin bo) (.fin avg) (.fin N) ndt field (.fin a) t =
      .fin (bm25Step (lit 1.2) (lit 0.75) bo avg N ndt field a t) := by
    intro a t
    have hlen : (0 : ℝ) ≤ field.length := by exact_mod_cast hl
    have hfr : (0 : ℝ) ≤ (field.tf.getD t 0 : ℤ) := by exact_mod_cast hf t
    unfold bm25Step
    simp only [xfma, rfma]
    simp only [x_ofInt, x_lit, x_add, x_sub, x_mul]
    rw [x_idf hN (by show (0 : ℝ) ≤ ((ndt.getD t 0 : ℤ) : ℝ); exact_mod_cast hn t), x_div _ _ havg.ne']
    simp only [x_add, x_mul]
    rw [x_div]
    · simp only [x_mul, x_add]
    · simp only [GoFloat.add, GoFloat.mul, GoFloat.sub, GoFloat.lit, GoFloat.div, GoFloat.ofInt]
      have : 0 ≤ (field.length : ℝ) / avg := by positivity
      push_cast
      nlinarith
  have : ∀ (a : ℝ), query.foldl (bm25Step (lit 1.2) (lit 0.75) (XReal.fin bo) (.fin avg) (.fin N) ndt field) (.fin a) =
      .fin (query.foldl (bm25Step (lit 1.2) (lit 0.75) bo avg N ndt field) a) := by
    induction query with
    | nil => intro a; rfl
    | cons t query ih => intro a; rw [List.foldl_cons, List.foldl_cons, step, ih]
  exact this _

/-- C68: the special values the scores are computed with are those of IEEE 754: NaN spreads, `0/0`, `∞ - ∞`, `0 * ∞`, `∞/∞` and the
logarithm of a negative number are NaN, a non-zero number over 0 is infinite with its sign, products and quotients of infinities take the
product of the signs (`x < 0` is "negative" for a number, `s = true` for `inf s`). -/
theorem c68_special_values :
    (∀ a : XReal, GoFloat.add a .nan = .nan ∧ GoFloat.add .nan a = .nan ∧ GoFloat.mul a .nan = .nan ∧ GoFloat.mul .nan a = .nan ∧
      GoFloat.div a .nan = .nan ∧ GoFloat.div .nan a = .nan ∧ GoFloat.sub a .nan = .nan ∧ GoFloat.sub .nan a = .nan) ∧
    GoFloat.log XReal.nan = .nan ∧
    (∀ (x : ℝ) (s : Bool), GoFloat.add (XReal.fin x) (.inf s) = .inf s ∧ GoFloat.add (XReal.inf s) (.fin x) = .inf s ∧
      GoFloat.div (XReal.fin x) (.inf s) = .fin 0) ∧
    (∀ s : Bool, GoFloat.add (XReal.inf s) (.inf s) = .inf s ∧ GoFloat.add (XReal.inf s) (.inf !s) = .nan ∧
      GoFloat.sub (XReal.inf s) (.inf s) = .nan ∧ GoFloat.sub (XReal.inf s) (.inf !s) = .inf s) ∧
    (∀ s s' : Bool, GoFloat.mul (XReal.inf s) (.inf s') = .inf (s != s') ∧ GoFloat.div (XReal.inf s) (.inf s') = .nan) ∧
    (∀ (x : ℝ) (s : Bool), 0 < x → GoFloat.mul (XReal.fin x) (.inf s) = .inf s ∧ GoFloat.mul (XReal.inf s) (.fin x) = .inf s ∧
      GoFloat.div (XReal.inf s) (.fin x) = .inf s ∧ GoFloat.div (XReal.fin x) (.fin 0) = .inf false) ∧
    (∀ (x : ℝ) (s : Bool), x < 0 → GoFloat.mul (XReal.fin x) (.inf s) = .inf (!s) ∧ GoFloat.mul (XReal.inf s) (.fin x) = .inf (!s) ∧
      GoFloat.div (XReal.inf s) (.fin x) = .inf (!s) ∧ GoFloat.div (XReal.fin x) (.fin 0) = .inf true ∧
      GoFloat.log (XReal.fin x) = .nan) ∧
    (∀ s : Bool, GoFloat.mul (XReal.fin 0) (.inf s) = .nan ∧ GoFloat.mul (XReal.inf s) (.fin 0) = .nan ∧
      GoFloat.div (XReal.inf s) (.fin 0) = .inf s) ∧
    GoFloat.div (XReal.fin 0) (.fin 0) = .nan ∧ GoFloat.log (XReal.fin 0) = .inf true ∧ GoFloat.log (XReal.inf false) = .inf false ∧
    GoFloat.log (XReal.inf true) = .nan ∧
    (∀ a : XReal, GoFloat.gt a .nan = false ∧ GoFloat.gt .nan a = false) ∧
    (∀ x : ℝ, GoFloat.gt (XReal.fin x) (.inf true) = true ∧ GoFloat.gt (XReal.fin x) (.inf false) = false ∧
      GoFloat.gt (XReal.inf false) (.fin x) = true ∧ GoFloat.gt (XReal.inf true) (.fin x) = false) ∧
    (∀ s s' : Bool, GoFloat.gt (XReal.inf s) (.inf s') = true ↔ s = false ∧ s' = true) ∧
    GoFloat.eq0 XReal.nan = false ∧ ∀ s, GoFloat.eq0 (XReal.inf s) = false := by
  refine ⟨?_, rfl, ?_, ?_, ?_, ?_, ?_, ?_, ?_, ?_, rfl, rfl, ?_, ?_, ?_, rfl, ?_⟩
  · intro a; cases a <;> exact ⟨rfl, rfl, rfl, rfl, rfl, rfl, rfl, rfl⟩
  · intro x s; exact ⟨rfl, rfl, rfl⟩
  · intro s; cases s <;> simp [GoFloat.add, GoFloat.sub, XReal.add, XReal.neg]
  · intro s s'; cases s <;> cases s' <;> exact ⟨rfl, rfl⟩
  · intro x s hx
    have h0 : x ≠ 0 := hx.ne'
    have h1 : ¬ x < 0 := not_lt.2 hx.le
    cases s <;> simp [GoFloat.mul, GoFloat.div, XReal.mul, XReal.div, XReal.signed, h0, h1]
  · intro x s hx
    have h0 : x ≠ 0 := hx.ne
    cases s <;> simp [GoFloat.mul, GoFloat.div, GoFloat.log, XReal.mul, XReal.div, XReal.signed, XReal.log, h0, hx]
  · intro s; cases s <;> simp [GoFloat.mul, GoFloat.div, XReal.mul, XReal.div, XReal.signed]
  · simp [GoFloat.div, XReal.div, XReal.signed]
  · simp [GoFloat.log, XReal.log]
  · intro a; cases a <;> exact ⟨rfl, rfl⟩
  · intro x; exact ⟨rfl, rfl, rfl, rfl⟩
  · intro s s'; cases s <;> cases s' <;> simp [GoFloat.gt, XReal.gt]
  · intro s; cases s <;> rfl

/-- **C68 is false**: if the only field saved has length 0, every search that finds it gives it the score NaN. -/
theorem c68_finite_refuted : ∃ (h : List StoreOp) (query : List (Query XReal)), (∀ op ∈ h, op.isSave = true) ∧
    (∀ q ∈ query, ∃ b, q.boost = .fin b) ∧ (∀ cpus, 0 < cpus → ∃ l, SState.Returns (Memory.run h).reads query cpus l) ∧
    ∀ cpus l, SState.Returns (Memory.run h).reads query cpus l → ("d", XReal.nan) ∈ l := by
  refine ⟨[.save "d" { name := "title", length := 0, tf := [("t", 1)] }], [⟨"title", .fin 1, ["t"]⟩], by decide, by simp,
    fun cpus hc => search_returns (memory_consistent _) _ hc, fun cpus l hl => ?_⟩
  obtain ⟨-, qs, hp, hm⟩ := c59_result (memory_consistent _) _ cpus hl
  rw [hm]
  rw [List.perm_singleton.1 hp]
  have hfield : (Memory.run [.save "d" { name := "title", length := 0, tf := [("t", 1)] }]).reads.fieldOf "d" "title" =
      some { name := "title", length := 0, tf := [("t", 1)] } := by decide
  have hmatch : (Memory.run [.save "d" { name := "title", length := 0, tf := [("t", 1)] }]).reads.matches "title" ["t"] "d" = true := by
    decide
  have hl0 : (Memory.run [.save "d" { name := "title", length := 0, tf := [("t", 1)] }]).reads.getFieldLength "title" = 0 := by decide
  have hs1 : (Memory.run [.save "d" { name := "title", length := 0, tf := [("t", 1)] }]).reads.getFieldSize "title" = 1 := by decide
  have : docScores (Memory.run [.save "d" { name := "title", length := 0, tf := [("t", 1)] }]).reads
      [(⟨"title", .fin 1, ["t"]⟩ : Query XReal)] "d" = [XReal.nan] := by
    have hdiv : GoFloat.div (XReal.fin (ofInt 0 : ℝ)) (XReal.fin (ofInt 1 : ℝ)) = XReal.fin 0 := by
      rw [x_div]
      · simp [GoFloat.div, GoFloat.ofInt]
      · simp [GoFloat.ofInt]
    have hdiv0 : GoFloat.div (XReal.fin (ofInt 0 : ℝ)) (XReal.fin 0) = XReal.nan := by
      show XReal.div _ _ = _; simp [XReal.div, XReal.signed, GoFloat.ofInt]
    unfold docScores queryScore
    simp only [List.filterMap_cons, List.filterMap_nil, hmatch, if_true, hfield, Option.map_some, hl0, hs1, x_ofInt]
    rw [hdiv]
    simp [bm25, bm25Step, xfma, hdiv0]
  rw [this]
  refine ⟨by simp, ?_⟩
  simp

theorem perm_map_fin {l : List XReal} {vs : List ℝ} (h : l.Perm (vs.map .fin)) : ∃ ws : List ℝ, l = ws.map .fin ∧ ws.Perm vs := by
  let tr : XReal → ℝ := fun x => match x with | .fin x => x | _ => 0
  refine ⟨l.map tr, ?_, ?_⟩
  · rw [List.map_map]
    refine (List.map_id l).symm.trans (List.map_congr_left fun x hx => ?_)
    obtain ⟨v, -, rfl⟩ := List.mem_map.1 (h.mem_iff.1 hx)
    rfl
  · have := h.map tr
    rwa [List.map_map, show tr ∘ XReal.fin = id from rfl, List.map_id] at this

/-- lengths and frequencies as POST /nir produces them: not negative, and a field that has terms has a positive length. -/
structure Sane (h : List StoreOp) : Prop where
  save : ∀ op ∈ h, op.isSave = true
  tf   : ∀ op ∈ h, ∀ t n, (t, n) ∈ op.field.tf → 0 ≤ n
  len  : ∀ op ∈ h, 0 ≤ op.field.length ∧ (op.field.tf ≠ [] → 0 < op.field.length)

/-- **C68, what holds.** If in the history lengths and frequencies are not negative and every field with terms has a positive length, then
over the reals with infinities and NaN, whatever the schedule, every score that Search returns is a finite number: the sum over the queries
of the BM25 scores over the reals. -/
theorem c68_finite_partial (h : List StoreOp) (hgv : Spec.GoValues h) (hs : Sane h) (query : List (Query ℝ)) (cpus : Nat) {l : Scores XReal}
    (hl : SState.Returns (Memory.run h).reads (query.map fun q => ⟨q.fieldName, .fin q.boost, q.terms⟩) cpus l) (d : String) (x : XReal) :
    (d, x) ∈ l ↔ docScores (Memory.run h).reads query d ≠ [] ∧ x = .fin (docScores (Memory.run h).reads query d).sum := by
  have hq : ∀ q : Query ℝ, queryScore (Memory.run h).reads (⟨q.fieldName, .fin q.boost, q.terms⟩ : Query XReal) d =
      (queryScore (Memory.run h).reads q d).map XReal.fin := by
    intro q
    unfold queryScore
    simp only
    by_cases hmat : (Memory.run h).reads.matches q.fieldName q.terms d = true
    · rw [if_pos hmat, if_pos hmat, Option.map_map]
      cases hfield : (Memory.run h).reads.fieldOf d q.fieldName with
      | none => rfl
      | some field =>
        simp only [Option.map_some, Function.comp_apply, Option.some.injEq]
        -- the field was saved
        have hlast : Spec.lastSaved h d q.fieldName = some field := by
          rw [← hfield]
          show _ = ((Memory.run h).getFields [d] q.fieldName).get? d
          rw [c14_memory_getFields_latest]; simp
        have hsaved : ∃ op ∈ h, op.field = field := by
          unfold Spec.lastSaved at hlast
          obtain ⟨op, ho, he⟩ := List.exists_of_findSome?_eq_some hlast
          refine ⟨op, by simpa using ho, ?_⟩
          split at he
          · simpa using he
          · cases he
        obtain ⟨op, hop, rfl⟩ := hsaved
        -- the totals
        obtain ⟨t, ht, op', hop', -, -, hname, htk⟩ := (memory_matches h hs.save q.fieldName q.terms d).1 ⟨hmat, by simp [hfield]⟩
        have hsize : (Memory.run h).reads.getFieldSize q.fieldName = Spec.callCount h q.fieldName := by
          have := Memory.size_foldl_apply h Memory.new q.fieldName
          simpa [Memory.reads, Memory.run, Memory.new, Memory.getFieldSize, GoMap.getD] using this
        have hlen : (Memory.run h).reads.getFieldLength q.fieldName = Spec.lengthSum h q.fieldName := by
          have := Memory.length_foldl_apply h Memory.new q.fieldName
          simpa [Memory.reads, Memory.run, Memory.new, Memory.getFieldLength, GoMap.getD] using this
        have hcount : 0 < Spec.callCount h q.fieldName := by
          unfold Spec.callCount
          rw [List.length_pos_iff_exists_mem]
          exact ⟨op', by simp [hop', hname]⟩
        have hsum : 0 < Spec.lengthSum h q.fieldName := by
          unfold Spec.lengthSum
          have pos : ∀ l : List StoreOp, (∀ o ∈ l, 0 ≤ o.field.length) → op' ∈ l → 0 < op'.field.length →
              0 < (l.map fun o => o.field.length).sum := by
            intro l
            induction l with
            | nil => intro _ hm; cases hm
            | cons o l ih =>
              intro h0 hm hp
              have hnn : ∀ l : List StoreOp, (∀ o ∈ l, 0 ≤ o.field.length) → 0 ≤ (l.map fun o => o.field.length).sum := by
                intro l
                induction l with
                | nil => intro _; simp
                | cons o l ih =>
                  intro h
                  have h1 := h o (by simp)
                  have h2 := ih fun o ho => h o (by simp [ho])
                  simp only [List.map_cons, List.sum_cons]; omega
              simp only [List.map_cons, List.sum_cons]
              rcases List.mem_cons.1 hm with rfl | hm
              · have := hnn l fun o ho => h0 o (by simp [ho]); omega
              · have := ih (fun o ho => h0 o (by simp [ho])) hm hp
                have := h0 o (by simp); omega
          refine pos _ (fun o ho => (hs.len o (List.mem_filter.1 ho).1).1) (by simp [hop', hname]) ?_
          exact (hs.len op' hop').2 fun e => by simp [e, GoMap.keys] at htk
        rw [hsize, hlen]
        have h1 : (0 : ℝ) < (Spec.callCount h q.fieldName : ℕ) := by exact_mod_cast hcount
        have h2 : (0 : ℝ) < ((Spec.lengthSum h q.fieldName : ℤ) : ℝ) := by exact_mod_cast hsum
        simp only [x_ofInt]
        rw [x_div]
        · apply x_bm25
          · simp only [GoFloat.div, GoFloat.ofInt]; push_cast; positivity
          · simp only [GoFloat.ofInt]; push_cast; positivity
          · intro t'
            show 0 ≤ GoMap.getD ((Memory.run h).getNumberFieldTerm q.fieldName q.terms) t' 0
            unfold GoMap.getD
            rw [Memory.get?_getNumberFieldTerm]
            split
            · have := Memory.nft_foldl_apply h hgv Memory.new q.fieldName t'
              simp only [Option.getD_some]
              have e : (Memory.run h).nft q.fieldName t' = Spec.termCount h q.fieldName t' := by
                simpa [Memory.run, Memory.new, Memory.nft, GoMap.getD] using this
              rw [e]; omega
            · simp
          · intro t'
            unfold GoMap.getD
            cases hg : op.field.tf.get? t' with
            | none => simp
            | some n => exact hs.tf op hop t' n (GoMap.mem_of_get? hg)
          · exact (hs.len op hop).1
        · simp only [GoFloat.ofInt]; push_cast; positivity
    · rw [if_neg hmat, if_neg hmat]; rfl
  have hdoc : ∀ qs : List (Query ℝ), docScores (Memory.run h).reads (qs.map fun q => (⟨q.fieldName, .fin q.boost, q.terms⟩ : Query XReal)) d =
      (docScores (Memory.run h).reads qs d).map XReal.fin := by
    intro qs
    unfold docScores
    induction qs with
    | nil => rfl
    | cons q qs ih =>
      simp only [List.map_cons, List.filterMap_cons, hq]
      cases queryScore (Memory.run h).reads q d <;> simp [ih]
  have hsum : ∀ (vs : List ℝ) (a : ℝ), (vs.map XReal.fin).foldl GoFloat.add (XReal.fin a) = .fin (a + vs.sum) := by
    intro vs
    induction vs with
    | nil => intro a; simp
    | cons v vs ih =>
      intro a
      rw [List.map_cons, List.foldl_cons, x_add, ih, List.sum_cons]
      show XReal.fin (a + v + vs.sum) = _
      rw [add_assoc]
  obtain ⟨-, qs, hp, hm⟩ := c59_result (memory_consistent _) _ cpus hl
  rw [hm]
  have hperm := docScores_perm (st := (Memory.run h).reads) hp d
  rw [hdoc] at hperm
  obtain ⟨ws, hws, hws'⟩ := perm_map_fin hperm
  rw [hws, show (GoFloat.lit 0 : XReal) = .fin 0 by simp [GoFloat.lit], hsum, hws'.sum_eq, zero_add]
  have : ws.map XReal.fin ≠ [] ↔ docScores (Memory.run h).reads query d ≠ [] := by
    rw [ne_eq, ne_eq, List.map_eq_nil_iff, perm_nil_iff hws']
  rw [this]

example : ∃ h : List StoreOp, Spec.GoValues h ∧ Sane h ∧ Spec.Saved h "title" "t" "d" := by
  refine ⟨exHistory, ?_, ⟨?_, ?_, ?_⟩, _, List.mem_cons_self, rfl, rfl, rfl, by decide⟩
  · intro op ho
    simp only [exHistory, List.mem_cons, List.not_mem_nil, or_false] at ho
    rcases ho with rfl | rfl <;> decide
  · decide
  · intro op ho t n ht
    simp only [exHistory, List.mem_cons, List.not_mem_nil, or_false] at ho
    rcases ho with rfl | rfl <;> simp [StoreOp.field] at ht
    · omega
    · rcases ht with ⟨-, rfl⟩ | ⟨-, rfl⟩ <;> omega
  · decide

end Goir
