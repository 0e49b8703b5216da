import Verif.Lemmas.Standard
import Verif.Model.ScoreReal
import Verif.Props.Memory
/-!
# C57–C62: searching

A store at rest is given by what its reading methods answer (`Reads`); `Memory.reads` is a Memory store. `cpus` is
runtime.NumCPU().
-/
namespace Goir
open GoMap

/-- a Memory store answers consistently. -/
theorem memory_consistent (m : Memory) : m.reads.Consistent := by
  have hw : ∀ ids f, (m.getFields ids f).WF := by
    intro ids f
    have : ∀ (ids : List String) (acc : GoMap String Field), acc.WF → (ids.foldl (m.getFieldsStep f) acc).WF := by
      intro ids
      induction ids with
      | nil => intro acc h; exact h
      | cons id ids ih =>
        intro acc h
        refine ih _ ?_
        unfold Memory.getFieldsStep
        split
        · split
          · exact h.set _ _
          · exact h
        · exact h
    exact this ids [] (by simp)
  refine ⟨hw, fun ids f d => ?_⟩
  show (m.getFields ids f).get? d = if d ∈ ids then (m.getFields [d] f).get? d else none
  rw [Memory.get?_getFields, Memory.get?_getFields]
  simp

/-! ### C57 -/

/-- **C57.** Whatever the schedule, `InvertedIndex.Search` makes at most `4 P + 2 T + 14` steps, for `T` terms with `P` postings
together. -/
theorem c57_bounded {F : Type} [GoFloat F] {st : Reads} (hst : st.Consistent) (terms : List String) (f : String) (cpus : Nat)
    {k : Nat} {s : IState F} (h : Steps (IState.Step st terms f cpus) k (IState.start st terms f cpus) s) :
    k ≤ 4 * (terms.map fun t => (termSource st f t).length).sum + 2 * terms.length + 14 := by
  have := Steps.bounded (P := IInv st (fun f t d => st.has f t d = true) st.fieldOf terms f cpus) (iμ st terms f) h
    (iinv_start terms f cpus) (fun _ _ hp hs => iinv_step (coherent_of hst) hp hs) (fun _ _ hp hs => iμ_step (coherent_of hst) hp hs)
  have hs : iμ st terms f (IState.start st terms f cpus : IState F) =
      4 * (terms.map fun t => (termSource st f t).length).sum + 2 * terms.length + 14 := by
    simp only [iμ, IState.start]
    rw [FanIn.start_μ]
    simp only [List.length_flatten, List.map_map, List.length_map, numBatches, Function.comp_def]
    omega
  omega

/-- **C57.** Whatever has happened so far, unless it has returned some goroutine can make a step: there is no deadlock. -/
theorem c57_no_deadlock {F : Type} [GoFloat F] {st : Reads} (hst : st.Consistent) (terms : List String) (f : String) {cpus : Nat}
    (hc : 0 < cpus) {s : IState F} (h : Reaches (IState.Step st terms f cpus) (IState.start st terms f cpus) s) :
    (∃ r, s = .done r) ∨ ∃ s', IState.Step st terms f cpus s s' := by
  have hi := Reaches.invariant (P := IInv st (fun f t d => st.has f t d = true) st.fieldOf terms f cpus) h
    (iinv_start terms f cpus) (fun _ _ hp hs => iinv_step (coherent_of hst) hp hs)
  by_cases hd : ∃ r, s = .done r
  · exact .inl hd
  · exact .inr (i_progress hc hi fun r e => hd ⟨r, e⟩)

/-- the history used in the examples: two documents with a title, one of which has the term `t`. -/
def exHistory : List StoreOp :=
  [.save "d" { name := "title", length := 1, tf := [("t", 1)] }, .save "e" { name := "title", length := 3, tf := [("u", 1), ("v", 2)] }]

example : termSource (Memory.run exHistory).reads "title" "t" = ["d"] ∧
    (Memory.run exHistory).reads.fieldOf "d" "title" = some { name := "title", length := 1, tf := [("t", 1)] } := by decide

/-! ### C58 -/

/-- **C58.** Whatever the schedule and the iteration orders, `InvertedIndex.Search` returns the field of exactly the documents
posted under at least one term (and having the field), and the counters of the store. -/
theorem c58_exact {F : Type} [GoFloat F] {st : Reads} (hst : st.Consistent) (terms : List String) (f : String) (cpus : Nat)
    {r : SearchResult F} (h : Reaches (IState.Step st terms f cpus) (IState.start st terms f cpus) (.done r)) :
    (∀ d x, r.fieldDocuments.get? d = some x ↔
      (∃ t ∈ terms, (st.getDocuments f t).2 = true ∧ (st.getDocuments f t).1.contains d = true) ∧ (st.getFields [d] f).get? d = some x) ∧
    r.numFieldsWithTerm = st.getNumberFieldTerm f terms ∧
    r.totalDocuments = GoFloat.ofInt (st.getFieldSize f) ∧
    r.avgDocLength = GoFloat.div (GoFloat.ofInt (st.getFieldLength f)) (GoFloat.ofInt (st.getFieldSize f)) := by
  have hi : GoodResult st (fun f t d => st.has f t d = true) st.fieldOf terms f r :=
    Reaches.invariant (P := IInv st (fun f t d => st.has f t d = true) st.fieldOf terms f cpus) h
      (iinv_start terms f cpus) (fun _ _ hp hs => iinv_step (coherent_of hst) hp hs)
  refine ⟨fun d x => ?_, hi.nft, hi.total, hi.avg⟩
  rw [hi.docs]
  simp only [Reads.has, Bool.and_eq_true]
  rfl

/-- **C58.** Two runs return the same. -/
theorem c58_schedule_independent {F : Type} [GoFloat F] {st : Reads} (hst : st.Consistent) (terms : List String) (f : String)
    (cpus cpus' : Nat) {r r' : SearchResult F} (h : Reaches (IState.Step st terms f cpus) (IState.start st terms f cpus) (.done r))
    (h' : Reaches (IState.Step st terms f cpus') (IState.start st terms f cpus') (.done r')) :
    (∀ d, r.fieldDocuments.get? d = r'.fieldDocuments.get? d) ∧ r.numFieldsWithTerm = r'.numFieldsWithTerm ∧
      r.totalDocuments = r'.totalDocuments ∧ r.avgDocLength = r'.avgDocLength := by
  obtain ⟨a1, a2, a3, a4⟩ := c58_exact hst terms f cpus h
  obtain ⟨b1, b2, b3, b4⟩ := c58_exact hst terms f cpus' h'
  refine ⟨fun d => ?_, a2.trans b2.symm, a3.trans b3.symm, a4.trans b4.symm⟩
  apply Option.ext
  intro x
  exact (a1 d x).trans (b1 d x).symm

/-- there is a run that returns. -/
theorem index_search_returns {F : Type} [GoFloat F] {st : Reads} (hst : st.Consistent) (terms : List String) (f : String) {cpus : Nat}
    (hc : 0 < cpus) : ∃ r : SearchResult F, Reaches (IState.Step st terms f cpus) (IState.start st terms f cpus) (.done r) := by
  obtain ⟨s, h1, r, rfl⟩ := exists_finished (P := IInv st (fun f t d => st.has f t d = true) st.fieldOf terms f cpus)
    (fun s => ∃ r, s = .done r) (iμ st terms f) (fun _ _ hp hs => iinv_step (coherent_of hst) hp hs)
    (fun _ _ hp hs => iμ_step (coherent_of hst) hp hs) (fun s hp hd => i_progress hc hp fun r e => hd ⟨r, e⟩)
    (IState.start st terms f cpus : IState F) (iinv_start terms f cpus)
  exact ⟨r, h1⟩

example : ∃ r : SearchResult ℝ, Reaches (IState.Step (Memory.run exHistory).reads ["t", "u", "t"] "title" 1)
    (IState.start (Memory.run exHistory).reads ["t", "u", "t"] "title" 1) (.done r) :=
  index_search_returns (memory_consistent _) _ _ (by omega)

/-! ### C59 -/

/-- **C59.** Whatever the schedule, `Standard.Search` makes a bounded number of steps … -/
theorem c59_bounded {F : Type} [GoFloat F] {st : Reads} (hst : st.Consistent) (query : List (Query F)) (cpus : Nat)
    {k : Nat} {s : SState F} (h : Steps (SState.Step st query cpus) k (SState.start st query cpus) s) :
    k ≤ (query.map fun q => 4 * (q.terms.map fun t => (termSource st q.fieldName t).length).sum + 2 * q.terms.length + 16).sum + 2 := by
  have := Steps.bounded (P := SInv st query cpus) (sμ st query) h (sinv_start query cpus) (fun _ _ hp hs => sinv_step hst hp hs)
    (fun _ _ hp hs => sμ_step hst hp hs)
  have hs : sμ st query (SState.start st query cpus) =
      (query.map fun q => 4 * (q.terms.map fun t => (termSource st q.fieldName t).length).sum + 2 * q.terms.length + 16).sum + 2 := by
    simp only [sμ, SState.start, List.length_nil]
    have : ∀ query : List (Query F), (List.zipWith (qcost st) query (query.map fun q => .running (IState.start st q.terms q.fieldName cpus))) =
        query.map fun q => 4 * (q.terms.map fun t => (termSource st q.fieldName t).length).sum + 2 * q.terms.length + 16 := by
      intro query
      induction query with
      | nil => rfl
      | cons q query ih =>
        rw [List.map_cons, List.zipWith_cons_cons, ih, List.map_cons]
        congr 1
        simp only [qcost, iμ, IState.start]
        rw [FanIn.start_μ]
        simp only [List.length_flatten, List.map_map, List.length_map, numBatches, Function.comp_def]
        omega
    rw [this]
    simp
  omega

/-- … and never deadlocks. -/
theorem c59_no_deadlock {F : Type} [GoFloat F] {st : Reads} (hst : st.Consistent) (query : List (Query F)) {cpus : Nat} (hc : 0 < cpus)
    {s : SState F} (h : Reaches (SState.Step st query cpus) (SState.start st query cpus) s) :
    s.result.isSome = true ∨ ∃ s', SState.Step st query cpus s s' := by
  have hi := Reaches.invariant (P := SInv st query cpus) h (sinv_start query cpus) (fun _ _ hp hs => sinv_step hst hp hs)
  cases hr : s.result with
  | some l => exact .inl rfl
  | none => exact .inr (s_progress hc hi hr)

/-- **C59.** Over any kind of number: every document is listed once; the listed documents are those that some query matches;
and there is an order of the queries such that each document's score is the sum of its scores added up in that order, starting from 0. -/
theorem c59_result {F : Type} [GoFloat F] {st : Reads} (hst : st.Consistent) (query : List (Query F)) (cpus : Nat) {l : Scores F}
    (h : SState.Returns st query cpus l) : (l.map Prod.fst).Nodup ∧ ∃ qs : List (Query F), qs.Perm query ∧
      ∀ d x, (d, x) ∈ l ↔ docScores st qs d ≠ [] ∧ x = (docScores st qs d).foldl GoFloat.add (GoFloat.lit 0) := by
  obtain ⟨s, hs, hr⟩ := h
  have hi := Reaches.invariant (P := SInv st query cpus) hs (sinv_start query cpus) (fun _ _ hp hs => sinv_step hst hp hs)
  obtain ⟨order, h1, h2, qs, h3, h4⟩ := sinv_result hi hr
  refine ⟨(h1.1.map Prod.fst).nodup_iff.2 h2, qs, h3, fun d x => ?_⟩
  rw [h1.1.mem_iff]
  exact h4 d x

theorem foldl_add_real (l : List ℝ) (a : ℝ) : l.foldl GoFloat.add a = a + l.sum := by
  induction l generalizing a with
  | nil => simp
  | cons x l ih =>
    rw [List.foldl_cons, ih, List.sum_cons]
    show a + x + l.sum = a + (x + l.sum)
    ring

theorem docScores_perm {F : Type} [GoFloat F] {st : Reads} {qs query : List (Query F)} (h : qs.Perm query) (d : String) :
    (docScores st qs d).Perm (docScores st query d) := h.filterMap _

theorem perm_nil_iff {α : Type} {a b : List α} (h : a.Perm b) : a = [] ↔ b = [] := by
  have := h.length_eq
  rw [← List.length_eq_zero_iff, ← List.length_eq_zero_iff, this]

/-- **C59, over the reals.** Search returns each document that some query matches exactly once, with the sum over the queries of its
BM25 score, sorted by non-increasing score. -/
theorem c59_ranking {st : Reads} (hst : st.Consistent) (query : List (Query ℝ)) (cpus : Nat) {l : Scores ℝ}
    (h : SState.Returns st query cpus l) :
    (l.map Prod.fst).Nodup ∧ (∀ d x, (d, x) ∈ l ↔ docScores st query d ≠ [] ∧ x = (docScores st query d).sum) ∧
      l.Pairwise fun a b => b.2 ≤ a.2 := by
  obtain ⟨hn, qs, hp, hm⟩ := c59_result hst query cpus h
  refine ⟨hn, fun d x => ?_, ?_⟩
  · rw [hm, foldl_add_real]
    have hperm := docScores_perm (st := st) hp d
    rw [hperm.sum_eq]
    have : docScores st qs d ≠ [] ↔ docScores st query d ≠ [] := by
      rw [ne_eq, ne_eq, perm_nil_iff hperm]
    rw [this]
    have h0 : (GoFloat.lit 0 : ℝ) = 0 := by simp [GoFloat.lit]
    rw [h0, zero_add]
  · obtain ⟨s, hs, hr⟩ := h
    have hi := Reaches.invariant (P := SInv st query cpus) hs (sinv_start query cpus) (fun _ _ hp hs => sinv_step hst hp hs)
    obtain ⟨order, h1, -⟩ := sinv_result hi hr
    have gt_iff : ∀ x y : ℝ, GoFloat.gt x y = true ↔ y < x := fun x y => by simp [GoFloat.gt]
    have gt_false : ∀ x y : ℝ, GoFloat.gt x y = false ↔ x ≤ y := fun x y => by simp [GoFloat.gt]
    have := h1.2 (fun x _ => (gt_false _ _).2 le_rfl)
      (fun x _ y _ z _ h h' => (gt_iff _ _).2 (((gt_iff _ _).1 h').trans ((gt_iff _ _).1 h)))
      (fun x _ y _ z _ h h' => (gt_false _ _).2 (((gt_false _ _).1 h).trans ((gt_false _ _).1 h')))
    exact this.imp fun h => (gt_false _ _).1 h

/-- there is a run that returns. -/
theorem search_returns {F : Type} [GoFloat F] {st : Reads} (hst : st.Consistent) (query : List (Query F)) {cpus : Nat} (hc : 0 < cpus) :
    ∃ l, SState.Returns st query cpus l := by
  obtain ⟨s, h1, h2⟩ := exists_finished (P := SInv st query cpus) (fun s => s.result.isSome = true) (sμ st query)
    (fun _ _ hp hs => sinv_step hst hp hs) (fun _ _ hp hs => sμ_step hst hp hs)
    (fun s hp hd => s_progress hc hp (by simpa using hd)) (SState.start st query cpus) (sinv_start query cpus)
  obtain ⟨l, hl⟩ := Option.isSome_iff_exists.1 h2
  exact ⟨l, s, h1, hl⟩

example : ∃ l : Scores ℝ, SState.Returns (Memory.run exHistory).reads [⟨"title", 1, ["t"]⟩, ⟨"title", 2, ["t", "u"]⟩] 4 l :=
  search_returns (memory_consistent _) _ (by omega)

/-! ### C60 -/

theorem mem_docScores {F : Type} [GoFloat F] {st : Reads} (query : List (Query F)) (d : String) :
    docScores st query d ≠ [] ↔ ∃ q ∈ query, st.matches q.fieldName q.terms d = true ∧ (st.fieldOf d q.fieldName).isSome = true := by
  have hs : ∀ q : Query F, (queryScore st q d).isSome = true ↔
      st.matches q.fieldName q.terms d = true ∧ (st.fieldOf d q.fieldName).isSome = true := by
    intro q
    unfold queryScore
    split <;> simp_all
  unfold docScores
  rw [ne_eq, List.filterMap_eq_nil_iff]
  constructor
  · intro h
    have ⟨q, hq, hne⟩ : ∃ q ∈ query, queryScore st q d ≠ none := Classical.byContradiction fun hn =>
      h fun q hq => Classical.byContradiction fun h' => hn ⟨q, hq, h'⟩
    exact ⟨q, hq, (hs q).1 (Option.isSome_iff_ne_none.2 hne)⟩
  · rintro ⟨q, hq, h⟩ hn
    have := (hs q).2 h
    rw [hn q hq] at this
    cases this

theorem memory_matches (h : List StoreOp) (hsave : ∀ op ∈ h, op.isSave = true) (f : String) (terms : List String) (d : String) :
    ((Memory.run h).reads.matches f terms d = true ∧ ((Memory.run h).reads.fieldOf d f).isSome = true) ↔
      ∃ t ∈ terms, Spec.Saved h f t d := by
  have hpost : ∀ t, (Memory.run h).reads.has f t d = true ↔ Spec.Posted h f t d := by
    intro t
    obtain ⟨h1, -, h2, -⟩ := c13_memory_postings_exact h f t
    unfold Reads.has
    show (((Memory.run h).getDocuments f t).2 && ((Memory.run h).getDocuments f t).1.contains d) = true ↔ _
    rw [Bool.and_eq_true]
    constructor
    · rintro ⟨-, hd⟩; exact (h1 d).1 hd
    · intro hp; exact ⟨h2.2 ⟨d, hp⟩, (h1 d).2 hp⟩
  have hfield : (Memory.run h).reads.fieldOf d f = Spec.lastSaved h d f := by
    show ((Memory.run h).getFields [d] f).get? d = _
    rw [c14_memory_getFields_latest]; simp
  rw [matches_iff, hfield]
  constructor
  · rintro ⟨⟨t, ht, hp⟩, -⟩
    obtain ⟨op, ho, h1, h2, h3⟩ := (hpost t).1 hp
    exact ⟨t, ht, op, ho, hsave op ho, h1, h2, h3⟩
  · rintro ⟨t, ht, op, ho, h0, h1, h2, h3⟩
    refine ⟨⟨t, ht, (hpost t).2 ⟨op, ho, h1, h2, h3⟩⟩, ?_⟩
    unfold Spec.lastSaved
    rw [List.findSome?_isSome_iff]
    exact ⟨op, by simpa using ho, by simp [h0, h1, h2]⟩

/-- **C60.** Over a Memory store filled with SaveOrUpdate: whatever the schedule, Search returns `d` iff for some query `d` was saved
under the query's field with one of the query's terms. -/
theorem c60_sound_complete {F : Type} [GoFloat F] (h : List StoreOp) (hsave : ∀ op ∈ h, op.isSave = true) (query : List (Query F))
    (cpus : Nat) {l : Scores F} (hl : SState.Returns (Memory.run h).reads query cpus l) (d : String) :
    d ∈ l.map Prod.fst ↔ ∃ q ∈ query, ∃ t ∈ q.terms, Spec.Saved h q.fieldName t d := by
  obtain ⟨-, qs, hp, hm⟩ := c59_result (memory_consistent _) query cpus hl
  have : d ∈ l.map Prod.fst ↔ docScores (Memory.run h).reads qs d ≠ [] := by
    rw [List.mem_map]
    constructor
    · rintro ⟨⟨d', x⟩, he, rfl⟩; exact ((hm d' x).1 he).1
    · intro hne; exact ⟨(d, _), (hm d _).2 ⟨hne, rfl⟩, rfl⟩
  rw [this, mem_docScores]
  constructor
  · rintro ⟨q, hq, hx⟩; exact ⟨q, hp.mem_iff.1 hq, (memory_matches h hsave _ _ _).1 hx⟩
  · rintro ⟨q, hq, hx⟩; exact ⟨q, hp.mem_iff.2 hq, (memory_matches h hsave _ _ _).2 hx⟩

example : (∀ op ∈ exHistory, op.isSave = true) ∧ Spec.Saved exHistory "title" "t" "d" := by
  refine ⟨by decide, _, List.mem_cons_self, rfl, rfl, rfl, by decide⟩

/-! ### C61 -/

/-- **C61, over the reals.** Two runs give every document the same score. -/
theorem c61_real {st : Reads} (hst : st.Consistent) (query : List (Query ℝ)) (cpus cpus' : Nat) {l l' : Scores ℝ}
    (h : SState.Returns st query cpus l) (h' : SState.Returns st query cpus' l') (d : String) (x : ℝ) : (d, x) ∈ l ↔ (d, x) ∈ l' := by
  rw [(c59_ranking hst query cpus h).2.1, (c59_ranking hst query cpus' h').2.1]

/-- **C61, for at most two queries.** If only `(0 + a) + b = (0 + b) + a` is known of addition — which holds of float64 — then with at
most two queries two runs give every document the same score. GET /nir makes two queries. -/
theorem c61_two_queries_partial {F : Type} [GoFloat F]
    (hcomm : ∀ a b : F, GoFloat.add (GoFloat.add (GoFloat.lit 0) a) b = GoFloat.add (GoFloat.add (GoFloat.lit 0) b) a)
    {st : Reads} (hst : st.Consistent) (query : List (Query F)) (hq : query.length ≤ 2) (cpus cpus' : Nat) {l l' : Scores F}
    (h : SState.Returns st query cpus l) (h' : SState.Returns st query cpus' l') (d : String) (x : F) : (d, x) ∈ l ↔ (d, x) ∈ l' := by
  have sum_eq : ∀ vs ws : List F, vs.length ≤ 2 → vs.Perm ws → vs.foldl GoFloat.add (GoFloat.lit 0) = ws.foldl GoFloat.add (GoFloat.lit 0) := by
    intro vs ws hl hp
    match vs, hl with
    | [], _ => rw [List.nil_perm.1 hp]
    | [a], _ => rw [List.singleton_perm.1 hp]
    | [a, b], _ =>
      have hlen := hp.length_eq
      match ws, hlen with
      | [c, e], _ =>
        have hc : c ∈ [a, b] := hp.mem_iff.2 (by simp)
        rcases List.mem_cons.1 hc with rfl | hc
        · have := (List.perm_cons _).1 hp
          rw [List.singleton_perm.1 this]
        · have hcb : c = b := by simpa using hc
          subst hcb
          have : [a].Perm [e] := (List.perm_cons c).1 ((List.Perm.swap a c []).trans hp)
          rw [List.singleton_perm] at this
          cases this
          simp only [List.foldl_cons, List.foldl_nil]
          exact hcomm _ _
  have key : ∀ qs : List (Query F), qs.Perm query → ((docScores st qs d ≠ [] ∧ x = (docScores st qs d).foldl GoFloat.add (GoFloat.lit 0)) ↔
      (docScores st query d ≠ [] ∧ x = (docScores st query d).foldl GoFloat.add (GoFloat.lit 0))) := by
    intro qs hp
    have hperm := docScores_perm (st := st) hp d
    have hlen : (docScores st qs d).length ≤ 2 := by
      have := List.length_filterMap_le (queryScore st · d) qs
      have := hp.length_eq
      unfold docScores; omega
    rw [sum_eq _ _ hlen hperm, ne_eq, ne_eq, perm_nil_iff hperm]
  obtain ⟨-, qs, hp, hm⟩ := c59_result hst query cpus h
  obtain ⟨-, qs', hp', hm'⟩ := c59_result hst query cpus' h'
  rw [hm, hm', key qs hp, key qs' hp']

example : ∀ a b : ℝ, GoFloat.add (GoFloat.add (GoFloat.lit 0) a) b = GoFloat.add (GoFloat.add (GoFloat.lit 0) b) a := by
  intro a b; simp only [GoFloat.add, GoFloat.lit]; ring

/-! ### C62 -/

theorem docScores_drop {F : Type} [GoFloat F] {st : Reads} {q : Query F} {d : String} (h : queryScore st q d = none) (a b : List (Query F)) :
    docScores st (a ++ q :: b) d = docScores st (a ++ b) d := by
  unfold docScores
  simp [List.filterMap_append, h]

/-- **C62.** A query with no terms, or under none of whose terms anything is posted, gives no document a score; and adding it to
a list of queries changes neither which documents are returned nor their scores: they are still the sums, in some order, of the scores
that the other queries give. -/
theorem c62_harmless {F : Type} [GoFloat F] {st : Reads} (hst : st.Consistent) (pre post : List (Query F)) (q : Query F)
    (hq : ∀ t ∈ q.terms, ∀ d, ((st.getDocuments q.fieldName t).2 && (st.getDocuments q.fieldName t).1.contains d) = false) (cpus : Nat)
    {l : Scores F} (h : SState.Returns st (pre ++ q :: post) cpus l) :
    (∀ d, queryScore st q d = none) ∧ ∃ qs : List (Query F), qs.Perm (pre ++ post) ∧
      ∀ d x, (d, x) ∈ l ↔ docScores st qs d ≠ [] ∧ x = (docScores st qs d).foldl GoFloat.add (GoFloat.lit 0) := by
  have hnone : ∀ d, queryScore st q d = none := by
    intro d
    unfold queryScore
    rw [if_neg]
    rw [matches_iff]
    rintro ⟨t, ht, hx⟩
    unfold Reads.has at hx
    rw [hq t ht d] at hx
    cases hx
  refine ⟨hnone, ?_⟩
  obtain ⟨-, qs, hp, hm⟩ := c59_result hst _ cpus h
  obtain ⟨a, b, rfl⟩ := List.append_of_mem (hp.mem_iff.2 (show q ∈ pre ++ q :: post by simp))
  refine ⟨a ++ b, ?_, fun d x => ?_⟩
  · exact (List.perm_cons q).1 ((List.perm_middle.symm.trans hp).trans List.perm_middle)
  · rw [hm, docScores_drop (hnone d)]

/-- a query with no terms meets the hypothesis of C62, and so does one on a field a Memory store has never seen. -/
theorem c62_unknown_field (h : List StoreOp) (f : String) (hf : ∀ op ∈ h, op.field.name ≠ f) (t d : String) :
    (((Memory.run h).reads.getDocuments f t).2 && ((Memory.run h).reads.getDocuments f t).1.contains d) = false := by
  have h1 := (c13_memory_postings_exact h f t).1 d
  cases hx : ((Memory.run h).reads.getDocuments f t).1.contains d with
  | false => simp
  | true =>
    obtain ⟨op, ho, -, hn, -⟩ := h1.1 hx
    exact absurd hn (hf op ho)

example : ∀ op ∈ exHistory, op.field.name ≠ "text" := by decide

end Goir
