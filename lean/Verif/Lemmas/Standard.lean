import Verif.Lemmas.Search
import Verif.Spec.Search
/-! # Lemmas about Standard.Search -/
namespace Goir
open GoMap
variable {F : Type} [GoFloat F] {st : Reads}

theorem coherent_of (h : st.Consistent) : Coherent st (fun f t d => st.has f t d = true) st.fieldOf := by
  refine ⟨fun f t d => ?_, h.wf, h.fields⟩
  unfold termSource Reads.has
  split
  · rename_i x s heq; rw [heq]; simp [GoSet.getData, GoSet.contains_iff_mem_keys]
  · rename_i x s heq; rw [heq]; simp

theorem matches_iff (f : String) (terms : List String) (d : String) : st.matches f terms d = true ↔ ∃ t ∈ terms, st.has f t d = true := by
  unfold Reads.matches; simp

/-- `l` is what the goroutine of `q` may send. -/
def GoodScores (st : Reads) (q : Query F) (l : Scores F) : Prop := (l.map Prod.fst).Nodup ∧ ∀ d s, (d, s) ∈ l ↔ queryScore st q d = some s

theorem good_scores {q : Query F} {r : SearchResult F} {order : List (String × Field)}
    (h : GoodResult st (fun f t d => st.has f t d = true) st.fieldOf q.terms q.fieldName r) (ho : order.Perm r.fieldDocuments) :
    GoodScores st q (SState.scores q r order) := by
  refine ⟨?_, fun d s => ?_⟩
  · unfold SState.scores
    rw [List.map_map]
    have : (Prod.fst ∘ fun e : String × Field => (e.1, SState.score q r e.2)) = Prod.fst := rfl
    rw [this]
    exact (ho.map Prod.fst).nodup_iff.2 h.wf
  · unfold SState.scores queryScore
    rw [List.mem_map]
    have key : ∀ x, (d, x) ∈ order ↔ st.matches q.fieldName q.terms d = true ∧ st.fieldOf d q.fieldName = some x := by
      intro x
      rw [ho.mem_iff, ← get?_eq_some_iff h.wf, h.docs, matches_iff]
    constructor
    · rintro ⟨⟨d', x⟩, he, e⟩
      cases e
      obtain ⟨h1, h2⟩ := (key x).1 he
      rw [if_pos h1, h2]
      simp [SState.score, h.avg, h.total, h.nft]
    · intro hs
      split at hs
      · rename_i hm
        obtain ⟨x, hx, e⟩ := Option.map_eq_some_iff.1 hs
        refine ⟨(d, x), (key x).2 ⟨hm, hx⟩, ?_⟩
        simp only [SState.score, h.avg, h.total, h.nft, e]
      · cases hs

/-- the scores of `d` in a list of messages. -/
def scoresOf (d : String) (l : Scores F) : List F := l.filterMap fun e => if e.1 = d then some e.2 else none

theorem scoresOf_nodup (d : String) : ∀ l : Scores F, (l.map Prod.fst).Nodup → scoresOf d l = (GoMap.get? l d).toList := by
  intro l
  induction l with
  | nil => intro _; rfl
  | cons e l ih =>
    intro hn
    obtain ⟨k, v⟩ := e
    rw [List.map_cons, List.nodup_cons] at hn
    have ih := ih hn.2
    unfold scoresOf at ih ⊢
    rw [List.filterMap_cons, get?_cons]
    by_cases hk : k = d
    · subst hk
      have : GoMap.get? l k = none := (get?_eq_none_iff _ _).2 hn.1
      rw [this] at ih
      simp [ih]
    · simp [hk, ih]

theorem scoresOf_good {q : Query F} {l : Scores F} (h : GoodScores st q l) (d : String) : scoresOf d l = (queryScore st q d).toList := by
  obtain ⟨hn, hm⟩ := h
  rw [scoresOf_nodup d l hn]
  congr 1
  cases hq : queryScore st q d with
  | none =>
    rw [get?_eq_none_iff]
    intro hk
    obtain ⟨⟨d', s⟩, he, e⟩ := List.mem_map.1 hk
    have e : d' = d := e
    subst e
    have := (hm d' s).1 he
    rw [hq] at this; cases this
  | some s => exact get?_of_mem (m := l) hn ((hm d s).2 hq)

theorem addScores_get (l : Scores F) (m : GoMap String F) (d : String) :
    (l.foldl SState.addScore m).get? d = match scoresOf d l with
      | [] => m.get? d
      | vs => some (vs.foldl GoFloat.add (m.getD d (GoFloat.lit 0))) := by
  induction l generalizing m with
  | nil => rfl
  | cons e l ih =>
    obtain ⟨k, v⟩ := e
    rw [List.foldl_cons, ih]
    unfold scoresOf
    rw [List.filterMap_cons]
    by_cases hk : k = d
    · subst hk
      simp only [if_true]
      cases hv : List.filterMap (fun e : String × F => if e.1 = k then some e.2 else none) l with
      | nil => simp [SState.addScore, List.foldl]
      | cons w ws => simp [SState.addScore, GoMap.getD]
    · simp only [hk, if_false]
      cases hv : List.filterMap (fun e : String × F => if e.1 = d then some e.2 else none) l with
      | nil => simp [SState.addScore, get?_set, hk]
      | cons w ws => simp [SState.addScore, GoMap.getD, get?_set, hk]

theorem addScores_wf (l : Scores F) (m : GoMap String F) (wf : m.WF) : (l.foldl SState.addScore m).WF := by
  induction l generalizing m with
  | nil => exact wf
  | cons e l ih => exact ih _ (wf.set _ _)

/-- what has been sent, for each query. -/
abbrev Sent (F : Type) := List (Query F × Option (Scores F))

/-- the messages. -/
def msgs (res : Sent F) : List (Query F × Scores F) := res.filterMap fun e => e.2.map fun l => (e.1, l)

theorem msgs_set (res : Sent F) (i : Nat) (q : Query F) (l : Scores F) (h : res[i]? = some (q, none)) :
    (msgs (res.set i (q, some l))).Perm ((q, l) :: msgs res) := by
  induction res generalizing i with
  | nil => simp at h
  | cons e res ih =>
    cases i with
    | zero =>
      simp only [List.getElem?_cons_zero, Option.some.injEq] at h; subst h
      simp [msgs]
    | succ i =>
      simp only [List.getElem?_cons_succ] at h
      have := ih i h
      unfold msgs at this ⊢
      rw [List.set_cons_succ, List.filterMap_cons, List.filterMap_cons]
      cases e.2.map fun l => (e.1, l) with
      | none => exact this
      | some x => exact ((this.cons x).trans (.swap _ _ _))

theorem msgs_length_lt (res : Sent F) (i : Nat) (q : Query F) (h : res[i]? = some (q, none)) : (msgs res).length < res.length := by
  induction res generalizing i with
  | nil => simp at h
  | cons e res ih =>
    cases i with
    | zero =>
      simp only [List.getElem?_cons_zero, Option.some.injEq] at h; subst h
      have := List.length_filterMap_le (fun e : Query F × Option (Scores F) => e.2.map fun l => (e.1, l)) res
      simp only [msgs, List.filterMap_cons, Option.map_none, List.length_cons] at this ⊢
      omega
    | succ i =>
      simp only [List.getElem?_cons_succ] at h
      have := ih i h
      unfold msgs at this ⊢
      rw [List.filterMap_cons]
      cases e.2.map fun l => (e.1, l) with
      | none => simp only [List.length_cons]; omega
      | some x => simp only [List.length_cons]; omega

theorem msgs_all (res : Sent F) (h : ∀ e ∈ res, e.2 ≠ none) : (msgs res).map Prod.fst = res.map Prod.fst := by
  induction res with
  | nil => rfl
  | cons e res ih =>
    obtain ⟨q, o⟩ := e
    have hq := h (q, o) List.mem_cons_self
    cases o with
    | none => exact absurd rfl hq
    | some l =>
      have := ih fun e he => h e (List.mem_cons_of_mem _ he)
      unfold msgs at this ⊢
      simp [this]

/-- what must hold of query `q`'s goroutine and message. -/
def ThreadOk (st : Reads) (cpus : Nat) (e : Query F × Option (Scores F)) : QState F → Prop
  | .running t => IInv st (fun f t d => st.has f t d = true) st.fieldOf e.1.terms e.1.fieldName cpus t ∧ e.2 = none
  | .sent => ∃ l, e.2 = some l ∧ GoodScores st e.1 l

/-- invariant of Standard.Search. -/
structure SInv (st : Reads) (query : List (Query F)) (cpus : Nat) (s : SState F) : Prop where
  main : ∃ (res : Sent F) (got chan' : List (Query F × Scores F)),
    res.map Prod.fst = query ∧ s.threads.length = res.length ∧
    (∀ (i : Nat) e t, res[i]? = some e → s.threads[i]? = some t → ThreadOk st cpus e t) ∧
    s.chan = chan'.map Prod.snd ∧ (got ++ chan').Perm (msgs res) ∧
    s.temp = (got.map Prod.snd).flatten.foldl SState.addScore []
  closed : s.closed = true → ∀ t ∈ s.threads, t = .sent
  res : ∀ l, s.result = some l → s.closed = true ∧ s.chan = [] ∧ ∃ order : Scores F, order.Perm s.temp ∧ SortSlice order l

theorem sinv_start (query : List (Query F)) (cpus : Nat) : SInv st query cpus (SState.start st query cpus) := by
  refine ⟨⟨query.map fun q => (q, none), [], [], ?_, ?_, ?_, rfl, ?_, rfl⟩, fun h => (by cases h), fun l h => (by cases h)⟩
  · rw [List.map_map]
    have : (Prod.fst ∘ fun q : Query F => ((q, none) : Query F × Option (Scores F))) = id := rfl
    rw [this, List.map_id]
  · simp [SState.start]
  · intro i e t he ht
    simp only [SState.start, List.getElem?_map, Option.map_eq_some_iff] at he ht
    obtain ⟨q, hq, rfl⟩ := he
    obtain ⟨q', hq', rfl⟩ := ht
    rw [hq] at hq'; cases hq'
    exact ⟨iinv_start _ _ _, rfl⟩
  · have : msgs (query.map fun q => ((q, none) : Query F × Option (Scores F))) = [] := by
      simp [msgs]
    rw [this]; exact .refl _

theorem sinv_step (hst : st.Consistent) {query : List (Query F)} {cpus : Nat} {s s' : SState F} (h : SInv st query cpus s)
    (hs : SState.Step st query cpus s s') : SInv st query cpus s' := by
  obtain ⟨res, got, chan', h1, h2, h3, h4, h5, h6⟩ := h.main
  have lookup : ∀ (i : Nat) q t, query[i]? = some q → s.threads[i]? = some t → ∃ o, res[i]? = some (q, o) ∧ ThreadOk st cpus (q, o) t := by
    intro i q t hq ht
    rw [← h1, List.getElem?_map, Option.map_eq_some_iff] at hq
    obtain ⟨⟨q', o⟩, he, rfl⟩ := hq
    exact ⟨o, he, h3 i _ t he ht⟩
  cases hs with
  | inner i q t t' hq ht hstep =>
    obtain ⟨o, he, hok⟩ := lookup i q _ hq ht
    have hnr : s.result = none := by
      cases hr : s.result with
      | none => rfl
      | some l =>
        have := h.closed (h.res l hr).1 _ (List.mem_of_getElem? ht)
        cases this
    refine ⟨⟨res, got, chan', h1, by simpa using h2, ?_, h4, h5, h6⟩, ?_, ?_⟩
    · intro j e u hj hu
      rw [List.getElem?_set] at hu
      split at hu
      · rename_i hij; subst hij
        split at hu
        · cases hu
          rw [he] at hj; cases hj
          exact ⟨iinv_step (coherent_of hst) hok.1 hstep, hok.2⟩
        · cases hu
      · exact h3 j e u hj hu
    · intro hc
      have := h.closed hc _ (List.mem_of_getElem? ht)
      cases this
    · intro l hl
      have hl : s.result = some l := hl
      rw [hnr] at hl; cases hl
  | send i q r order hq ht ho hc =>
    obtain ⟨o, he, hok⟩ := lookup i q _ hq ht
    obtain ⟨hgood, hno⟩ := hok
    have hno : o = none := hno
    subst hno
    have hsc := good_scores (st := st) hgood ho
    refine ⟨⟨res.set i (q, some (SState.scores q r order)), got, chan' ++ [(q, SState.scores q r order)], ?_, by simpa using h2, ?_, ?_, ?_, h6⟩, ?_, ?_⟩
    · rw [List.map_set]
      rw [← h1]
      apply List.ext_getElem?
      intro j
      rw [List.getElem?_set]
      split
      · rename_i hij; subst hij
        split
        · rw [List.getElem?_map, he]; rfl
        · rename_i hlt
          rw [List.getElem?_eq_none (by omega)]
      · rfl
    · intro j e u hj hu
      rw [List.getElem?_set] at hu hj
      by_cases hij : i = j
      · subst hij
        rw [if_pos rfl] at hu hj
        split at hu
        · split at hj
          · cases hu; cases hj; exact ⟨_, rfl, hsc⟩
          · cases hj
        · cases hu
      · rw [if_neg hij] at hu hj; exact h3 j e u hj hu
    · simp [h4]
    · rw [← List.append_assoc]
      refine .trans ?_ (msgs_set res i q _ he).symm
      exact List.perm_append_comm.trans (h5.cons _)
    · intro hcl
      have := h.closed hcl _ (List.mem_of_getElem? ht)
      cases this
    · intro l hl
      have := h.closed (h.res l hl).1 _ (List.mem_of_getElem? ht)
      cases this
  | close hd hc => exact ⟨⟨res, got, chan', h1, h2, h3, h4, h5, h6⟩, fun _ => hd, fun l hl => ⟨rfl, (h.res l hl).2⟩⟩
  | recv l q hq =>
    rw [h4] at hq
    match chan', hq with
    | (q', l') :: rest, hq =>
      simp only [List.map_cons, List.cons.injEq] at hq
      obtain ⟨rfl, rfl⟩ := hq
      refine ⟨⟨res, got ++ [(q', l')], rest, h1, h2, h3, rfl, ?_, ?_⟩, h.closed, ?_⟩
      · simpa using h5
      · rw [h6]; simp [List.foldl_append]
      · intro l hl
        have := (h.res l hl).2.1
        rw [h4] at this; cases this
  | return_ order l hf hr ho hl =>
    refine ⟨⟨res, got, chan', h1, h2, h3, h4, h5, h6⟩, h.closed, ?_⟩
    intro l' hl'
    cases hl'
    exact ⟨hf.1, hf.2, order, ho, hl⟩

/-- at the end. -/
theorem sinv_result {query : List (Query F)} {cpus : Nat} {s : SState F} (h : SInv st query cpus s) {l : Scores F}
    (hl : s.result = some l) : ∃ order : Scores F, SortSlice order l ∧ (order.map Prod.fst).Nodup ∧ ∃ qs : List (Query F), qs.Perm query ∧
      ∀ d x, (d, x) ∈ order ↔ docScores st qs d ≠ [] ∧ x = (docScores st qs d).foldl GoFloat.add (GoFloat.lit 0) := by
  obtain ⟨res, got, chan', h1, h2, h3, h4, h5, h6⟩ := h.main
  obtain ⟨hc, hch, order, ho, hs⟩ := h.res l hl
  have hsent := h.closed hc
  rw [hch] at h4
  have hch' : chan' = [] := by cases chan' with
    | nil => rfl
    | cons e c => cases h4
  subst hch'
  rw [List.append_nil] at h5
  have hall : ∀ e ∈ res, e.2 ≠ none ∧ ∀ l, e.2 = some l → GoodScores st e.1 l := by
    intro e he
    obtain ⟨i, hi⟩ := List.getElem?_of_mem he
    have hlt : i < s.threads.length := by
      rw [h2]
      exact (List.getElem?_eq_some_iff.1 hi).1
    have ht := List.getElem?_eq_getElem hlt
    have hok := h3 i e _ hi ht
    rw [hsent _ (List.getElem_mem hlt)] at hok
    obtain ⟨l, h1, h2⟩ := hok
    exact ⟨by rw [h1]; simp, fun l' hl' => by rw [h1] at hl'; cases hl'; exact h2⟩
  have hgot : ∀ m ∈ got, GoodScores st m.1 m.2 := by
    intro m hm
    have := (h5.mem_iff).1 hm
    unfold msgs at this
    obtain ⟨e, he, hx⟩ := List.mem_filterMap.1 this
    obtain ⟨l, hl, rfl⟩ := Option.map_eq_some_iff.1 hx
    exact (hall e he).2 l hl
  have hwf : s.temp.WF := by rw [h6]; exact addScores_wf _ _ (by simp)
  refine ⟨order, hs, (ho.map Prod.fst).nodup_iff.2 hwf, got.map Prod.fst, ?_, ?_⟩
  · have := h5.map Prod.fst
    rw [msgs_all res (fun e he => (hall e he).1), h1] at this
    exact this
  · intro d x
    rw [ho.mem_iff, ← get?_eq_some_iff hwf, h6, addScores_get]
    have hv : scoresOf d (got.map Prod.snd).flatten = docScores st (got.map Prod.fst) d := by
      clear h5 h6
      induction got with
      | nil => rfl
      | cons m got ih =>
        have ih := ih fun m hm => hgot m (List.mem_cons_of_mem _ hm)
        have hg := scoresOf_good (hgot m List.mem_cons_self) d
        unfold scoresOf docScores at *
        rw [List.map_cons, List.flatten_cons, List.filterMap_append, ih, hg, List.map_cons, List.filterMap_cons]
        cases queryScore st m.1 d <;> rfl
    rw [hv]
    cases hd : docScores st (got.map Prod.fst) d with
    | nil => simp
    | cons v vs =>
      simp only [ne_eq, List.cons_ne_nil, not_false_eq_true, true_and, Option.some.injEq, GoMap.getD, get?_nil, Option.getD_none]
      exact eq_comm

/-! ### Termination -/

/-- steps a query's goroutine may still make. -/
def qcost (st : Reads) (q : Query F) : QState F → Nat
  | .running t => iμ st q.terms q.fieldName t + 2
  | .sent => 0

/-- the measure. -/
def sμ (st : Reads) (query : List (Query F)) (s : SState F) : Nat :=
  (List.zipWith (qcost st) query s.threads).sum + s.chan.length + (if s.closed then 0 else 1) + (if s.result.isSome then 0 else 1)

theorem zipWith_set (c : Query F → QState F → Nat) (query : List (Query F)) (threads : List (QState F)) (i : Nat) (q : Query F)
    (t t' : QState F) (hq : query[i]? = some q) (ht : threads[i]? = some t) :
    (List.zipWith c query (threads.set i t')).sum + c q t = (List.zipWith c query threads).sum + c q t' := by
  induction query generalizing threads i with
  | nil => simp at hq
  | cons q0 query ih =>
    cases threads with
    | nil => simp at ht
    | cons t0 threads =>
      cases i with
      | zero =>
        simp only [List.getElem?_cons_zero, Option.some.injEq] at hq ht
        subst hq ht
        simp; omega
      | succ i =>
        simp only [List.getElem?_cons_succ] at hq ht
        have := ih threads i hq ht
        simp only [List.set_cons_succ, List.zipWith_cons_cons, List.sum_cons]
        omega

theorem sμ_step (hst : st.Consistent) {query : List (Query F)} {cpus : Nat} {s s' : SState F} (h : SInv st query cpus s)
    (hs : SState.Step st query cpus s s') : sμ st query s' < sμ st query s := by
  cases hs with
  | inner i q t t' hq ht hstep =>
    have hz := zipWith_set (qcost st) query s.threads i q _ (.running t') hq ht
    obtain ⟨res, got, chan', h1, h2, h3, -⟩ := h.main
    have hinv : IInv st (fun f t d => st.has f t d = true) st.fieldOf q.terms q.fieldName cpus t := by
      have hq' := hq
      rw [← h1, List.getElem?_map, Option.map_eq_some_iff] at hq'
      obtain ⟨e, he, rfl⟩ := hq'
      exact (h3 i e _ he ht).1
    have := iμ_step (coherent_of hst) hinv hstep
    simp only [qcost] at hz
    simp only [sμ]
    omega
  | send i q r order hq ht ho hc =>
    have hz := zipWith_set (qcost st) query s.threads i q _ .sent hq ht
    simp only [qcost] at hz
    simp only [sμ, List.length_append, List.length_cons, List.length_nil]
    omega
  | close hd hc => simp only [sμ, hc]; simp
  | recv l q hq => simp only [sμ, hq, List.length_cons]; omega
  | return_ order l hf hr ho hl => simp [sμ, hr]

/-- a slice can always be sorted. -/
theorem exists_sortSlice (l : Scores F) : ∃ l', SortSlice l l' := by
  by_cases h : (∀ x ∈ l, GoFloat.gt x.2 x.2 = false) ∧
    (∀ x ∈ l, ∀ y ∈ l, ∀ z ∈ l, GoFloat.gt x.2 y.2 = true → GoFloat.gt y.2 z.2 = true → GoFloat.gt x.2 z.2 = true) ∧
    (∀ x ∈ l, ∀ y ∈ l, ∀ z ∈ l, GoFloat.gt x.2 y.2 = false → GoFloat.gt y.2 z.2 = false → GoFloat.gt x.2 z.2 = false)
  · obtain ⟨h1, h2, h3⟩ := h
    let le : { x // x ∈ l } → { x // x ∈ l } → Bool := fun a b => !GoFloat.gt b.1.2 a.1.2
    refine ⟨(l.attach.mergeSort le).map Subtype.val, ?_, fun _ _ _ => ?_⟩
    · have := (List.mergeSort_perm l.attach le).map Subtype.val
      rw [List.attach_map_subtype_val] at this
      exact this
    · rw [List.pairwise_map]
      have hs := List.pairwise_mergeSort (le := le) (fun a b c hab hbc => by
        simp only [le, Bool.not_eq_true'] at *
        exact h3 _ c.2 _ b.2 _ a.2 hbc hab) (fun a b => by
        simp only [le, Bool.or_eq_true, Bool.not_eq_true']
        cases hg : GoFloat.gt b.1.2 a.1.2 with
        | false => exact .inl rfl
        | true =>
          right
          cases hg' : GoFloat.gt a.1.2 b.1.2 with
          | false => rfl
          | true =>
            have := h2 _ a.2 _ b.2 _ a.2 hg' hg
            rw [h1 _ a.2] at this; cases this) l.attach
      refine hs.imp ?_
      intro a b hab
      simpa [le] using hab
  · exact ⟨l, .refl _, fun h1 h2 h3 => absurd ⟨h1, h2, h3⟩ h⟩

/-- Standard.Search never deadlocks. -/
theorem s_progress {query : List (Query F)} {cpus : Nat} (hcpu : 0 < cpus) {s : SState F} (h : SInv st query cpus s)
    (hr : s.result = none) : ∃ s', SState.Step st query cpus s s' := by
  obtain ⟨res, got, chan', h1, h2, h3, h4, h5, h6⟩ := h.main
  cases hc : s.chan with
  | cons l q => exact ⟨_, .recv s l q hc⟩
  | nil =>
    by_cases hd : ∀ t ∈ s.threads, t = .sent
    · cases hcl : s.closed with
      | false => exact ⟨_, .close s hd hcl⟩
      | true =>
        obtain ⟨l, hl⟩ := exists_sortSlice (s.temp : Scores F)
        exact ⟨_, .return_ s s.temp l ⟨hcl, hc⟩ hr (.refl _) hl⟩
    · have ⟨t, ht, htd⟩ : ∃ t ∈ s.threads, t ≠ .sent := Classical.byContradiction fun h =>
        hd fun t ht => Classical.byContradiction fun h' => h ⟨t, ht, h'⟩
      obtain ⟨i, hi⟩ := List.getElem?_of_mem ht
      have hlt : i < res.length := by rw [← h2]; exact (List.getElem?_eq_some_iff.1 hi).1
      have he := List.getElem?_eq_getElem hlt
      have hq : query[i]? = some res[i].1 := by rw [← h1, List.getElem?_map, he]; rfl
      have hok := h3 i _ _ he hi
      match t, htd, hi, hok with
      | .sent, htd, _, _ => exact absurd rfl htd
      | .running u, _, hi, hok =>
        by_cases hdone : ∃ r, u = .done r
        · obtain ⟨r, rfl⟩ := hdone
          refine ⟨_, .send s i _ r r.fieldDocuments hq hi (.refl _) ?_⟩
          rw [hc]
          have : 0 < query.length := by
            have := (List.getElem?_eq_some_iff.1 hq).1; omega
          simpa using this
        · obtain ⟨u', hu⟩ := i_progress hcpu hok.1 fun r e => hdone ⟨r, e⟩
          exact ⟨_, .inner s i _ u u' hq hi hu⟩

end Goir
