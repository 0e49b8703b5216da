import Verif.Model.Server
import Verif.Spec.Server
import Verif.Lemmas.Standard
/-!
# Standard.Search on a live store: it merges what its index searches returned
-/
namespace Goir
open GoMap
namespace DReq
variable {F : Type} [GoFloat F]

/-- the queries. -/
def query (s : DReq F) : List (Query F) := s.threads.map Prod.fst

/-- the goroutine of a query and its message; `R` says what is known of what an index search returned. -/
def MsgOk (R : Query F → LStats → GoMap String Field → Prop) (e : Query F × Option (Scores F)) : DQ → Prop
  | .running _ => e.2 = none
  | .sent => ∃ st docs order, R e.1 st docs ∧ docs.WF ∧ order.Perm docs ∧ e.2 = some (SState.scores e.1 (LSearch.result st docs) order)

/-- what has been sent and received. -/
structure Collects (R : Query F → LStats → GoMap String Field → Prop) (s : DReq F) : Prop where
  main : ∃ (res : Sent F) (got chan' : List (Query F × Scores F)),
    res.map Prod.fst = s.threads.map Prod.fst ∧
    (∀ (i : Nat) e t, res[i]? = some e → s.threads[i]? = some t → MsgOk R e t.2) ∧
    s.chan = chan'.map Prod.snd ∧ (got ++ chan').Perm (msgs res) ∧
    s.temp = (got.map Prod.snd).flatten.foldl SState.addScore []
  closed : s.closed = true → ∀ t ∈ s.threads, t.2 = .sent
  res : ∀ l, s.result = some l → s.closed = true ∧ s.chan = [] ∧ ∃ order : Scores F, order.Perm s.temp ∧ SortSlice order l

theorem Collects.mono {R R' : Query F → LStats → GoMap String Field → Prop} (hR : ∀ q st docs, R q st docs → R' q st docs) {s : DReq F} (h : Collects R s) : Collects R' s := by
  obtain ⟨⟨res, got, chan', h1, h3, h4, h5, h6⟩, hc, hr⟩ := h
  refine ⟨⟨res, got, chan', h1, fun i e t he ht => ?_, h4, h5, h6⟩, hc, hr⟩
  have := h3 i e t he ht
  obtain ⟨q, t⟩ := t
  cases t with
  | running x => exact this
  | sent =>
    obtain ⟨st, docs, order, a, b, c, d⟩ := this
    exact ⟨st, docs, order, hR _ _ _ a, b, c, d⟩

theorem collects_start (R : Query F → LStats → GoMap String Field → Prop) (query : List (Query F)) : Collects R (DReq.start query) := by
  refine ⟨⟨query.map fun q => (q, none), [], [], ?_, ?_, rfl, ?_, rfl⟩, fun h => (by cases h), fun l h => (by cases h)⟩
  · simp [start]
  · intro i e t he ht
    simp only [start, List.getElem?_map, Option.map_eq_some_iff] at he ht
    obtain ⟨q, hq, rfl⟩ := he
    obtain ⟨q', hq', rfl⟩ := ht
    rfl
  · have : msgs (query.map fun q => ((q, none) : Query F × Option (Scores F))) = [] := by simp [msgs]
    rw [this]; exact .refl _

theorem query_move {cpus : Nat} {d d' : CDisk} {s s' : DReq F} (h : Move cpus d s d' s') : s'.query = s.query := by
  have set_ : ∀ {l : List (Query F × DQ)} {i : Nat} {q : Query F} {t t' : DQ}, l[i]? = some (q, t) → (l.set i (q, t')).map Prod.fst = l.map Prod.fst := by
    intro l i q t t' hi
    rw [List.map_set]
    apply List.ext_getElem?
    intro j
    rw [List.getElem?_set]
    split
    · rename_i e
      subst e
      rw [List.getElem?_map, hi]
      have := (List.getElem?_eq_some_iff.1 hi).1
      simp [this]
    · rfl
  cases h with
  | inner _ _ j q x x' ht hm => exact set_ ht
  | send _ j q st docs order ht ho hc => exact set_ ht
  | _ => rfl

theorem collects_move {R : Query F → LStats → GoMap String Field → Prop} {cpus : Nat} {d d' : CDisk} {s s' : DReq F} (h : Collects R s) (hm : Move cpus d s d' s')
    (hR : ∀ q st docs, (q, DQ.running (.done st docs)) ∈ s.threads → R q st docs ∧ docs.WF) : Collects R s' := by
  have hq := query_move hm
  obtain ⟨res, got, chan', h1, h3, h4, h5, h6⟩ := h.main
  have lookup : ∀ (i : Nat) q t, s.threads[i]? = some (q, t) → ∃ o, res[i]? = some (q, o) ∧ MsgOk R (q, o) t := by
    intro i q t ht
    have hq : (s.threads.map Prod.fst)[i]? = some q := by rw [List.getElem?_map, ht]; rfl
    rw [← h1, List.getElem?_map, Option.map_eq_some_iff] at hq
    obtain ⟨⟨q', o⟩, he, rfl⟩ := hq
    exact ⟨o, he, h3 i _ _ he ht⟩
  cases hm with
  | inner _ _ i q x x' ht hm =>
    obtain ⟨o, he, hok⟩ := lookup i q _ ht
    refine ⟨⟨res, got, chan', h1.trans hq.symm, ?_, h4, h5, h6⟩, ?_, ?_⟩
    · intro j e u hj hu
      rw [List.getElem?_set] at hu
      split at hu
      · rename_i hij; subst hij
        split at hu
        · cases hu
          rw [he] at hj; cases hj
          exact hok
        · cases hu
      · exact h3 j e u hj hu
    · intro hc
      have := h.closed hc _ (List.mem_of_getElem? ht)
      cases this
    · intro l hl
      have := h.closed (h.res l hl).1 _ (List.mem_of_getElem? ht)
      cases this
  | send _ i q st docs order ht ho hc =>
    obtain ⟨o, he, hno⟩ := lookup i q _ ht
    have hno : o = none := hno
    subst hno
    obtain ⟨hr, hwf⟩ := hR q st docs (List.mem_of_getElem? ht)
    refine ⟨⟨res.set i (q, some (SState.scores q (LSearch.result st docs) order)), got, chan' ++ [(q, SState.scores q (LSearch.result st docs) order)], ?_, ?_, ?_, ?_, h6⟩, ?_, ?_⟩
    · refine Eq.trans ?_ hq.symm
      show _ = s.threads.map Prod.fst
      rw [List.map_set, ← h1]
      apply List.ext_getElem?
      intro j
      rw [List.getElem?_set]
      split
      · rename_i hij; subst hij
        split
        · rw [List.getElem?_map, he]; rfl
        · rename_i hlt
          rw [List.getElem?_eq_none (by omega)]
      · rfl
    · intro j e u hj hu
      rw [List.getElem?_set] at hu hj
      by_cases hij : i = j
      · subst hij
        rw [if_pos rfl] at hu hj
        split at hu
        · split at hj
          · cases hu; cases hj; exact ⟨st, docs, order, hr, hwf, ho, rfl⟩
          · cases hj
        · cases hu
      · rw [if_neg hij] at hu hj; exact h3 j e u hj hu
    · simp [h4]
    · rw [← List.append_assoc]
      refine .trans ?_ (msgs_set res i q _ he).symm
      exact List.perm_append_comm.trans (h5.cons _)
    · intro hcl
      have := h.closed hcl _ (List.mem_of_getElem? ht)
      cases this
    · intro l hl
      have := h.closed (h.res l hl).1 _ (List.mem_of_getElem? ht)
      cases this
  | close _ hd hc => exact ⟨⟨res, got, chan', h1, h3, h4, h5, h6⟩, fun _ => hd, fun l hl => ⟨rfl, (h.res l hl).2⟩⟩
  | recv _ l q hch =>
    rw [h4] at hch
    match chan', hch with
    | (q', l') :: rest, hch =>
      simp only [List.map_cons, List.cons.injEq] at hch
      obtain ⟨rfl, rfl⟩ := hch
      refine ⟨⟨res, got ++ [(q', l')], rest, h1, h3, rfl, ?_, ?_⟩, h.closed, ?_⟩
      · simpa using h5
      · simp only [h6]; simp [List.foldl_append]
      · intro l hl
        have := (h.res l hl).2.1
        rw [h4] at this; cases this
  | return_ _ order l hf hr ho hl =>
    refine ⟨⟨res, got, chan', h1, h3, h4, h5, h6⟩, h.closed, ?_⟩
    intro l' hl'
    cases hl'
    exact ⟨hf.1, hf.2, order, ho, hl⟩

theorem scoresOf_scores {q : Query F} {st : LStats} {docs : GoMap String Field} {order : List (String × Field)} (wf : docs.WF) (ho : order.Perm docs) (d : String) :
    scoresOf d (SState.scores q (LSearch.result st docs) order) = ((⟨q, st, docs⟩ : Answer F).score d).toList := by
  have hn : (order.map Prod.fst).Nodup := (ho.map Prod.fst).nodup_iff.2 wf
  have hn' : ((SState.scores q (LSearch.result st docs) order).map Prod.fst).Nodup := by
    unfold SState.scores
    rw [List.map_map]
    exact hn
  rw [scoresOf_nodup d _ hn']
  congr 1
  have ho' : GoMap.get? order d = docs.get? d := by
    cases hd : docs.get? d with
    | none =>
      rw [get?_eq_none_iff] at hd ⊢
      exact fun h => hd ((ho.map Prod.fst).mem_iff.1 h)
    | some x => exact get?_of_mem (m := order) hn (ho.mem_iff.2 (mem_of_get? hd))
  have hmap : ∀ l : List (String × Field), GoMap.get? (SState.scores q (LSearch.result st docs) l) d = (GoMap.get? l d).map (SState.score q (LSearch.result st docs)) := by
    intro l
    induction l with
    | nil => rfl
    | cons e l ih =>
      obtain ⟨k, v⟩ := e
      unfold SState.scores at ih ⊢
      rw [List.map_cons, get?_cons, get?_cons, ih]
      split <;> rfl
  rw [hmap, ho']
  rfl

/-- at the end. -/
theorem collects_result {R : Query F → LStats → GoMap String Field → Prop} {s : DReq F} (h : Collects R s) {l : Scores F} (hl : s.result = some l) :
    ∃ answers : List (Answer F), (answers.map Answer.query).Perm s.query ∧ (∀ a ∈ answers, R a.query a.stats a.docs) ∧ Merges answers l ∧ ∃ order, SortSlice order l := by
  obtain ⟨res, got, chan', h1, h3, h4, h5, h6⟩ := h.main
  obtain ⟨hc, hch, order, ho, hs⟩ := h.res l hl
  have hsent := h.closed hc
  rw [hch] at h4
  have hch' : chan' = [] := by cases chan' with
    | nil => rfl
    | cons e c => cases h4
  subst hch'
  rw [List.append_nil] at h5
  have hlen : res.length = s.threads.length := by
    have := congrArg List.length h1
    simpa using this
  have hall : ∀ e ∈ res, MsgOk R e .sent := by
    intro e he
    obtain ⟨i, hi⟩ := List.getElem?_of_mem he
    have hlt : i < s.threads.length := by
      rw [← hlen]
      exact (List.getElem?_eq_some_iff.1 hi).1
    have ht := List.getElem?_eq_getElem hlt
    have hok := h3 i e _ hi ht
    rw [hsent _ (List.getElem_mem hlt)] at hok
    exact hok
  have hgot : ∀ m ∈ got, ∃ a : Answer F, a.query = m.1 ∧ R a.query a.stats a.docs ∧ ∀ d, scoresOf d m.2 = (a.score d).toList := by
    intro m hm
    have := (h5.mem_iff).1 hm
    unfold msgs at this
    obtain ⟨e, he, hx⟩ := List.mem_filterMap.1 this
    obtain ⟨l', hl', rfl⟩ := Option.map_eq_some_iff.1 hx
    obtain ⟨st, docs, ord, a, b, c, d⟩ := hall e he
    rw [d] at hl'
    cases hl'
    exact ⟨⟨e.1, st, docs⟩, rfl, a, fun d => scoresOf_scores b c d⟩
  have hans : ∃ answers : List (Answer F), answers.map Answer.query = got.map Prod.fst ∧ (∀ a ∈ answers, R a.query a.stats a.docs) ∧
      ∀ d, scoresOf d (got.map Prod.snd).flatten = answers.filterMap (·.score d) := by
    clear h5 h6
    induction got with
    | nil => exact ⟨[], rfl, fun _ h => (by cases h), fun _ => rfl⟩
    | cons m got ih =>
      obtain ⟨as, e1, e2, e3⟩ := ih fun m hm => hgot m (List.mem_cons_of_mem _ hm)
      obtain ⟨a, g1, g2, g3⟩ := hgot m List.mem_cons_self
      refine ⟨a :: as, by simp [e1, g1], ?_, fun d => ?_⟩
      · intro a' ha
        rcases List.mem_cons.1 ha with rfl | ha
        · exact g2
        · exact e2 a' ha
      · have h7 := e3 d
        have h8 := g3 d
        unfold scoresOf at h7 h8 ⊢
        rw [List.map_cons, List.flatten_cons, List.filterMap_append, h7, h8, List.filterMap_cons]
        cases a.score d <;> rfl
  obtain ⟨answers, e1, e2, e3⟩ := hans
  have hwf : s.temp.WF := by rw [h6]; exact addScores_wf _ _ (by simp)
  refine ⟨answers, ?_, e2, ⟨?_, ?_⟩, order, hs⟩
  · rw [e1]
    have hp := h5.map Prod.fst
    rwa [msgs_all res (fun e he => by obtain ⟨_, _, _, _, _, _, hx⟩ := hall e he; rw [hx]; simp), h1] at hp
  · exact ((hs.1.trans ho).map Prod.fst).nodup_iff.2 hwf
  · intro d x
    rw [(hs.1.trans ho).mem_iff, ← get?_eq_some_iff hwf, h6, addScores_get, e3]
    cases hd : answers.filterMap (·.score d) with
    | nil => simp
    | cons v vs =>
      simp only [ne_eq, List.cons_ne_nil, not_false_eq_true, true_and, Option.some.injEq, GoMap.getD, get?_nil, Option.getD_none]
      exact eq_comm

end DReq
end Goir
