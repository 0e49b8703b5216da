import Verif.Lemmas.Standard
/-!
# Every arrival order of the queries' scores is possible
-/
namespace Goir
open GoMap
variable {F : Type} [GoFloat F] {st : Reads}

theorem perm_map_lift {α β : Type} (f : α → β) {L : List α} {l : List β} (h : l.Perm (L.map f)) : ∃ L' : List α, L'.Perm L ∧ l = L'.map f := by
  induction l generalizing L with
  | nil =>
    have : L = [] := by simpa using (List.nil_perm.1 h)
    exact ⟨[], by rw [this], rfl⟩
  | cons a l ih =>
    obtain ⟨x, hx, rfl⟩ := List.mem_map.1 (h.mem_iff.1 List.mem_cons_self)
    obtain ⟨A, B, rfl⟩ := List.append_of_mem hx
    have h1 : l.Perm ((A ++ B).map f) := by
      have : (f x :: l).Perm (f x :: (A ++ B).map f) :=
        h.trans ((List.perm_middle (l₁ := A) (l₂ := B) (a := x)).map f)
      exact (List.perm_cons _).1 this
    obtain ⟨L', h2, rfl⟩ := ih h1
    exact ⟨x :: L', (h2.cons x).trans List.perm_middle.symm, rfl⟩

theorem scoresOf_flatten {got : List (Query F × Scores F)} (hgot : ∀ m ∈ got, GoodScores st m.1 m.2) (d : String) :
    scoresOf d (got.map Prod.snd).flatten = docScores st (got.map Prod.fst) d := by
  induction got with
  | nil => rfl
  | cons m got ih =>
    have ih := ih fun m hm => hgot m (List.mem_cons_of_mem _ hm)
    have hg := scoresOf_good (hgot m List.mem_cons_self) d
    unfold scoresOf docScores at *
    rw [List.map_cons, List.flatten_cons, List.filterMap_append, ih, hg, List.map_cons, List.filterMap_cons]
    cases queryScore st m.1 d <;> rfl

/-- the goroutine of query `i` runs alone. -/
theorem inner_alone {query : List (Query F)} {cpus : Nat} {s : SState F} {i : Nat} {q : Query F} {t t' : IState F} (hq : query[i]? = some q)
    (ht : s.threads[i]? = some (.running t)) (h : Reaches (IState.Step st q.terms q.fieldName cpus) t t') :
    Reaches (SState.Step st query cpus) s { s with threads := s.threads.set i (.running t') } := by
  obtain ⟨k, h⟩ := h
  have hlt : i < s.threads.length := (List.getElem?_eq_some_iff.1 ht).1
  have hself : s.threads.set i (.running t) = s.threads := by
    apply List.ext_getElem?
    intro j
    by_cases hj : i = j
    · subst hj; rw [List.getElem?_set_self hlt, ht]
    · rw [List.getElem?_set_ne hj]
  generalize hs : t = t0 at h
  induction h with
  | refl => subst hs; rw [hself]; exact Reaches.refl _
  | tail _ hstep ih =>
    rename_i u v _
    have := SState.Step.inner (st := st) (query := query) (cpus := cpus) { s with threads := s.threads.set i (.running u) } i q u v hq
      (by show (s.threads.set i _)[i]? = _; rw [List.getElem?_set_self hlt]) hstep
    have e : (s.threads.set i (QState.running u)).set i (.running v) = s.threads.set i (.running v) := List.set_set ..
    simp only [e] at this
    exact (ih hs).tail this

/-- the goroutines run one after the other, in the order of `is`, and the main goroutine receives each one's scores at once. -/
theorem one_by_one (hst : st.Consistent) {query : List (Query F)} {cpus : Nat} (hc : 0 < cpus) (is : List (Query F × Nat)) (hn : (is.map Prod.snd).Nodup)
    (s : SState F) (hch : s.chan = []) (h : ∀ e ∈ is, query[e.2]? = some e.1 ∧ s.threads[e.2]? = some (.running (IState.start st e.1.terms e.1.fieldName cpus))) :
    ∃ (s' : SState F) (got : List (Query F × Scores F)), Reaches (SState.Step st query cpus) s s' ∧ s'.chan = [] ∧ s'.closed = s.closed ∧ s'.result = s.result ∧
      got.map Prod.fst = is.map Prod.fst ∧ (∀ m ∈ got, GoodScores st m.1 m.2) ∧ s'.temp = (got.map Prod.snd).flatten.foldl SState.addScore s.temp ∧
      s'.threads.length = s.threads.length ∧
      ∀ j t, s'.threads[j]? = some t → (j ∈ is.map Prod.snd ∧ t = .sent) ∨ (j ∉ is.map Prod.snd ∧ s.threads[j]? = some t) := by
  induction is generalizing s with
  | nil => exact ⟨s, [], Reaches.refl _, hch, rfl, rfl, rfl, by simp, rfl, rfl, fun j t ht => .inr ⟨by simp, ht⟩⟩
  | cons e is ih =>
    obtain ⟨q, i⟩ := e
    obtain ⟨hq, ht⟩ := h (q, i) List.mem_cons_self
    simp only at hq ht
    have hlt : i < s.threads.length := (List.getElem?_eq_some_iff.1 ht).1
    have hqlt : i < query.length := (List.getElem?_eq_some_iff.1 hq).1
    rw [List.map_cons, List.nodup_cons] at hn
    -- run
    obtain ⟨u, hu, r, rfl⟩ := exists_finished (P := IInv st (fun f t d => st.has f t d = true) st.fieldOf q.terms q.fieldName cpus)
      (fun s => ∃ r, s = .done r) (iμ st q.terms q.fieldName) (fun _ _ hp hs => iinv_step (coherent_of hst) hp hs)
      (fun _ _ hp hs => iμ_step (coherent_of hst) hp hs) (fun s hp hd => i_progress hc hp fun r e => hd ⟨r, e⟩)
      (IState.start st q.terms q.fieldName cpus : IState F) (iinv_start q.terms q.fieldName cpus)
    have hgood : GoodResult st (fun f t d => st.has f t d = true) st.fieldOf q.terms q.fieldName r :=
      Reaches.invariant (P := IInv st (fun f t d => st.has f t d = true) st.fieldOf q.terms q.fieldName cpus) hu
        (iinv_start q.terms q.fieldName cpus) (fun _ _ hp hs => iinv_step (coherent_of hst) hp hs)
    have h1 := inner_alone hq ht hu
    -- send
    have h2 := h1.tail (SState.Step.send { s with threads := s.threads.set i (.running (.done r)) } i q r r.fieldDocuments hq
      (by show (s.threads.set i _)[i]? = _; rw [List.getElem?_set_self hlt]) (List.Perm.refl _) (by simp only [hch, List.length_nil]; omega))
    -- receive
    have h3 := h2.tail (SState.Step.recv _ (SState.scores q r r.fieldDocuments) [] (by simp only [hch, List.nil_append]))
    have e : (s.threads.set i (QState.running (.done r))).set i .sent = s.threads.set i .sent := List.set_set ..
    simp only [e] at h3
    obtain ⟨s', got, g1, g2, g3, g4, g5, g6, g7, g8, g9⟩ := ih hn.2
      { s with threads := s.threads.set i .sent, chan := [], temp := (SState.scores q r r.fieldDocuments).foldl SState.addScore s.temp } rfl
      (fun x hx => by
        obtain ⟨a1, a2⟩ := h x (List.mem_cons_of_mem _ hx)
        refine ⟨a1, ?_⟩
        show (s.threads.set i _)[x.2]? = _
        rw [List.getElem?_set_ne, a2]
        intro he
        have := List.mem_map_of_mem (f := Prod.snd) hx
        rw [← he] at this
        exact hn.1 this)
    refine ⟨s', (q, SState.scores q r r.fieldDocuments) :: got, h3.trans g1, g2, g3, g4, by rw [List.map_cons, List.map_cons, g5], ?_, ?_, ?_, ?_⟩
    · intro m hm
      rcases List.mem_cons.1 hm with rfl | hm
      · exact good_scores hgood (List.Perm.refl _)
      · exact g6 m hm
    · rw [g7, List.map_cons, List.flatten_cons, List.foldl_append]
    · rw [g8]; exact List.length_set ..
    · intro j t hj
      rcases g9 j t hj with ⟨a, b⟩ | ⟨a, b⟩
      · exact .inl ⟨by rw [List.map_cons]; exact List.mem_cons_of_mem _ a, b⟩
      · have b : (s.threads.set i _)[j]? = some t := b
        by_cases hij : i = j
        · subst hij
          rw [List.getElem?_set_self hlt] at b
          cases b
          exact .inl ⟨by simp, rfl⟩
        · rw [List.getElem?_set_ne hij] at b
          refine .inr ⟨?_, b⟩
          rw [List.map_cons, List.mem_cons]
          intro h
          rcases h with rfl | h
          · exact hij rfl
          · exact a h

/-- for every order of the queries there is a run of Search in which their scores arrive in that order. -/
theorem every_order (hst : st.Consistent) (query : List (Query F)) {cpus : Nat} (hc : 0 < cpus) {qs : List (Query F)} (hp : qs.Perm query) :
    ∃ l, SState.Returns st query cpus l ∧
      ∀ d x, (d, x) ∈ l ↔ docScores st qs d ≠ [] ∧ x = (docScores st qs d).foldl GoFloat.add (GoFloat.lit 0) := by
  have hz : query.zipIdx.map Prod.fst = query := List.zipIdx_map_fst ..
  obtain ⟨is, h1, rfl⟩ := perm_map_lift Prod.fst (L := query.zipIdx) (l := qs) (by rw [hz]; exact hp)
  have hidx : (is.map Prod.snd).Perm (List.range query.length) := by
    have := h1.map Prod.snd
    rwa [List.zipIdx_map_snd, ← List.range_eq_range'] at this
  obtain ⟨s', got, g1, g2, g3, g4, g5, g6, g7, g8, g9⟩ := one_by_one hst hc is (hidx.nodup_iff.2 List.nodup_range) (SState.start st query cpus) rfl
    (fun e he => by
      have := (h1.mem_iff).1 he
      have hq : query[e.2]? = some e.1 := by
        have := List.mem_zipIdx_iff_getElem?.1 this
        exact this
      refine ⟨hq, ?_⟩
      show (query.map _)[e.2]? = _
      rw [List.getElem?_map, hq]; rfl)
  have hsent : ∀ t ∈ s'.threads, t = .sent := by
    intro t ht
    obtain ⟨j, hj⟩ := List.getElem?_of_mem ht
    rcases g9 j t hj with ⟨-, b⟩ | ⟨a, -⟩
    · exact b
    · refine absurd (hidx.mem_iff.2 (List.mem_range.2 ?_)) a
      have := (List.getElem?_eq_some_iff.1 hj).1
      rw [g8] at this
      simpa [SState.start] using this
  have h4 := g1.tail (SState.Step.close s' hsent g3)
  obtain ⟨l, hl⟩ := exists_sortSlice (s'.temp : Scores F)
  have h5 := h4.tail (SState.Step.return_ { s' with closed := true } s'.temp l ⟨rfl, g2⟩ g4 (List.Perm.refl _) hl)
  refine ⟨l, ⟨_, h5, rfl⟩, fun d x => ?_⟩
  have ht : s'.temp = (got.map Prod.snd).flatten.foldl SState.addScore [] := g7
  have hwf : s'.temp.WF := by rw [ht]; exact addScores_wf _ _ (by simp)
  rw [hl.1.mem_iff, ← get?_eq_some_iff hwf, ht, addScores_get, scoresOf_flatten g6, g5]
  cases hd : docScores st (is.map Prod.fst) d with
  | nil => simp
  | cons v vs =>
    simp only [ne_eq, List.cons_ne_nil, not_false_eq_true, true_and, Option.some.injEq, GoMap.getD, get?_nil, Option.getD_none]
    exact eq_comm

end Goir
