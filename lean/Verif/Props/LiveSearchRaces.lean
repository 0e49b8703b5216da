import Verif.Props.LiveSearchNumbers
/-!
# C86, C87 refuted: what saves can do to a search that runs at the same time; C84 for searches
-/
namespace Goir
open Spec CMem Conc

theorem Live.clients {terms : List String} {f : String} {cpus : Nat} {sched : List (Nat × Nat)} {a b : Conc} (h : a.run sched = some b) (q : LSearch) :
    Reaches (Live.Step terms f cpus) ⟨a, q⟩ ⟨b, q⟩ := by
  induction sched generalizing a with
  | nil => cases h; exact .refl _
  | cons ik sched ih =>
    obtain ⟨i, k⟩ := ik
    rw [run_cons] at h
    obtain ⟨a', ha, hb⟩ := Option.bind_eq_some_iff.1 h
    exact (Reaches.single (.client ⟨a, q⟩ a' i k ha)).trans (ih hb)

/-- **C86 is false with two writers.** Two clients save two documents with the same first field. The call of one has returned: GetDocuments lists its document under the term, GetFields returns its field.
Then a search for the term begins; the other client stores its own, empty, map of postings; and the search does not return the document. -/
theorem c86_refuted : ∃ (fl : Field) (progs : List (List StoreOp)) (sched : List (Nat × Nat)) (s₀ : Conc), fl.tf.WF ∧ (Conc.init progs).run sched = some s₀ ∧
    StoreOp.save "a" fl ∈ s₀.returned ∧ "x" ∈ fl.tf.keys ∧
    GoSet.contains (s₀.mem.view.getDocuments fl.name "x").1 "a" = true ∧ (s₀.mem.view.getFields ["a"] fl.name).get? "a" = some fl ∧
    ∀ cpus, 0 < cpus → ∃ s st docs, Reaches (Live.Step ["x"] fl.name cpus) ⟨s₀, .readLen⟩ s ∧ s.search = .done st docs ∧ docs.get? "a" = none := by
  have hrun : ∃ s₀, (Conc.init [[.save "b" ⟨"title", 1, [("x", 1)]⟩], [.save "a" ⟨"title", 1, [("x", 1)]⟩]]).run (List.replicate 8 (0, 0) ++ List.replicate 17 (1, 0)) = some s₀ ∧
      (StoreOp.save "a" ⟨"title", 1, [("x", 1)]⟩ ∈ s₀.returned ∧ GoSet.contains (s₀.mem.view.getDocuments "title" "x").1 "a" = true ∧
      (s₀.mem.view.getFields ["a"] "title").get? "a" = some ⟨"title", 1, [("x", 1)]⟩ ∧
      ((s₀.step 0 0).map fun s₁ => GoSet.contains (s₁.mem.view.getDocuments "title" "x").1 "a") = some false) := exists_of_run (by decide +kernel)
  obtain ⟨s₀, h₀, h1, h2, h3, h4⟩ := hrun
  refine ⟨⟨"title", 1, [("x", 1)]⟩, _, _, s₀, by decide, h₀, h1, by decide, h2, h3, fun cpus hc => ?_⟩
  cases hst : s₀.step 0 0 with
  | none => rw [hst] at h4; cases h4
  | some s₁ =>
    rw [hst] at h4
    simp only [Option.map_some, Option.some.injEq] at h4
    have h₁ := h₀
    have hr1 : (Conc.init [[.save "b" ⟨"title", 1, [("x", 1)]⟩], [.save "a" ⟨"title", 1, [("x", 1)]⟩]]).run ((List.replicate 8 (0, 0) ++ List.replicate 17 (1, 0)) ++ [(0, 0)]) = some s₁ := by
      rw [run_append, h₀]; simp [run_cons, hst, Conc.run]
    obtain ⟨st, docs, hf⟩ := LSearch.finish (terms := ["x"]) (f := "title") (alloc_run hr1) hc .readLen trivial
    refine ⟨⟨s₁, .done st docs⟩, st, docs, (Reaches.single (.client ⟨s₀, .readLen⟩ s₁ 0 0 hst)).trans (Live.lift hf), rfl, ?_⟩
    cases hd : docs.get? "a" with
    | none => rfl
    | some fl' =>
      obtain ⟨⟨t, ht, hx⟩, -⟩ := ((c85_at_rest hr1 hf).1 "a" fl').1 hd
      rw [List.mem_singleton.1 ht, h4] at hx
      cases hx

/-- **C87, that the numbers of a search fit together, is false** already with one client and one call: the search reads the length and the size of the field, both 0; then the call saves the document; then the
search finds it under the term, in a field of which it takes the size to be 0. Its average length is 0/0 and the score of the document is NaN. -/
theorem c87_refuted : ∃ (fl : Field), fl.tf.WF ∧ 0 < fl.length ∧ ∀ cpus, 0 < cpus → ∃ s st docs,
    Reaches (Live.Step ["x"] fl.name cpus) ⟨Conc.init [[.save "a" fl]], .readLen⟩ s ∧ s.search = .done st docs ∧
    st.size = 0 ∧ st.nft.get? "x" = some 1 ∧ docs.get? "a" = some fl ∧
    SState.score (⟨fl.name, .fin 1, ["x"]⟩ : Query XReal) (LSearch.result st docs) fl = .nan := by
  have hrun : ∃ s₁, (Conc.init [[.save "a" ⟨"title", 1, [("x", 1)]⟩]]).run (List.replicate 17 (0, 0)) = some s₁ ∧
      (GoSet.contains (s₁.mem.view.getDocuments "title" "x").1 "a" = true ∧ s₁.mem.stored "a" "title" = some ⟨"title", 1, [("x", 1)]⟩ ∧ s₁.mem.df "title" "x" = 1) := exists_of_run (by decide +kernel)
  obtain ⟨s₁, h₁, h2, h3, h4⟩ := hrun
  refine ⟨⟨"title", 1, [("x", 1)]⟩, by decide, by decide, fun cpus hc => ?_⟩
  let c₀ := Conc.init [[.save "a" ⟨"title", 1, [("x", 1)]⟩]]
  -- the search reads the length and the size
  have e1 : Reaches (Live.Step ["x"] "title" cpus) ⟨c₀, .readLen⟩ ⟨c₀, .readNft { len := 0, size := 0, nft := [] } ["x"]⟩ :=
    ((Reaches.refl _).tail (.search ⟨c₀, .readLen⟩ _ .readLen)).tail (.search ⟨c₀, .readSize _⟩ _ (.readSize _))
  -- the client saves; then the search goes on alone
  obtain ⟨st, docs, hf⟩ := LSearch.finish (terms := ["x"]) (f := "title") (alloc_run h₁) hc (.readNft { len := 0, size := 0, nft := [] } ["x"]) trivial
  have hs := hf.invariant (P := LSearch.StatsRest s₁.mem ["x"] "title" 0 0) ⟨rfl, rfl, [], rfl, fun _ => rfl⟩ fun _ _ h hs => LSearch.statsRest_step h hs
  have hn : st.nft.get? "x" = some 1 := by rw [hs.2.2 "x", h4]; rfl
  refine ⟨⟨s₁, .done st docs⟩, st, docs, (e1.trans (Live.clients h₁ _)).trans (Live.lift hf), rfl, hs.2.1, hn, ?_, ?_⟩
  · exact (LSearch.rest_docs (alloc_run h₁) hf _ _).2 ⟨⟨"x", List.mem_singleton.2 rfl, h2⟩, h3⟩
  · have hdiv0 : GoFloat.div (XReal.fin (GoFloat.ofInt 0 : ℝ)) (XReal.fin (GoFloat.ofInt 0 : ℝ)) = XReal.nan := by
      show XReal.div _ _ = _; simp [XReal.div, XReal.signed, GoFloat.ofInt]
    simp only [SState.score, LSearch.result, hs.1, hs.2.1, x_ofInt]
    rw [hdiv0]
    simp [bm25, bm25Step, xfma]

/-! ### C84 for searches -/

/-- the Go map that the goroutine of a term reads next. -/
def TermG.access : TermG → Option GoObj
  | .look _ => some .index
  | .look2 _ r => some (.idxCell r)
  | .iter _ sr _ _ => some (.setCell sr)
  | _ => none

/-- the Go map that the goroutine of a batch reads next. -/
def BatchG.access : BatchG → Option GoObj
  | .look (_ :: _) _ => some .fieldDocument
  | .look2 _ r _ _ => some (.docCell r)
  | _ => none

/-- one of the Go maps that the goroutines of a search read next. -/
def LSearch.Accesses : LSearch → GoObj → Prop
  | .readLen, o => o = .fieldLength
  | .readSize _, o => o = .fieldSize
  | .readNft _ (_ :: _), o => o = .numberFieldTerm
  | .readTerm _ r _ _, o => o = .nftCell r
  | .phase1 _ fan, o => ∃ g ∈ fan.gs, g.access = some o
  | .phase2 _ fan, o => ∃ g ∈ fan.gs, g.access = some o
  | _, _ => False

/-- the search is about to read a Go map that client `i` is about to write: nothing orders the two accesses. -/
def Live.Races (s : Live) (i : Nat) : Prop :=
  ∃ cl op loc o, s.conc.clients[i]? = some cl ∧ cl.cur = some (op, loc) ∧ loc.access = some (o, true) ∧ s.search.Accesses o

/-- **C84 is false also of one client and one search**, for all of them: whenever a client has a SaveOrUpdate or UpdateIndex call to make, of whatever document and field, and a search of whatever terms and field
begins, there is a schedule in which the search is about to read the Go map that the client is about to write. -/
theorem c84_search_races_refuted (s : Conc) {i : Nat} {cl : CClient} (hi : s.clients[i]? = some cl) (hc : cl.cur = none) (ht : cl.todo ≠ []) (terms : List String) (f : String) (cpus : Nat) :
    ∃ s', Reaches (Live.Step terms f cpus) ⟨s, .readLen⟩ s' ∧ s'.Races i := by
  obtain ⟨a, s1, r1, ⟨cl', op, n, h1, h2⟩, -⟩ := Conc.to_sizeWrite hi hc ht
  refine ⟨⟨s1, _⟩, (Live.clients r1 .readLen).tail (.search ⟨s1, .readLen⟩ _ .readLen), cl', op, _, .fieldSize, h1, h2, rfl, rfl⟩

/-- **C84, what holds of searches**: a search never races while no client is inside a call. (Two searches never race: their accesses are all reads.) -/
theorem c84_search_quiet_partial (s : Live) (quiet : ∀ cl ∈ s.conc.clients, cl.cur = none) (i : Nat) : ¬ s.Races i := by
  rintro ⟨cl, op, loc, o, hi, hc, -⟩
  rw [quiet cl (List.mem_of_getElem? hi)] at hc; cases hc

/-! ### the hypotheses can be met -/

/-- one client writes `title`, one `text`; the first has saved `a` and is in the middle of a second call, the other in the middle of its own. -/
example : ∃ s₀, (Conc.init [[.save "a" ⟨"title", 1, [("x", 1)]⟩, .save "b" ⟨"title", 2, [("x", 2)]⟩], [.save "c" ⟨"text", 1, [("x", 1)]⟩]]).run (List.replicate 25 (0, 0) ++ List.replicate 5 (1, 0)) = some s₀ ∧
    (s₀.returned = [.save "a" ⟨"title", 1, [("x", 1)]⟩] ∧ s₀.begun.length = 3 ∧ lastSaved s₀.returned "a" "title" = some ⟨"title", 1, [("x", 1)]⟩ ∧ termCount s₀.returned "title" "x" = 1) :=
  exists_of_run (by decide +kernel)

/-- the same store: no call on the field or the document in progress (`c86_quiet_start_partial`). -/
example : ∃ s₀, (Conc.init [[.save "a" ⟨"title", 1, [("x", 1)]⟩, .save "b" ⟨"title", 2, [("x", 2)]⟩], [.save "c" ⟨"text", 1, [("x", 1)]⟩]]).run (List.replicate 17 (0, 0) ++ List.replicate 5 (1, 0)) = some s₀ ∧
    (GoSet.contains (s₀.mem.view.getDocuments "title" "x").1 "a" = true ∧ (s₀.mem.view.getFields ["a"] "title").get? "a" = some ⟨"title", 1, [("x", 1)]⟩ ∧
    ∀ cl ∈ s₀.clients, (cl.cur.map fun c => decide (c.1.field.name ≠ "title" ∧ c.1.doc ≠ "a")) ≠ some false) :=
  exists_of_run (by decide +kernel)

/-- a search returns (`c85_live_search_sound`, `c85_at_rest`): from every state of the store. -/
example {progs : List (List StoreOp)} {s₀ : Conc} {sched : List (Nat × Nat)} (h₀ : (Conc.init progs).run sched = some s₀) :
    ∃ st docs, Reaches (Live.Step ["x"] "title" 4) ⟨s₀, .readLen⟩ ⟨s₀, .done st docs⟩ ∧ Reaches (LSearch.Step s₀.mem ["x"] "title" 4) .readLen (.done st docs) := by
  obtain ⟨st, docs, hf⟩ := LSearch.finish (terms := ["x"]) (f := "title") (cpus := 4) (alloc_run h₀) (by decide) .readLen trivial
  exact ⟨st, docs, Live.lift hf, hf⟩

end Goir
