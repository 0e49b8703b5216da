import Verif.Props.LiveSearchOwn
/-!
# C85–C87: a search while no client moves; and what goes wrong when several write
-/
namespace Goir
open Spec CMem Conc

namespace LSearch

/-- the store lists `d` under one of the terms. -/
def Listed (m : CMem) (terms : List String) (f d : String) : Prop := ∃ t ∈ terms, GoSet.contains (m.view.getDocuments f t).1 d = true

/-- the goroutine of a term, on a store at rest. -/
def TermRest (m : CMem) (terms : List String) (f : String) : TermG → Prop
  | .waiting t => t ∈ terms
  | .look t => t ∈ terms
  | .look2 t r => t ∈ terms ∧ m.index.get? f = some r
  | .iter t sr _ _ => t ∈ terms ∧ m.lookup f t = some sr
  | .sending t sr _ _ id => t ∈ terms ∧ m.lookup f t = some sr ∧ Listed m terms f id
  | .leaving => True
  | .done => True

/-- the goroutine of a batch, on a store at rest. -/
def BatchRest (m : CMem) (terms : List String) (f : String) : BatchG → Prop
  | .waiting ids => ∀ id ∈ ids, Listed m terms f id
  | .look ids fields => (∀ id ∈ ids, Listed m terms f id) ∧ ∀ e ∈ fields, Listed m terms f e.1 ∧ m.stored e.1 f = some e.2
  | .look2 id r ids fields => m.fieldDocument.get? id = some r ∧ Listed m terms f id ∧ (∀ id ∈ ids, Listed m terms f id) ∧ ∀ e ∈ fields, Listed m terms f e.1 ∧ m.stored e.1 f = some e.2
  | .sending rem => ∀ e ∈ rem, Listed m terms f e.1 ∧ m.stored e.1 f = some e.2
  | .done => True

/-- a search on a store at rest. -/
def Rest (m : CMem) (terms : List String) (f : String) : LSearch → Prop
  | .phase1 _ fan => (∀ g ∈ fan.gs, TermRest m terms f g) ∧ ∀ x ∈ fan.chan ++ fan.out, Listed m terms f x
  | .phase2 _ fan => (∀ g ∈ fan.gs, BatchRest m terms f g) ∧ ∀ x ∈ fan.chan ++ fan.out, Listed m terms f x.1 ∧ m.stored x.1 f = some x.2
  | .done _ docs => ∀ d fl, docs.get? d = some fl → Listed m terms f d ∧ m.stored d f = some fl
  | _ => True

theorem term_rest {m : CMem} {terms : List String} {f : String} (g : TermG) (a : GAct String) (g' : TermG) (h : TermRest m terms f g) (ha : TermG.Act m f g a g') :
    TermRest m terms f g' ∧ ∀ x, a = .emit x → Listed m terms f x := by
  cases ha with
  | acquire t => exact ⟨h, by rintro x ⟨⟩⟩
  | found t r hr => exact ⟨⟨h, hr⟩, by rintro x ⟨⟩⟩
  | unknown t hr => exact ⟨trivial, by rintro x ⟨⟩⟩
  | found2 t r sr hr => exact ⟨⟨h.1, by unfold CMem.lookup; rw [h.2]; exact hr⟩, by rintro x ⟨⟩⟩
  | unknown2 t r hr => exact ⟨trivial, by rintro x ⟨⟩⟩
  | next t sr must seen id hk hs =>
    exact ⟨⟨h.1, h.2, t, h.1, (view_contains _ _ _ _).2 ⟨sr, h.2, (GoSet.contains_iff_mem_keys _ _).2 hk⟩⟩, by rintro x ⟨⟩⟩
  | send t sr must seen id => exact ⟨⟨h.1, h.2.1⟩, by rintro x ⟨⟩; exact h.2.2⟩
  | end_ t sr must seen hx => exact ⟨trivial, by rintro x ⟨⟩⟩
  | release => exact ⟨trivial, by rintro x ⟨⟩⟩

theorem batch_rest {m : CMem} {terms : List String} {f : String} (g : BatchG) (a : GAct (String × Field)) (g' : BatchG) (h : BatchRest m terms f g) (ha : BatchG.Act m f g a g') :
    BatchRest m terms f g' ∧ ∀ x, a = .emit x → Listed m terms f x.1 ∧ m.stored x.1 f = some x.2 := by
  cases ha with
  | acquire ids => exact ⟨⟨h, by rintro e ⟨⟩⟩, by rintro x ⟨⟩⟩
  | found id ids fields r hr => exact ⟨⟨hr, h.1 _ List.mem_cons_self, fun i hi => h.1 i (List.mem_cons_of_mem _ hi), h.2⟩, by rintro x ⟨⟩⟩
  | unknown id ids fields hr => exact ⟨⟨fun i hi => h.1 i (List.mem_cons_of_mem _ hi), h.2⟩, by rintro x ⟨⟩⟩
  | found2 id r ids fields fl hr =>
    refine ⟨⟨h.2.2.1, fun e he => ?_⟩, by rintro x ⟨⟩⟩
    rcases GoMap.mem_set he with rfl | he
    · exact ⟨h.2.1, by unfold CMem.stored; rw [h.1]; exact hr⟩
    · exact h.2.2.2 e he
  | unknown2 id r ids fields hr => exact ⟨⟨h.2.2.1, h.2.2.2⟩, by rintro x ⟨⟩⟩
  | range fields rem hp => exact ⟨fun e he => h.2 e (hp.mem_iff.1 he), by rintro x ⟨⟩⟩
  | send e rem => exact ⟨fun e' he => h e' (List.mem_cons_of_mem _ he), by rintro x ⟨⟩; exact h _ List.mem_cons_self⟩
  | release => exact ⟨trivial, by rintro x ⟨⟩⟩

theorem rest_step {m : CMem} {terms : List String} {f : String} {cpus : Nat} {q q' : LSearch} (h : Rest m terms f q) (hs : Step m terms f cpus q q') : Rest m terms f q' := by
  cases hs with
  | begin1 st =>
    refine ⟨?_, by simp⟩
    intro g hg
    obtain ⟨t, ht, rfl⟩ := List.mem_map.1 hg
    exact ht
  | p1 st s s' hx => exact LFan.step_all term_rest hx h
  | begin2 st s hf =>
    refine ⟨?_, by simp⟩
    intro g hg
    obtain ⟨ids, hb, rfl⟩ := List.mem_map.1 hg
    intro id hid
    exact h.2 id (List.mem_append_right _ ((mem_makeBatches _ _).1 ⟨ids, hb, hid⟩))
  | p2 st s s' hx => exact LFan.step_all batch_rest hx h
  | finish st s hf => exact fun d fl e => h.2 _ (List.mem_append_right _ (collect_sound e))
  | _ => trivial

/-- the numbers of a search on a store at rest, given those it read before. -/
def StatsRest (m : CMem) (terms : List String) (f : String) (len size : Int) : LSearch → Prop
  | .readLen => m.fieldLength.getD f 0 = len ∧ m.fieldSize.getD f 0 = size
  | .readSize st => st.len = len ∧ m.fieldSize.getD f 0 = size ∧ st.nft = []
  | .readNft st todo => st.len = len ∧ st.size = size ∧ ∃ did, terms = did ++ todo ∧ ∀ t, st.nft.get? t = if t ∈ did then some (m.df f t) else none
  | .readTerm st r t todo => st.len = len ∧ st.size = size ∧ m.numberFieldTerm.get? f = some r ∧
      ∃ did, terms = did ++ t :: todo ∧ ∀ t, st.nft.get? t = if t ∈ did then some (m.df f t) else none
  | .phase1 st _ => st.len = len ∧ st.size = size ∧ ∀ t, st.nft.get? t = if t ∈ terms then some (m.df f t) else none
  | .phase2 st _ => st.len = len ∧ st.size = size ∧ ∀ t, st.nft.get? t = if t ∈ terms then some (m.df f t) else none
  | .done st _ => st.len = len ∧ st.size = size ∧ ∀ t, st.nft.get? t = if t ∈ terms then some (m.df f t) else none

theorem statsRest_step {m : CMem} {terms : List String} {f : String} {cpus : Nat} {len size : Int} {q q' : LSearch} (h : StatsRest m terms f len size q) (hs : Step m terms f cpus q q') :
    StatsRest m terms f len size q' := by
  have add : ∀ {nft : GoMap String Int} {did : List String} (t : String), (∀ x, nft.get? x = if x ∈ did then some (m.df f x) else none) →
      ∀ x, (nft.set t (m.df f t)).get? x = if x ∈ did ++ [t] then some (m.df f x) else none := by
    intro nft did t h x
    rw [GoMap.get?_set]
    by_cases e : t = x
    · subst e; simp
    · rw [if_neg e, h x]; simp [Ne.symm e]
  cases hs with
  | readLen => exact ⟨h.1, h.2, rfl⟩
  | readSize st => exact ⟨h.1, h.2.1, [], rfl, fun t => by show GoMap.get? st.nft t = _; rw [h.2.2]; rfl⟩
  | nftFound st t ts r hr => obtain ⟨h1, h2, h3⟩ := h; exact ⟨h1, h2, hr, h3⟩
  | nftUnknown st t ts hr =>
    obtain ⟨h1, h2, did, h3, h4⟩ := h
    refine ⟨h1, h2, did ++ [t], by simp [h3], ?_⟩
    have e : m.df f t = 0 := by unfold CMem.df; rw [hr]; rfl
    have := add t h4
    rwa [e] at this
  | readTerm st r t ts =>
    obtain ⟨h1, h2, hr, did, h3, h4⟩ := h
    refine ⟨h1, h2, did ++ [t], by simp [h3], ?_⟩
    have e : m.df f t = (m.nftCells r).getD t 0 := by unfold CMem.df; rw [hr]; rfl
    have := add t h4
    rwa [e] at this
  | begin1 st =>
    obtain ⟨h1, h2, did, h3, h4⟩ := h
    rw [List.append_nil] at h3
    subst h3
    exact ⟨h1, h2, h4⟩
  | p1 st s s' hx => exact h
  | begin2 st s hf => exact h
  | p2 st s s' hx => exact h
  | finish st s hf => exact h

/-- what a search on a store at rest returns, wherever it began. -/
theorem rest_docs {m : CMem} (hal : Alloc m) {terms : List String} {f : String} {cpus : Nat} {st : LStats} {ts : List String} {st' : LStats} {docs : GoMap String Field}
    (h : Reaches (Step m terms f cpus) (.readNft st ts) (.done st' docs)) (d : String) (fl : Field) :
    docs.get? d = some fl ↔ Listed m terms f d ∧ m.stored d f = some fl := by
  have key := (h.invariant (P := Rest m terms f) trivial fun _ _ h hs => rest_step h hs)
  refine ⟨fun e => key d fl e, ?_⟩
  rintro ⟨⟨t, ht, hl⟩, hst⟩
  obtain ⟨sr, h1, h2⟩ := (view_contains _ _ _ _).1 hl
  obtain ⟨r, h3, h4⟩ := Option.bind_eq_some_iff.1 h1
  obtain ⟨rd, h5, h6⟩ := Option.bind_eq_some_iff.1 hst
  let s : Conc := { mem := m }
  have hp : KeepPost f t d r sr s := ⟨hal _ _ _ h4, h3, h4, h2, by rintro cl ⟨⟩, by rintro cl ⟨⟩⟩
  have hk : KeepDoc s d f fl rd s := ⟨Nat.le_refl _, h5, ⟨fl, h6, .inl rfl⟩, by rintro cl ⟨⟩, by rintro cl ⟨⟩⟩
  have hw : Will s s d f t fl r sr rd (.done st' docs) :=
    h.invariant (P := Will s s d f t fl r sr rd) trivial fun _ _ h hs => will_step ht hp hk h hs
  obtain ⟨fl', g1, g2⟩ := hw
  obtain ⟨-, g3⟩ := key d fl' g1
  rw [hst] at g3; cases g3
  exact g1

end LSearch

/-- **C85, C87 while no client moves.** From any moment of any run, if the clients make no step during the search, it returns exactly the documents that GetDocuments lists under one of the terms and for which
GetFields has the field, with that field; and its numbers are those that the store answers. (This is what C58 says of a store that was never written to concurrently.) -/
theorem c85_at_rest {progs : List (List StoreOp)} {s : Conc} {sched : List (Nat × Nat)} (h₀ : (Conc.init progs).run sched = some s) {terms : List String} {f : String} {cpus : Nat}
    {st : LStats} {docs : GoMap String Field} (h : Reaches (LSearch.Step s.mem terms f cpus) .readLen (.done st docs)) :
    (∀ d fl, docs.get? d = some fl ↔ (∃ t ∈ terms, GoSet.contains (s.mem.view.getDocuments f t).1 d = true) ∧ (s.mem.view.getFields [d] f).get? d = some fl) ∧
    st.len = s.mem.view.getFieldLength f ∧ st.size = s.mem.view.getFieldSize f ∧ ∀ t, st.nft.get? t = (s.mem.view.getNumberFieldTerm f terms).get? t := by
  obtain ⟨st1, hr⟩ : ∃ st1, Reaches (LSearch.Step s.mem terms f cpus) (.readNft st1 terms) (.done st docs) := by
    have := h.invariant (P := fun q => q = .readLen ∨ (∃ st1, q = .readSize st1) ∨ ∃ st1, Reaches (LSearch.Step s.mem terms f cpus) (.readNft st1 terms) q) (.inl rfl) (by
      rintro q q' (rfl | ⟨st1, rfl⟩ | ⟨st1, hr⟩) hs
      · cases hs with | readLen => exact .inr (.inl ⟨_, rfl⟩)
      · cases hs with | readSize => exact .inr (.inr ⟨_, .refl _⟩)
      · exact .inr (.inr ⟨st1, hr.tail hs⟩))
    rcases this with e | ⟨_, e⟩ | h
    · cases e
    · cases e
    · exact h
  have stats := h.invariant (P := LSearch.StatsRest s.mem terms f (s.mem.fieldLength.getD f 0) (s.mem.fieldSize.getD f 0)) ⟨rfl, rfl⟩ fun _ _ h hs => LSearch.statsRest_step h hs
  refine ⟨fun d fl => ?_, stats.1, stats.2.1, fun t => ?_⟩
  · rw [LSearch.rest_docs (alloc_run h₀) hr, view_getFields]
    simp only [List.mem_singleton, if_true]
    rfl
  · rw [view_nft]; exact stats.2.2 t

end Goir
