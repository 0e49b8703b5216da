import Verif.Props.ServerEnds
import Verif.Props.ServerRest
/-!
# C100 and C103 in terms of the queries that a search was called with
-/
namespace Goir
open Spec CDisk
variable {F : Type} [GoFloat F]

/-- the goroutines of a search are those of the queries it was called with. -/
theorem Server.asked {allow : CDisk.Act → Prop} {cpus : Nat} {s₂ s : Server F} {query : List (Query F)}
    (h : Reaches (Server.UpStep allow cpus) { s₂ with reqs := s₂.reqs ++ [DReq.start query] } s) {r : DReq F} (hr : s.reqs[s₂.reqs.length]? = some r) : r.threads.map Prod.fst = query := by
  have h0 : Server.queries s₂.reqs.length { s₂ with reqs := s₂.reqs ++ [DReq.start query] } = some query := by
    unfold Server.queries
    simp [DReq.query, DReq.start, Function.comp_def]
  have := h.invariant (P := fun s => Server.queries s₂.reqs.length s = some query) h0 fun a b hq hs => Server.queries_step hq hs.2 hs.1
  unfold Server.queries at this
  rw [hr] at this
  exact Option.some.inj this

/-- **C100, in terms of the call.** A search is called with `query` while the server handles any other requests, and it returns `l` in the same process: `l` merges one answer per query that it was called with, and
every answer tells only of what the calls that have begun were given. -/
theorem c100_asked {allow : CDisk.Act → Prop} {cpus : Nat} {s₂ s : Server F} (h1 : Reaches (Server.Step allow cpus) ({} : Server F) s₂) (hu : s₂.disk.up = true) {query : List (Query F)}
    (h2 : Reaches (Server.UpStep allow cpus) { s₂ with reqs := s₂.reqs ++ [DReq.start query] } s) (gv : GoValues s.disk.hist) {r : DReq F} (hr : s.reqs[s₂.reqs.length]? = some r) {l : Scores F} (hl : r.result = some l) :
    ∃ answers : List (Answer F), (answers.map Answer.query).Perm query ∧ (∀ a ∈ answers, Truthful s.disk.hist a) ∧ Merges answers l := by
  have h : Reaches (Server.Step allow cpus) ({} : Server F) s :=
    (h1.tail (.arrive s₂ query hu)).trans (h2.invariant (P := fun x => Reaches (Server.Step allow cpus) _ x) (.refl _) fun a b ih hs => ih.tail hs.1)
  have e := Server.asked h2 hr
  obtain ⟨as, a1, a2⟩ := c100_server_search_sound h gv (List.mem_of_getElem? hr) hl
  exact ⟨as, e ▸ a1, a2⟩

/-- **C103, in terms of the call.** -/
theorem c103_asked {allow : CDisk.Act → Prop} {cpus : Nat} {s₁ s₂ s : Server F} (h1 : Reaches (Server.Step allow cpus) ({} : Server F) s₁) (hd : s₁.disk.up = false) (gv : GoValues s₁.disk.hist)
    (h2 : Reaches (Server.Step Server.OnlyReads cpus) s₁ s₂) (hu : s₂.disk.up = true) {query : List (Query F)}
    (h3 : Reaches (Server.UpStep Server.OnlyReads cpus) { s₂ with reqs := s₂.reqs ++ [DReq.start query] } s) {r : DReq F} (hr : s.reqs[s₂.reqs.length]? = some r) {l : Scores F} (hl : r.result = some l) :
    (l.map Prod.fst).Nodup ∧ ∃ qs : List (Query F), qs.Perm query ∧
      ∀ d x, (d, x) ∈ l ↔ docScores (s.disk.readsOf s₁.disk.onDisk) qs d ≠ [] ∧ x = (docScores (s.disk.readsOf s₁.disk.onDisk) qs d).foldl GoFloat.add (GoFloat.lit 0) := by
  have h : Reaches (Server.Step Server.OnlyReads cpus) s₁ s :=
    (h2.tail (.arrive s₂ query hu)).trans (h3.invariant (P := fun x => Reaches (Server.Step Server.OnlyReads cpus) _ x) (.refl _) fun a b ih hs => ih.tail hs.1)
  have e := Server.asked h3 hr
  obtain ⟨a0, qs, a1, a2⟩ := c103_searches_do_not_interfere h1 hd gv h (List.mem_of_getElem? hr) hl
  exact ⟨a0, qs, e ▸ a1, a2⟩

/-- **C103, for GET /nir.** The handler's search has two queries, so no order of additions is left: if only `(0 + a) + b = (0 + b) + a` is known of addition, which holds of float64, the scores are determined by the store alone. -/
theorem c103_get (hcomm : ∀ a b : F, GoFloat.add (GoFloat.add (GoFloat.lit 0) a) b = GoFloat.add (GoFloat.add (GoFloat.lit 0) b) a)
    {allow : CDisk.Act → Prop} {cpus : Nat} {s₁ s₂ s : Server F} (h1 : Reaches (Server.Step allow cpus) ({} : Server F) s₁) (hd : s₁.disk.up = false) (gv : GoValues s₁.disk.hist)
    (h2 : Reaches (Server.Step Server.OnlyReads cpus) s₁ s₂) (hu : s₂.disk.up = true) {terms : List String}
    (h3 : Reaches (Server.UpStep Server.OnlyReads cpus) { s₂ with reqs := s₂.reqs ++ [DReq.start (Http.queries terms)] } s) {r : DReq F} (hr : s.reqs[s₂.reqs.length]? = some r) {l : Scores F} (hl : r.result = some l) (d : String) (x : F) :
    (d, x) ∈ l ↔ docScores (s.disk.readsOf s₁.disk.onDisk) (Http.queries (F := F) terms) d ≠ [] ∧ x = (docScores (s.disk.readsOf s₁.disk.onDisk) (Http.queries (F := F) terms) d).foldl GoFloat.add (GoFloat.lit 0) := by
  obtain ⟨-, qs, p, e⟩ := c103_asked h1 hd gv h2 hu h3 hr hl
  rw [e]
  have hp := docScores_perm (st := s.disk.readsOf s₁.disk.onDisk) (p :) d
  have hlen : (docScores (s.disk.readsOf s₁.disk.onDisk) (Http.queries (F := F) terms) d).length ≤ 2 := by
    unfold docScores
    exact (List.length_filterMap_le _ _).trans (by simp [Http.queries])
  have hfold : ∀ {a b : List F}, a.Perm b → b.length ≤ 2 → a.foldl GoFloat.add (GoFloat.lit (F := F) 0) = b.foldl GoFloat.add (GoFloat.lit 0) := by
    intro a b hab hb
    match b, hb with
    | [], _ => rw [List.perm_nil.1 hab]
    | [y], _ => rw [List.perm_singleton.1 hab]
    | [y, z], _ =>
      have h2 : a.length = 2 := hab.length_eq
      obtain ⟨u, v, rfl⟩ := List.length_eq_two.1 h2
      have hu : u ∈ [y, z] := hab.mem_iff.1 (by simp)
      simp only [List.foldl_cons, List.foldl_nil]
      rcases List.mem_cons.1 hu with rfl | hu
      · have := (List.perm_cons _).1 hab
        rw [List.singleton_perm_singleton.1 this]
      · have hu : u = z := by simpa using hu
        subst hu
        have := (List.perm_cons u).1 (hab.trans (List.Perm.swap u y []))
        rw [List.singleton_perm_singleton.1 this, hcomm]
  rw [hfold hp hlen, ne_eq, ne_eq, perm_nil_iff hp]

end Goir
