import Verif.Props.OpeningKill
import Verif.Props.FolderServer
/-!
# C130: the searches after the kills
-/
namespace Goir
open GoMap Spec Spec.Opening

open Opening BDisk

/-- Any number of processes that only read have opened the folder and have been killed, none of them while an index file was missing: the next process answers every search - any number side by side, with reading clients and the background merge - by
what the files of the folder said before the first of them. -/
theorem c130_search_partial {F : Type} [GoFloat F] {root : Path} {z : Bytes → Bytes} {t s s₀ : BDisk} {as : List CDisk.Act} {k : Nat} {n : Int} {progs : List (List DOp)} (h0 : Tree root t.fs) (hz : ∀ d, Gz.Written d (z d))
    (hr : t.kill.run z root as = some s) (hor : ∀ a ∈ as, OnlyReads a) (hw : NoneMissing z root t as) (hs : AllThere z root t as s)
    (ho : ∀ p ∈ progs, ∀ op ∈ p, ∃ ids name, op = DOp.getFields ids name) (h : s.kill.run z root (opening k n progs) = some s₀) (hu : s₀.d.up = true) :
    ∃ st : Reads, Answers t.fs root st ∧ st.Consistent ∧ ∀ (cpus : Nat) (s : BServer F), Reaches (BServer.UpStep z root OnlyReads cpus) { disk := s₀ } s → ∀ r ∈ s.reqs, ∀ l : Scores F, r.result = some l →
      (l.map Prod.fst).Nodup ∧ ∃ qs : List (Query F), qs.Perm r.query ∧ ∀ d, PlainName d → ∀ x, (d, x) ∈ l ↔ docScores st qs d ≠ [] ∧ x = (docScores st qs d).foldl GoFloat.add (GoFloat.lit 0) := by
  obtain ⟨st, ha, hc, hx⟩ := c129_search (F := F) (run_calm h0 hr hor).folder.tree hz ho h hu
  obtain ⟨e1, e2, e3, -⟩ := c130_numbers h0 hz hr hor
  refine ⟨st, ⟨fun f term d => ?_, fun ids f d hp fd => ?_, fun f => ?_, fun f terms term ht => ?_⟩, hc, hx⟩
  · rw [ha.documents]
    rcases c130_kept_partial h0 hz hr hor hw f with hk | ⟨hn, ⟨as0, as1, s1, b, e, h1, hb⟩, -⟩
    · exact hk term d
    · obtain ⟨b', hb'⟩ := hs as0 as1 s1 f b e h1 hb
      rw [hn] at hb'; cases hb'
  · rw [ha.fields ids f d hp fd, e3]
  · have := ha.metrics f
    simp only [e1] at this
    exact this
  · have := ha.counts f terms term ht
    simp only [e2] at this
    exact this

end Goir
