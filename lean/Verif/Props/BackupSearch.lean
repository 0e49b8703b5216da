import Verif.Props.BackupCases
import Verif.Props.FolderServer
/-!
# C132: the searches over the copy
-/
namespace Goir
open GoMap Spec Spec.Opening Spec.Backup Opening

namespace Shared
open BDisk

/-- … and it answers every search - any number side by side, with reading clients and the background merge - by what the folder said before the first process was started. -/
theorem c132_search_partial {F : Type} [GoFloat F] {root : Path} {z : Bytes → Bytes} {fs c : FS} {n : Nat} {xs : List (Nat × CDisk.Act)} {time : Path → Nat} {s₀ : BDisk} {k : Nat} {m : Int} {progs : List (List DOp)} (h0 : Tree root fs)
    (hz : ∀ d, Gz.Written d (z d)) (ho : ∀ x ∈ xs, OnlyReads x.2) (ht : InTurn z root (start fs (n + 1)) xs) (hw : NoneMissing z root (start fs (n + 1)) xs) (hc : Copied (Folder z root (start fs (n + 1)) xs) time c) (hff : FragmentsFirst root time)
    (hix : ∀ f, HadIndex z root (start fs (n + 1)) (xs.take (time (root ++ [f, "index"]))) f → ∃ b, c.get? (root ++ [f, "index"]) = some (.file b))
    (hp : ∀ p ∈ progs, ∀ op ∈ p, ∃ ids name, op = DOp.getFields ids name) (h : ({ fs := c } : BDisk).kill.run z root (opening k m progs) = some s₀) (hu : s₀.d.up = true) :
    ∃ st : Reads, Answers fs root st ∧ st.Consistent ∧ ∀ (cpus : Nat) (s : BServer F), Reaches (BServer.UpStep z root OnlyReads cpus) { disk := s₀ } s → ∀ r ∈ s.reqs, ∀ l : Scores F, r.result = some l →
      (l.map Prod.fst).Nodup ∧ ∃ qs : List (Query F), qs.Perm r.query ∧ ∀ d, PlainName d → ∀ x, (d, x) ∈ l ↔ docScores st qs d ≠ [] ∧ x = (docScores st qs d).foldl GoFloat.add (GoFloat.lit 0) := by
  obtain ⟨st, ha, hcs, hx⟩ := c129_search (F := F) (t := { fs := c }) (c132_tree h0 hz ho ht hw hc) hz hp h hu
  obtain ⟨e1, e2, e3, -⟩ := c132_numbers_partial h0 hz ho ht hw hc
  refine ⟨st, ⟨fun f term d => ?_, fun ids f d hp fd => ?_, fun f => ?_, fun f terms term ht => ?_⟩, hcs, hx⟩
  · rw [ha.documents]
    exact c132_copy_partial h0 hz ho ht hw hc hff hix f term d
  · rw [ha.fields ids f d hp fd, e3]
  · have := ha.metrics f
    simp only [e1] at this
    exact this
  · have := ha.counts f terms term ht
    simp only [e2] at this
    exact this

/-- the copy of `backup_fine` meets the hypotheses: its searches are those over the folder as it was. -/
example {F : Type} [GoFloat F] : ∃ (s₀ : BDisk) (st : Reads), Answers before ["data"] st ∧ st.has "title" "y" "b" = true ∧ ∀ (cpus : Nat) (s : BServer F), Reaches (BServer.UpStep packer ["data"] OnlyReads cpus) { disk := s₀ } s →
    ∀ r ∈ s.reqs, ∀ l : Scores F, r.result = some l → (l.map Prod.fst).Nodup := by
  obtain ⟨c, s, hc, hff, hix, h, hu, -⟩ := backup_hyps
  obtain ⟨st, ha, -, hx⟩ := c132_search_partial (F := F) (n := 0) (copied_tree _) packer_written (opensIt_reads _) (okFrom_inTurn backup_ok) (okFrom_none_missing backup_ok) hc hff hix (by simp) h hu
  exact ⟨s, st, ha, (ha.documents _ _ _).2 before_says, fun cpus t ht r hr l hl => (hx cpus t ht r hr l hl).1⟩

end Shared
end Goir
