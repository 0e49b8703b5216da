import Verif.Props.OpeningKillSearch
import Verif.Props.FolderServerCases
/-!
# C130: cases

The folder of C129, opened by one process that is killed, and then by another. No process writes anything.
-/
namespace Goir
open GoMap Spec Spec.Opening

namespace Opening
open BDisk

/-- a process that is killed after `k` steps of opening. -/
def killedAt (k : Nat) : List CDisk.Act := .open_ :: (List.replicate k (.ix .merge) ++ [.crash])

theorem killedAt_reads (k : Nat) : ∀ a ∈ killedAt k, OnlyReads a := by
  intro a ha
  simp only [killedAt, List.mem_cons, List.mem_append, List.mem_replicate, List.not_mem_nil, or_false] at ha
  rcases ha with rfl | ⟨-, rfl⟩ | rfl <;> exact trivial

set_option maxRecDepth 100000 in
/-- REFUTATION: a store to which nothing is ever written loses a field. A process opens the folder and is killed between the two renames; the next process opens it without an error, and finds no document of the field, although the folder
named one; and when it has opened, no file that reads as an index names the document any more. -/
theorem c130_reading_loses_field_refuted : ∃ s s' : BDisk, ({ fs := shelf aFile } : BDisk).kill.run packer ["data"] (killedAt 108) = some s ∧ s.kill.run packer ["data"] (opening 57 5 []) = some s' ∧ s'.d.up = true ∧
    Says (shelf aFile) ["data"] "title" "x" "a" ∧ GoSet.contains (s'.d.getDocuments "title" "x").1 "a" = false ∧
    ∀ p c m, s'.fs.get? p = some (.file c) → HoldsIndex c m → hasPosting m "x" "a" = false := by
  obtain ⟨s, h1, h2⟩ : ∃ s, ({ fs := shelf aFile } : BDisk).kill.run packer ["data"] (killedAt 108) = some s ∧
      (match s.kill.run packer ["data"] (opening 57 5 []) with
        | some s' => s'.d.up && !GoSet.contains (s'.d.getDocuments "title" "x").1 "a" && s'.fs.all fun e => match e.2 with | .file c => (match decodeIndex c with | some m => !hasPosting m "x" "a" | none => true) | .dir => true
        | none => false) = true := exists_of (by decide +kernel)
  split at h2
  · rename_i s' h3
    rw [Bool.and_eq_true, Bool.and_eq_true, Bool.not_eq_true'] at h2
    refine ⟨s, s', h1, h3, h2.1.1, shelf_listed _, h2.1.2, fun p c m hp hh => ?_⟩
    have := List.all_eq_true.1 h2.2 _ (GoMap.mem_of_get? hp)
    simp only [decodeIndex_iff.2 hh, Bool.not_eq_true'] at this
    exact this
  · cases h2

/-- the only index is that of the title. -/
def onlyTitle (fs : FS) : Bool := fs.all fun e => match e.1 with | [r, f, x] => !(r == "data" && x == "index") || f == "title" | _ => true

theorem onlyTitle_eq {fs : FS} (h : onlyTitle fs = true) {f : String} {b : Bytes} (hb : fs.get? (["data"] ++ [f, "index"]) = some (.file b)) : f = "title" := by
  have := List.all_eq_true.1 h _ (GoMap.mem_of_get? hb)
  simpa using this

/-- in every state of the run the only index is that of the title, and it is there whenever no process runs. -/
noncomputable def fine (t : BDisk) (as : List CDisk.Act) : Bool := (List.range (as.length + 1)).all fun n =>
  match t.kill.run packer ["data"] (as.take n) with
  | some s => onlyTitle s.fs && (decide (s.d.ix.proc ≠ .down) || (match s.fs.get? ["data", "title", "index"] with | some (.file _) => true | _ => false))
  | none => false

theorem fine_none_missing {t : BDisk} {as : List CDisk.Act} (h : fine t as = true) : NoneMissing packer ["data"] t as := by
  have key : ∀ (as1 as2 : List CDisk.Act) (s1 : BDisk), as = as1 ++ as2 → t.kill.run packer ["data"] as1 = some s1 →
      onlyTitle s1.fs = true ∧ (s1.d.ix.proc = .down → ∃ b, s1.fs.get? ["data", "title", "index"] = some (.file b)) := by
    intro as1 as2 s1 e h1
    have := List.all_eq_true.1 h as1.length (by rw [List.mem_range, e, List.length_append]; omega)
    rw [e, List.take_left' rfl, h1] at this
    simp only [Bool.and_eq_true, Bool.or_eq_true, decide_eq_true_eq] at this
    refine ⟨this.1, fun hd => ?_⟩
    rcases this.2 with hp | hp
    · exact absurd hd hp
    · split at hp
      · rename_i b hb; exact ⟨b, hb⟩
      · cases hp
  intro as1 as2 s1 e h1 hd as0 as0' s0 f b e0 h0 hb
  obtain rfl := onlyTitle_eq (key as0 (as0' ++ as2) s0 (by rw [e, e0, List.append_assoc]) h0).1 hb
  exact (key as1 as2 s1 e h1).2 hd

set_option maxRecDepth 100000 in
/-- killed in the middle of the new index file (at the 50th step). -/
theorem killed50 : ∃ s s' : BDisk, ({ fs := shelf aFile } : BDisk).kill.run packer ["data"] (killedAt 50) = some s ∧ s.kill.run packer ["data"] (opening 113 5 []) = some s' ∧ s'.d.up = true ∧
    (∃ b, s.fs.get? ["data", "title", "index_temp"] = some (.file b)) ∧ NoneMissing packer ["data"] ({ fs := shelf aFile } : BDisk) (killedAt 50) ∧ AllThere packer ["data"] ({ fs := shelf aFile } : BDisk) (killedAt 50) s := by
  obtain ⟨s, h1, h2⟩ : ∃ s, ({ fs := shelf aFile } : BDisk).kill.run packer ["data"] (killedAt 50) = some s ∧
      (match s.kill.run packer ["data"] (opening 113 5 []) with
        | some s' => s'.d.up && decide (s.d.ix.proc = .down) && (match s.fs.get? ["data", "title", "index_temp"] with | some (.file _) => true | _ => false) && (match s.fs.get? ["data", "title", "index"] with | some (.file _) => true | _ => false)
        | none => false) = true := exists_of (by decide +kernel)
  have hw : NoneMissing packer ["data"] ({ fs := shelf aFile } : BDisk) (killedAt 50) := fine_none_missing (by decide +kernel)
  split at h2
  · rename_i s' h3
    simp only [Bool.and_eq_true, decide_eq_true_eq] at h2
    obtain ⟨⟨⟨h4, h5⟩, h6⟩, -⟩ := h2
    refine ⟨s, s', h1, h3, h4, ?_, hw, hw _ [] s (by simp) h1 h5⟩
    split at h6
    · rename_i b hb; exact ⟨b, hb⟩
    · cases h6
  · cases h2

/-- the folder stands as it was: the hypotheses of `c130_reopened_partial` are met, and the next process finds the document. -/
example : ∃ s s' : BDisk, ({ fs := shelf aFile } : BDisk).kill.run packer ["data"] (killedAt 50) = some s ∧ s.kill.run packer ["data"] (opening 113 5 []) = some s' ∧ s'.d.up = true ∧ GoSet.contains (s'.d.getDocuments "title" "x").1 "a" = true := by
  obtain ⟨s, s', h1, h2, h3, -, hw, hs⟩ := killed50
  exact ⟨s, s', h1, h2, h3, (c130_reopened_partial (shelf_tree aFile) packer_written h1 (killedAt_reads 50) hw hs h2 h3 "title" "x" "a").2 (shelf_listed _)⟩

/-- … and so are those of `c130_search_partial`: the searches of the next process are those over the folder as it was. -/
example {F : Type} [GoFloat F] : ∃ (s₀ : BDisk) (st : Reads), Answers (shelf aFile) ["data"] st ∧ st.has "title" "x" "a" = true ∧ ∀ (cpus : Nat) (s : BServer F), Reaches (BServer.UpStep packer ["data"] OnlyReads cpus) { disk := s₀ } s →
    ∀ r ∈ s.reqs, ∀ l : Scores F, r.result = some l → (l.map Prod.fst).Nodup := by
  obtain ⟨s, s', h1, h2, h3, -, hw, hs⟩ := killed50
  obtain ⟨st, ha, -, hx⟩ := c130_search_partial (F := F) (shelf_tree aFile) packer_written h1 (killedAt_reads 50) hw hs (by simp) h2 h3
  exact ⟨s', st, ha, (ha.documents _ _ _).2 (shelf_listed _), fun cpus t ht r hr l hl => (hx cpus t ht r hr l hl).1⟩

set_option maxRecDepth 100000 in
/-- the second case of `c130_kept_partial`: between the two renames `index_temp` holds the document. -/
example : ∃ s : BDisk, ({ fs := shelf aFile } : BDisk).kill.run packer ["data"] (.open_ :: List.replicate 108 (.ix .merge)) = some s ∧ s.fs.get? ["data", "title", "index"] = none ∧
    ∃ buf m, s.fs.get? ["data", "title", "index_temp"] = some (.file buf) ∧ HoldsIndex buf m ∧ hasPosting m "x" "a" = true := by
  obtain ⟨s, h1, h2⟩ : ∃ s, ({ fs := shelf aFile } : BDisk).kill.run packer ["data"] (.open_ :: List.replicate 108 (.ix .merge)) = some s ∧ (match s.fs.get? ["data", "title", "index"] with | none => true | _ => false) = true := exists_of (by decide +kernel)
  have hn : s.fs.get? ["data", "title", "index"] = none := by
    split at h2
    · rename_i hn; exact hn
    · cases h2
  have hw : NoneMissing packer ["data"] ({ fs := shelf aFile } : BDisk) (.open_ :: List.replicate 108 (.ix .merge)) := fine_none_missing (by decide +kernel)
  have ho : ∀ a ∈ CDisk.Act.open_ :: List.replicate 108 (CDisk.Act.ix .merge), OnlyReads a := by
    intro a ha
    simp only [List.mem_cons, List.mem_replicate] at ha
    rcases ha with rfl | ⟨-, rfl⟩ <;> exact trivial
  rcases c130_kept_partial (shelf_tree aFile) packer_written h1 ho hw "title" with hk | ⟨-, -, buf, m, h3, h4, h5⟩
  · obtain ⟨-, p, buf, m, ds, hp, -⟩ := (hk "x" "a").2 (shelf_listed _)
    have hu := (run_calm (shelf_tree aFile) h1 ho).folder
    cases hp with
    | index h => rw [show (["data"] ++ ["title", "index"] : Path) = ["data", "title", "index"] from rfl, hn] at h; cases h
    | fragment h =>
      obtain ⟨fs0, k1, k2, k3⟩ := run_base (shelf_tree aFile) packer_written _ h1 ho
      exfalso
      have hall : (s.fs.all fun e => match e.1 with | [_, _, t, _] => !(t == "temp") | _ => true) = true := by
        obtain ⟨s2, h6, h7⟩ : ∃ s, ({ fs := shelf aFile } : BDisk).kill.run packer ["data"] (.open_ :: List.replicate 108 (.ix .merge)) = some s ∧ (s.fs.all fun e => match e.1 with | [_, _, t, _] => !(t == "temp") | _ => true) = true := exists_of (by decide +kernel)
        rw [h1] at h6; cases h6; exact h7
      have := List.all_eq_true.1 hall _ (GoMap.mem_of_get? h)
      simp at this
  · exact ⟨s, h1, hn, buf, m, h3, h4, (h5 "x" "a").2 (shelf_listed _)⟩

end Opening
end Goir
