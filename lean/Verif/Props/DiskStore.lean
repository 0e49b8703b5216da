import Verif.Lemmas.DiskStore
import Verif.Props.Memory
import Verif.Props.DiskIndex
import Verif.Props.Counters
import Verif.Props.Docs
/-!
# C22, C23, C37: the whole disk store

Statements about `Disk.run {} as`: any sequence of calls, background steps, crashes and openings on a folder that was empty
first.
-/
namespace Goir
open GoMap Spec Disk

namespace Disk

theorem getNumberFieldTerm_get? (s : Disk) (name : String) (terms : List String) (t : String) :
    (s.getNumberFieldTerm name terms).get? t = if t ∈ terms then some (s.ct.getNumberFieldTerm name t) else none := by
  unfold getNumberFieldTerm
  have : ∀ (acc : GoMap String Int), (terms.foldl (fun temp term => temp.set term (s.ct.getNumberFieldTerm name term)) acc).get? t =
      if t ∈ terms then some (s.ct.getNumberFieldTerm name t) else acc.get? t := by
    induction terms with
    | nil => intro acc; rfl
    | cons u terms ih =>
      intro acc
      rw [List.foldl_cons, ih, get?_set]
      by_cases h1 : t ∈ terms
      · simp [h1]
      · by_cases h2 : u = t
        · subst h2; simp [h1]
        · have h2' : ¬ t = u := fun e => h2 e.symm
          simp [h1, h2, h2']
  rw [this]; rfl

theorem getIndex_get? (s : Disk) (name t : String) :
    (s.getIndex name).get? t = if (s.getDocuments name t).2 = true then some (s.getDocuments name t).1 else none := by
  unfold getIndex getDocuments IxState.getIndex IxState.getDocuments
  cases s.ix.mem.get? name with
  | none => simp
  | some p => simp only [Option.getD_some]; cases p.get? t <;> simp

theorem callCount_saves {h : List StoreOp} (hs : ∀ op ∈ h, op.isSave = true) (name : String) : saveCount h name = callCount h name := by
  unfold saveCount callCount
  congr 1
  exact List.filter_congr fun op hop => by simp [hs op hop]

theorem lengthSum_saves {h : List StoreOp} (hs : ∀ op ∈ h, op.isSave = true) (name : String) : saveLengthSum h name = lengthSum h name := by
  unfold saveLengthSum lengthSum
  congr 2
  exact List.filter_congr fun op hop => by simp [hs op hop]

theorem findSome?_filterMap {α β γ : Type} (l : List α) (f : α → Option β) (g : β → Option γ) :
    (l.filterMap f).findSome? g = l.findSome? fun a => (f a).bind g := by
  induction l with
  | nil => rfl
  | cons a l ih =>
    rw [List.filterMap_cons, List.findSome?_cons]
    cases h : f a with
    | none => simpa [h] using ih
    | some b => simp only [List.findSome?_cons, Option.bind_some, ih]

theorem savesOf_docs (h : List StoreOp) : (h.filter StoreOp.isSave).map StoreOp.doc = (savesOf h).map Prod.fst := by
  unfold savesOf
  induction h with
  | nil => rfl
  | cons op l ih => cases op with
    | save d f => simp only [List.filter_cons, StoreOp.isSave, if_true, List.map_cons, ih, List.filterMap_cons]; rfl
    | updateIndex d f => simp only [List.filter_cons, StoreOp.isSave, Bool.false_eq_true, if_false, ih, List.filterMap_cons]

theorem lastSaved_docSaves (h : List StoreOp) (as : List DcState.Act) (e : docSaves as = savesOf h) (d name : String) :
    latest as d name = lastSaved h d name := by
  have h1 : ∀ as : List DcState.Act, latest as d name =
      (docSaves as).reverse.findSome? fun p => if p.1 = d ∧ p.2.name = name then some p.2 else none := by
    intro as
    unfold latest docSaves
    rw [← List.filterMap_reverse, findSome?_filterMap]
    congr 1; funext a; cases a <;> rfl
  have h2 : lastSaved h d name = (savesOf h).reverse.findSome? fun p => if p.1 = d ∧ p.2.name = name then some p.2 else none := by
    unfold lastSaved savesOf
    rw [← List.filterMap_reverse, findSome?_filterMap]
    congr 1; funext a; cases a <;> simp [StoreOp.isSave, StoreOp.doc, StoreOp.field]
  rw [h1, h2, e]

end Disk

/-- What a store opened on an empty folder answers between two calls, in terms of the calls made, whatever the writers, the merge
and their timing: postings come from all calls, counters and documents from `SaveOrUpdate` only. -/
theorem disk_answers {as : List Act} {s : Disk} (h : run {} (.open_ :: as) = some s) (ho : Act.open_ ∉ as) (gv : GoValues (calls as))
    (hi : s.idle = true) (name : String) :
    (∀ t, ((s.getDocuments name t).2 = true ↔ ∃ d, Posted (calls as) name t d) ∧
      ∀ d, (s.getDocuments name t).1.contains d = true ↔ Posted (calls as) name t d) ∧
    s.getFieldSize name = saveCount (calls as) name ∧ s.getFieldLength name = saveLengthSum (calls as) name ∧
    ∀ terms t, (s.getNumberFieldTerm name terms).get? t = if t ∈ terms then some (termCount (calls as) name t : Int) else none := by
  obtain ⟨u, -, -, -, hp⟩ := idle_spec hi
  have hx := IxState.run_inv IxState.init_inv (run_parts h).1
  cases first_run h ho gv with
  | opening g _ => rw [g.dc] at u; cases u
  | gone g _ _ => rw [g] at u; cases u
  | live n hn g =>
    have hpost : ∀ t d, has2 s.ix.mem name t d ↔ Posted (calls as) name t d := by
      intro t d; rw [← g.post name t d, hp]; simp
    refine ⟨fun t => ⟨?_, fun d => ?_⟩, ?_, ?_, fun terms t => ?_⟩
    · rw [show s.getDocuments name t = s.ix.getDocuments name t from rfl, IxState.found_iff hx]; simp [hpost]
    · rw [← hpost, IxState.has2_iff_getDocuments]; rfl
    · have := g.size name; rw [hp] at this; simpa [getFieldSize] using this
    · have := g.len name; rw [hp] at this; simpa [getFieldLength] using this
    · have := g.nft name t; rw [hp] at this
      rw [getNumberFieldTerm_get?]
      simp only [List.map_nil, List.sum_nil, Int.add_zero] at this
      rw [this]

/-- **C22.** For every history of SaveOrUpdate calls on a freshly created disk store, and every interleaving with the writers and the
merge, between two calls the store answers exactly as a Memory store with that history. -/
theorem c22_disk_like_memory {as : List Act} {s : Disk} (h : run {} (.open_ :: as) = some s) (ho : Act.open_ ∉ as) (gv : GoValues (calls as))
    (hs : ∀ op ∈ calls as, op.isSave = true) (hi : s.idle = true) (name : String) :
    (∀ t, (s.getDocuments name t).2 = ((Memory.run (calls as)).getDocuments name t).2 ∧
      ∀ d, (s.getDocuments name t).1.contains d = ((Memory.run (calls as)).getDocuments name t).1.contains d) ∧
    (∀ t, ((s.getIndex name).get? t).isSome = (((Memory.run (calls as)).getIndex name).get? t).isSome ∧
      ∀ d, (((s.getIndex name).get? t).getD []).contains d = ((((Memory.run (calls as)).getIndex name).get? t).getD []).contains d) ∧
    s.getFieldSize name = (Memory.run (calls as)).getFieldSize name ∧
    s.getFieldLength name = (Memory.run (calls as)).getFieldLength name ∧
    ∀ terms t, (s.getNumberFieldTerm name terms).get? t = ((Memory.run (calls as)).getNumberFieldTerm name terms).get? t := by
  obtain ⟨h1, h2, h3, h4⟩ := disk_answers h ho gv hi name
  obtain ⟨m2, m3, m4⟩ := c15_memory_counters_exact (calls as) gv name []
  have e1 : ∀ t, (s.getDocuments name t).2 = ((Memory.run (calls as)).getDocuments name t).2 := by
    intro t
    obtain ⟨-, -, m1, -⟩ := c13_memory_postings_exact (calls as) name t
    rw [Bool.eq_iff_iff, (h1 t).1, m1]
  have e2 : ∀ t d, (s.getDocuments name t).1.contains d = ((Memory.run (calls as)).getDocuments name t).1.contains d := by
    intro t d
    obtain ⟨m1, -, -, -⟩ := c13_memory_postings_exact (calls as) name t
    rw [Bool.eq_iff_iff, (h1 t).2, m1]
  refine ⟨fun t => ⟨e1 t, e2 t⟩, fun t => ?_, ?_, ?_, fun terms t => ?_⟩
  · obtain ⟨-, -, -, m5⟩ := c13_memory_postings_exact (calls as) name t
    rw [getIndex_get?, m5, ← e1 t]
    by_cases hf : (s.getDocuments name t).2 = true
    · simp only [hf, if_true, Option.isSome_some, Option.getD_some, true_and]; exact e2 t
    · simp [hf]
  · rw [h2, m2, callCount_saves hs]
  · rw [h3, m3, lengthSum_saves hs]
  · rw [h4, (c15_memory_counters_exact (calls as) gv name terms).2.2 t]

/-- **C22, stored fields.** As long as the cache is large enough for the documents saved, GetFields too answers as a Memory store. -/
theorem c22_getFields_like_memory {as : List Act} {s : Disk} (h : run {} (.open_ :: as) = some s) (ho : Act.open_ ∉ as) (gv : GoValues (calls as))
    (hi : s.idle = true) (hn : ∀ n, Act.openRest n ∈ as → ((((calls as).filter StoreOp.isSave).map StoreOp.doc).toFinset.card : Int) ≤ n)
    (ids : List String) (name : String) :
    ∃ s' out, s.getFields ids name = some (s', out) ∧ ∀ d, out.get? d = ((Memory.run (calls as)).getFields ids name).get? d := by
  obtain ⟨u, -, -, hsend, hp⟩ := idle_spec hi
  have hr := (run_parts h).2.2
  cases first_run h ho gv with
  | opening g _ => rw [g.dc] at u; cases u
  | gone g _ _ => rw [g] at u; cases u
  | live n hn' g =>
    obtain ⟨tr', e1, e2⟩ := g.tr
    have hd : docSaves tr' = savesOf (calls as) := by
      have := g.docs
      rw [hp, e1] at this
      simpa [docSaves] using this
    rw [e1] at hr
    have hsd : savedDocs tr' = ((calls as).filter StoreOp.isSave).map StoreOp.doc := by
      have a1 : savedDocs tr' = (docSaves tr').map Prod.fst := by
        unfold savedDocs docSaves
        rw [List.map_filterMap]
        congr 1; funext a; cases a <;> rfl
      rw [a1, savesOf_docs, hd]
    have hg : GoFields tr' := by
      intro d f hm
      have : (d, f) ∈ savesOf (calls as) := by
        rw [← hd]; unfold docSaves; exact List.mem_filterMap.2 ⟨_, hm, rfl⟩
      obtain ⟨op, hop, e⟩ := List.mem_filterMap.1 this
      cases op with
      | save d' f' => cases e; exact gv _ hop
      | updateIndex d' f' => cases e
    obtain ⟨s', out, q1, q2⟩ := c24_latest_field_when_nothing_is_evicted hr e2 (by rw [hsd]; exact hn n hn') hg hsend ids name
    refine ⟨{ s with dc := s' }, out, by simp [Disk.getFields, q1], fun d => ?_⟩
    rw [q2, c14_memory_getFields_latest, lastSaved_docSaves _ _ hd]

/-- the actions of an uninterrupted SaveOrUpdate. -/
def runSave (d : String) (f : Field) : List Act :=
  [.save d f f.tf.keys f.tf.keys, .client, .ct .recvM, .client] ++ (f.tf.keys.map fun _ => .client) ++
    (f.tf.keys.flatMap fun _ => [.client, .ct .recvN]) ++ [.client, .dc .recv]

/-- the actions of an uninterrupted UpdateIndex. -/
def runUpdateIndex (d : String) (f : Field) : List Act := [.updateIndex d f f.tf.keys, .client] ++ (f.tf.keys.map fun _ => .client)

/-- opening an empty folder, after `.open_`. -/
def runOpen (n : Int) : List Act := [.ix .merge, .openRest n]

/-- a run that meets the hypotheses: two documents, the second saved while the posting writer is in the middle of a flush. -/
def c22Run : List Act :=
  runOpen 10 ++ runSave "1" ⟨"title", 3, [("house", 2), ("of", 1)]⟩ ++
    [.ix .recv, .ix .recv, .ix (.tick [("title", [("house", [("1", true)]), ("of", [("1", true)])])]), .ix (.create "u1")] ++
    runSave "2" ⟨"title", 1, [("house", 1)]⟩ ++ [.ix .write, .ix .flushed, .ix .startMerge, .ix .merge, .ix .merge]

example : ∃ s, run {} (.open_ :: c22Run) = some s ∧ Act.open_ ∉ c22Run ∧ s.idle = true ∧ (calls c22Run).length = 2 ∧
    s.getFieldSize "title" = 2 ∧ s.getFieldLength "title" = 4 ∧ s.getNumberFieldTerm "title" ["house", "x"] = [("house", 2), ("x", 0)] ∧
    (s.getDocuments "title" "house").1 = [("1", true), ("2", true)] ∧ s.ix.writer = .idle ∧ s.ix.merger ≠ .idle ∧
    (s.getFields ["1", "2"] "title").map (fun r => r.2.keys) = some ["1", "2"] :=
  exists_of_run (by decide +kernel)

example : GoValues (calls c22Run) ∧ ∀ op ∈ calls c22Run, op.isSave = true := by
  have : calls c22Run = [.save "1" ⟨"title", 3, [("house", 2), ("of", 1)]⟩, .save "2" ⟨"title", 1, [("house", 1)]⟩] := by rfl
  rw [this]
  refine ⟨?_, by decide⟩
  intro op hop
  simp only [List.mem_cons, List.not_mem_nil, or_false] at hop
  rcases hop with rfl | rfl <;> decide

/-! ### C23 -/

/-- **C23 is false of the code**: the same UpdateIndex call makes the size of the field 1 in a Memory store and leaves it 0 in a
Disk store. -/
theorem c23_updateIndex_differs : ∃ as s, run {} (.open_ :: as) = some s ∧ Act.open_ ∉ as ∧ s.idle = true ∧
    calls as = [.updateIndex "1" ⟨"title", 3, [("house", 2)]⟩] ∧
    (Memory.run (calls as)).getFieldSize "title" = 1 ∧ s.getFieldSize "title" = 0 ∧
    (Memory.run (calls as)).getFieldLength "title" = 3 ∧ s.getFieldLength "title" = 0 := by
  obtain ⟨s, h1, h2⟩ := exists_of_run (o := run {} (.open_ :: (runOpen 10 ++ runUpdateIndex "1" ⟨"title", 3, [("house", 2)]⟩)))
    (P := fun s => s.idle = true ∧ s.getFieldSize "title" = 0 ∧ s.getFieldLength "title" = 0) (by decide +kernel)
  exact ⟨_, s, h1, by decide, h2.1, rfl, by decide, h2.2.1, by decide, h2.2.2⟩

/-- **C23, what holds instead.** For every history of SaveOrUpdate and UpdateIndex calls: postings, document frequencies and stored
fields agree (for the last see `c22_getFields_like_memory`, which allows UpdateIndex calls), and the sizes and lengths of a Memory
store exceed those of a Disk store by exactly the number and the lengths of the UpdateIndex calls. -/
theorem c23_difference_partial {as : List Act} {s : Disk} (h : run {} (.open_ :: as) = some s) (ho : Act.open_ ∉ as) (gv : GoValues (calls as))
    (hi : s.idle = true) (name : String) :
    (∀ t, (s.getDocuments name t).2 = ((Memory.run (calls as)).getDocuments name t).2 ∧
      ∀ d, (s.getDocuments name t).1.contains d = ((Memory.run (calls as)).getDocuments name t).1.contains d) ∧
    (∀ terms t, (s.getNumberFieldTerm name terms).get? t = ((Memory.run (calls as)).getNumberFieldTerm name terms).get? t) ∧
    (Memory.run (calls as)).getFieldSize name = s.getFieldSize name +
      ((calls as).filter fun op => op.isSave = false ∧ op.field.name = name).length ∧
    (Memory.run (calls as)).getFieldLength name = s.getFieldLength name +
      (((calls as).filter fun op => op.isSave = false ∧ op.field.name = name).map fun op => op.field.length).sum := by
  obtain ⟨h1, h2, h3, h4⟩ := disk_answers h ho gv hi name
  obtain ⟨m2, m3, m4⟩ := c15_memory_counters_exact (calls as) gv name []
  refine ⟨fun t => ⟨?_, fun d => ?_⟩, fun terms t => ?_, ?_, ?_⟩
  · obtain ⟨-, -, m1, -⟩ := c13_memory_postings_exact (calls as) name t
    rw [Bool.eq_iff_iff, (h1 t).1, m1]
  · obtain ⟨m1, -, -, -⟩ := c13_memory_postings_exact (calls as) name t
    rw [Bool.eq_iff_iff, (h1 t).2, m1]
  · rw [h4, (c15_memory_counters_exact (calls as) gv name terms).2.2 t]
  · rw [m2, h2]
    unfold callCount saveCount
    generalize calls as = l
    induction l with
    | nil => rfl
    | cons op l ih =>
      by_cases e : op.field.name = name <;> cases e2 : op.isSave <;> simp [e, e2] at ih ⊢ <;> omega
  · rw [m3, h3]
    unfold lengthSum saveLengthSum
    generalize calls as = l
    induction l with
    | nil => rfl
    | cons op l ih =>
      by_cases e : op.field.name = name <;> cases e2 : op.isSave <;> simp [e, e2] at ih ⊢ <;> omega

-- a history with both kinds of call
example : ∃ s, run {} (.open_ :: (runOpen 10 ++ runSave "1" ⟨"title", 3, [("house", 2)]⟩ ++ runUpdateIndex "2" ⟨"title", 5, [("house", 2)]⟩)) = some s ∧
    s.idle = true ∧ s.getFieldSize "title" = 1 ∧ (s.getDocuments "title" "house").1 = [("1", true), ("2", true)] :=
  exists_of_run (by decide +kernel)

/-! ### C37 -/

/-- flushing one field's document frequencies. -/
def flushNf (f : String) : List Act := .ct (.tickN [f]) :: List.replicate 8 (.ct .stepN)
/-- flushing one field's size and length. -/
def flushMx (f : String) : List Act := .ct (.tickM [f]) :: List.replicate 8 (.ct .stepM)

/-- **C37 is false of the code**: document frequencies and sizes are written by different timers, so a crash between the two leaves a
document frequency above the collection size. -/
theorem c37_df_above_size : ∃ as s, run {} as = some s ∧ s.idle = true ∧ s.getNumberFieldTerm "title" ["house"] = [("house", 1)] ∧
    s.getFieldSize "title" = 0 := by
  obtain ⟨s, h1, h2⟩ := exists_of_run (o := run {} (.open_ :: (runOpen 10 ++ runSave "1" ⟨"title", 3, [("house", 2)]⟩ ++ flushNf "title" ++
      [.crash, .open_] ++ runOpen 10)))
    (P := fun s => s.idle = true ∧ s.getNumberFieldTerm "title" ["house"] = [("house", 1)] ∧ s.getFieldSize "title" = 0) (by decide +kernel)
  exact ⟨_, s, h1, h2⟩

namespace CtState
open Flusher

/-- document frequencies on disk and in the buffer are not above those in memory. -/
structure NLe (s : CtState) : Prop where
  nn   : ∀ f t, 0 ≤ s.getNumberFieldTerm f t
  buf  : ∀ f m t v, s.nf.buf.get? f = some m → m.get? t = some v → 0 ≤ v ∧ v ≤ s.getNumberFieldTerm f t
  file : ∀ f t n, FileN s f t n → ∃ v, n = toInt32 v ∧ 0 ≤ v ∧ v ≤ s.getNumberFieldTerm f t

theorem nle_congr {s s' : CtState} (h : NLe s) (h1 : s'.nft = s.nft) (h2 : s'.nf = s.nf) : NLe s' := by
  have e : ∀ f t, s'.getNumberFieldTerm f t = s.getNumberFieldTerm f t := by intro f t; unfold getNumberFieldTerm; rw [h1]
  have e2 : ∀ f t n, FileN s' f t n ↔ FileN s f t n := by intro f t n; unfold FileN; rw [h2]
  refine ⟨fun f t => ?_, fun f m t v => ?_, fun f t n => ?_⟩
  · rw [e]; exact h.nn f t
  · rw [e, h2]; exact h.buf f m t v
  · rw [e, e2]; exact h.file f t n

theorem nle_exec {s s' : CtState} {a : CtState.Act} (hi : CInv s) (h : NLe s) (h1 : a ≠ .crash) (h2 : a ≠ .open_) (he : s.exec a = some s') : NLe s' := by
  cases a with
  | crash => exact absurd rfl h1
  | open_ => exact absurd rfl h2
  | addField f len =>
    simp only [exec] at he; split at he
    · cases he; exact nle_congr h rfl rfl
    · cases he
  | recvM =>
    simp only [exec] at he; split at he
    · cases he
    · obtain ⟨_, _, rfl⟩ := Option.map_eq_some_iff.1 he; exact nle_congr h rfl rfl
  | tickM o =>
    simp only [exec] at he; split at he
    · obtain ⟨_, _, rfl⟩ := Option.map_eq_some_iff.1 he; exact nle_congr h rfl rfl
    · cases he
  | stepM => simp only [exec] at he; obtain ⟨_, _, rfl⟩ := Option.map_eq_some_iff.1 he; exact nle_congr h rfl rfl
  | tickN o =>
    simp only [exec] at he; split at he
    · obtain ⟨nf, h3, rfl⟩ := Option.map_eq_some_iff.1 he
      obtain ⟨_, _, rfl⟩ := tick_some h3
      exact ⟨h.nn, h.buf, h.file⟩
    · cases he
  | addTerm f t =>
    simp only [exec] at he; split at he
    · cases he
      have mono : ∀ g u, s.getNumberFieldTerm g u ≤ CtState.getNumberFieldTerm
          { s with nft := s.nft.set f (((s.nft.get? f).getD []).set t (((s.nft.get? f).getD []).getD t 0 + 1)), sendN := some (f, t) } g u := by
        intro g u
        simp only [getNumberFieldTerm, get?_set]
        by_cases e : f = g
        · subst e
          simp only [if_true, Option.getD_some, getD_set]
          split
          · rename_i e; subst e; omega
          · omega
        · simp [e]
      refine ⟨fun g u => Int.le_trans (h.nn g u) (mono g u), fun g m u v hm hv => ?_, fun g u n hf => ?_⟩
      · obtain ⟨a1, a2⟩ := h.buf g m u v hm hv
        exact ⟨a1, Int.le_trans a2 (mono g u)⟩
      · obtain ⟨v, a1, a2, a3⟩ := h.file g u n hf
        exact ⟨v, a1, a2, Int.le_trans a3 (mono g u)⟩
    · cases he
  | recvN =>
    simp only [exec] at he; split at he
    · cases he
    · rename_i f t hs
      obtain ⟨nf, h3, rfl⟩ := Option.map_eq_some_iff.1 he
      obtain ⟨_, rfl⟩ := recv_some h3
      refine ⟨h.nn, fun g m u v hm hv => ?_, h.file⟩
      simp only [get?_set] at hm
      split at hm
      · rename_i e; subst e; cases hm
        rw [get?_putN] at hv
        split at hv
        · rename_i e; subst e; cases hv
          exact ⟨h.nn f t, Int.le_refl _⟩
        · cases hb : s.nf.buf.get? f with
          | none => rw [hb] at hv; simp at hv
          | some m' => rw [hb] at hv; exact h.buf f m' u v hb hv
      · exact h.buf g m u v hm hv
  | stepN =>
    simp only [exec] at he
    obtain ⟨nf, h3, rfl⟩ := Option.map_eq_some_iff.1 he
    obtain ⟨-, hc⟩ := step_spec hi.fn h3
    cases hc with
    | same hb hcc =>
      refine ⟨h.nn, fun g m u v hm hv => h.buf g m u v (by rw [← hb]; exact hm) hv, ?_⟩
      rintro g u n ⟨b, m, f1, f2, f3⟩
      exact h.file g u n ⟨b, m, by rw [← hcc g]; exact f1, f2, f3⟩
    | away k v hv hb hk hcc =>
      refine ⟨h.nn, fun g m u v hm hv => h.buf g m u v (by rw [← hb]; exact hm) hv, ?_⟩
      rintro g u n ⟨b, m, f1, f2, f3⟩
      have f1 : nf.cur g = some (.full b) := f1
      by_cases e : g = k
      · subst e; rw [hk] at f1; cases f1
      · exact h.file g u n ⟨b, m, by rw [← hcc g e]; exact f1, f2, f3⟩
    | install k v b hv hs hb hk hcc =>
      refine ⟨h.nn, fun g m u v hm hv => h.buf g m u v (by rw [← hb]; exact hm) hv, ?_⟩
      rintro g u n ⟨b', m, f1, f2, f3⟩
      have f1 : nf.cur g = some (.full b') := f1
      by_cases e : g = k
      · subst e; rw [hk] at f1; cases f1
        obtain ⟨b2, g1, g2⟩ := serN_spec g v (hi.wn g v hv)
        rw [hs] at g1; cases g1
        rw [f2] at g2; cases g2
        rw [get?_cut] at f3
        cases hx : v.get? u with
        | none => rw [hx] at f3; cases f3
        | some x =>
          rw [hx] at f3; cases f3
          obtain ⟨a1, a2⟩ := h.buf g v u x hv hx
          exact ⟨x, rfl, a1, a2⟩
      · exact h.file g u n ⟨b', m, by rw [← hcc g e]; exact f1, f2, f3⟩
    | forget k v b hv hs hk hb hcc =>
      refine ⟨h.nn, fun g m u v hm hv => ?_, ?_⟩
      · have hm : nf.buf.get? g = some m := hm
        rw [hb, get?_del] at hm
        split at hm
        · cases hm
        · exact h.buf g m u v hm hv
      · rintro g u n ⟨b, m, f1, f2, f3⟩
        exact h.file g u n ⟨b, m, by rw [← hcc g]; exact f1, f2, f3⟩

end CtState

namespace Disk

/-- at every action that ends a process, the metrics writer has received and written everything, and the sizes fit the file format. -/
inductive MetricsSafe : List Act → Disk → Prop where
  | nil : MetricsSafe [] {}
  | snoc {as s a s'} (h : MetricsSafe as s) (he : s.exec a = some s')
      (hend : s.dc.up = true → s'.dc.up = false → MetricsFlushed s.ct ∧ ∀ f, FitsInt32 (s.getFieldSize f)) : MetricsSafe (as ++ [a]) s'

theorem MetricsSafe.run {as : List Act} {s : Disk} (h : MetricsSafe as s) : Disk.run {} as = some s := by
  induction h with
  | nil => rfl
  | snoc h he _ ih => exact run_snoc.2 ⟨_, ih, he⟩

/-- document frequencies against sizes, while up. -/
structure LeUp (s : Disk) : Prop where
  nle  : CtState.NLe s.ct
  le   : ∀ f t, s.ct.getNumberFieldTerm f t ≤ s.ct.getFieldSize f
  pend : ∀ f t, s.ct.getNumberFieldTerm f t + (s.prog.map (dTerm f t)).sum ≤ s.ct.getFieldSize f + (s.prog.map (dSize f)).sum
  head : ∀ m ∈ s.prog.tail, ∀ f len, m ≠ .size f len

/-- and while down: what the files hold. -/
structure LeDown (s : Disk) : Prop where
  prog : s.prog = []
  sz   : ∀ f c x y, s.ct.mx.cur f = some c → CtState.FileM c f x y → 0 ≤ x
  le   : ∀ f t n, CtState.FileN s.ct f t n → 0 ≤ n ∧ (∀ c x y, s.ct.mx.cur f = some c → CtState.FileM c f x y → n ≤ x) ∧ (s.ct.mx.cur f = none → n ≤ 0)

/-- the two cases. -/
structure LeInv (s : Disk) : Prop where
  same : s.ct.up = s.dc.up
  up   : s.ct.up = true → LeUp s
  down : s.ct.up = false → LeDown s

theorem dTerm_nonneg (f t : String) (m : Micro) : 0 ≤ dTerm f t m := by
  cases m <;> simp only [dTerm] <;> (try split) <;> decide

theorem sum_dTerm_nonneg (f t : String) (l : List Micro) : 0 ≤ (l.map (dTerm f t)).sum := by
  induction l with
  | nil => simp
  | cons m l ih => have := dTerm_nonneg f t m; simp only [List.map_cons, List.sum_cons]; omega

theorem sum_dSize_zero {l : List Micro} (h : ∀ m ∈ l, ∀ f len, m ≠ .size f len) (f : String) : (l.map (dSize f)).sum = 0 := by
  refine sum_zero fun m hm => ?_
  cases m with
  | size g len => exact absurd rfl (h _ hm g len)
  | _ => rfl

theorem saveProg_tail (d : String) (f : Field) (o₁ o₂ : List String) : ∀ m ∈ (saveProg d f o₁ o₂).tail, ∀ g len, m ≠ .size g len := by
  intro m hm g len e
  subst e
  simp [saveProg, updateIndexProg] at hm

theorem updateIndexProg_tail (d : String) (f : Field) (o : List String) : ∀ m ∈ (updateIndexProg d f o).tail, ∀ g len, m ≠ .size g len := by
  intro m hm g len e
  subst e
  simp [updateIndexProg] at hm

theorem leDown_stop {s : Disk} (hi : CtState.CInv s.ct) (h : LeInv s) (ix : IxState)
    (hend : s.dc.up = true → MetricsFlushed s.ct ∧ ∀ f, FitsInt32 (s.getFieldSize f)) : LeInv (s.stop ix) := by
  have hct : (s.stop ix).ct = if s.ct.up then { mx := s.ct.mx.killed, nf := s.ct.nf.killed } else s.ct := by
    unfold stop; simp only [CtState.exec]; cases s.ct.up <;> rfl
  have hdc : (s.stop ix).dc.up = false := by
    unfold stop; simp only [DcState.exec]; cases hu : s.dc.up <;> simp [hu]
  cases hu : s.ct.up with
  | false =>
    have e : (s.stop ix).ct = s.ct := by rw [hct, hu]; rfl
    refine ⟨by rw [e, hu, hdc], fun hx => ?_, fun _ => ⟨rfl, by rw [e]; exact (h.down hu).sz, ?_⟩⟩
    · rw [e, hu] at hx; cases hx
    · intro f t n hf
      rw [e] at hf ⊢
      exact (h.down hu).le f t n hf
  | true =>
    have e : (s.stop ix).ct = { mx := s.ct.mx.killed, nf := s.ct.nf.killed } := by rw [hct, hu]; rfl
    obtain ⟨hf, hfit⟩ := hend (by rw [← h.same, hu])
    have hl := h.up hu
    refine ⟨by rw [e, hdc], fun hx => (by rw [e] at hx; cases hx), fun _ => ⟨rfl, ?_, ?_⟩⟩
    · intro f c x y hc hx
      rw [e] at hc
      have hc : s.ct.mx.cur f = some c := hc
      have hm := hi.m hu f (by rw [hf.1]; simp)
      unfold CtState.MOk at hm
      rw [hf.2.2] at hm
      simp only [get?_nil, hc] at hm
      obtain ⟨rfl, rfl⟩ := CtState.fileM_unique hx hm
      rw [show toInt32 (s.ct.getFieldSize f) = s.ct.getFieldSize f from CtState.toInt32_fits (hfit f)]
      exact Int.le_trans (hl.nle.nn f "") (hl.le f "")
    intro f t n hn
    rw [e] at hn
    obtain ⟨v, h1, h2, h3⟩ := hl.nle.file f t n hn
    have h4 := hl.le f t
    have h5 : FitsInt32 (s.ct.getFieldSize f) := hfit f
    have hv : toInt32 v = v := CtState.toInt32_fits (by unfold FitsInt32 at h5 ⊢; omega)
    rw [hv] at h1; subst h1
    have hm := hi.m hu f (by rw [hf.1]; simp)
    unfold CtState.MOk at hm
    rw [hf.2.2] at hm
    simp only [get?_nil] at hm
    refine ⟨h2, ?_, ?_⟩
    · intro c x y hc hx
      rw [e] at hc
      have hc : s.ct.mx.cur f = some c := hc
      rw [hc] at hm
      simp only at hm
      obtain ⟨rfl, rfl⟩ := CtState.fileM_unique hx hm
      rw [CtState.toInt32_fits h5]
      omega
    · intro hc
      rw [e] at hc
      have hc : s.ct.mx.cur f = none := hc
      rw [hc] at hm
      simp only at hm
      have : s.ct.getFieldSize f = 0 := by simp [CtState.getFieldSize, GoMap.getD, hm.1]
      omega

theorem leUp_same {s s' : Disk} (h : LeUp s) (h1 : CtState.NLe s'.ct) (h2 : s'.ct.size = s.ct.size) (h3 : s'.ct.nft = s.ct.nft) (h4 : s'.prog = s.prog) :
    LeUp s' := by
  refine ⟨h1, fun f t => ?_, fun f t => ?_, by rw [h4]; exact h.head⟩
  · have := h.le f t; simpa [CtState.getNumberFieldTerm, CtState.getFieldSize, h2, h3] using this
  · have := h.pend f t; simpa [CtState.getNumberFieldTerm, CtState.getFieldSize, h2, h3, h4] using this

theorem le_exec {s s' : Disk} {a : Act} (hi : CtState.CInv s.ct) (h : LeInv s) (gv : GoValues (calls [a])) (he : s.exec a = some s')
    (hend : s.dc.up = true → s'.dc.up = false → MetricsFlushed s.ct ∧ ∀ f, FitsInt32 (s.getFieldSize f)) : LeInv s' := by
  have hsame := h.same
  -- statements of the client that do not touch the counters
  have other : ∀ {m : Micro} {rest : List Micro} {ix : IxState} {dc : DcState}, s.prog = m :: rest → s.ct.up = true → dc.up = true →
      (∀ f len, m ≠ .size f len) → (∀ f t, m ≠ .term f t) → LeInv ⟨ix, s.ct, dc, rest⟩ := by
    intro m rest ix dc hp hu hd hm1 hm2
    have hl := h.up hu
    refine ⟨by rw [hu, hd], fun _ => ⟨hl.nle, hl.le, fun f t => ?_, fun x hx => ?_⟩, fun e => (by rw [show CtState.up _ = s.ct.up from rfl, hu] at e; cases e)⟩
    · have := hl.pend f t
      rw [hp] at this
      have e1 : dTerm f t m = 0 := by cases m <;> first | rfl | exact absurd rfl (hm2 _ _)
      have e2 : dSize f m = 0 := by cases m <;> first | rfl | exact absurd rfl (hm1 _ _)
      simpa [e1, e2] using this
    · have := hl.head; rw [hp] at this
      exact this x (List.mem_of_mem_tail hx)
  have progUp : s.prog ≠ [] → s.ct.up = true := by
    intro hp
    cases hu : s.ct.up with
    | true => rfl
    | false => exact absurd (h.down hu).prog hp
  cases exec_eff he with
  | @save d f o₁ o₂ hid h1 h2 =>
    obtain ⟨u, -, -, -, hp⟩ := idle_spec hid
    have hu : s.ct.up = true := by rw [hsame, u]
    have hl := h.up hu
    have wf : f.tf.WF := gv (.save d f) (by simp [calls])
    refine ⟨hsame, fun _ => ⟨hl.nle, hl.le, fun g t => ?_, saveProg_tail d f o₁ o₂⟩, fun e => (by rw [show CtState.up _ = s.ct.up from rfl, hu] at e; cases e)⟩
    obtain ⟨s1, -, s3⟩ := saveProg_sums d f o₁ o₂ h2 wf g t
    rw [s1, s3]
    have := hl.le g t
    by_cases e : f.name = g
    · simp only [e, if_true, true_and]; split <;> omega
    · simp only [e, if_false, false_and]; omega
  | @updateIndex d f o hid h1 =>
    obtain ⟨u, -, -, -, hp⟩ := idle_spec hid
    have hu : s.ct.up = true := by rw [hsame, u]
    have hl := h.up hu
    refine ⟨hsame, fun _ => ⟨hl.nle, hl.le, fun g t => ?_, updateIndexProg_tail d f o⟩, fun e => (by rw [show CtState.up _ = s.ct.up from rfl, hu] at e; cases e)⟩
    obtain ⟨s1, -, s3⟩ := updateIndexProg_sums d f o g t
    rw [s1, s3]
    simpa using hl.le g t
  | @size f len rest ct hp hb hx =>
    have hu := progUp (by rw [hp]; simp)
    have hl := h.up hu
    have hn := CtState.nle_exec hi hl.nle (by simp) (by simp) hx
    have hpend := hl.pend
    rw [hp] at hpend
    simp only [CtState.exec] at hx
    split at hx
    · cases hx
      refine ⟨hsame, fun _ => ⟨hn, fun g t => ?_, fun g t => ?_, fun x hx => ?_⟩, fun e => (by rw [show CtState.up _ = s.ct.up from rfl, hu] at e; cases e)⟩
      · have := hl.le g t
        simp only [CtState.getNumberFieldTerm, CtState.getFieldSize, getD_set] at this ⊢
        split
        · rename_i e; subst e; omega
        · exact this
      · have := hpend g t
        simp only [CtState.getNumberFieldTerm, CtState.getFieldSize, getD_set, List.map_cons, List.sum_cons, dTerm, dSize] at this ⊢
        by_cases e : f = g
        · subst e; simp only [if_true] at this ⊢; omega
        · simp only [e, if_false] at this ⊢; omega
      · have := hl.head; rw [hp] at this
        exact this x (List.mem_of_mem_tail hx)
    · cases hx
  | @term f t rest ct hp hb hx =>
    have hu := progUp (by rw [hp]; simp)
    have hl := h.up hu
    have hn := CtState.nle_exec hi hl.nle (by simp) (by simp) hx
    have hpend := hl.pend
    have hhead := hl.head
    rw [hp] at hpend hhead
    have hz : ∀ g, (rest.map (dSize g)).sum = 0 := fun g => sum_dSize_zero hhead g
    simp only [CtState.exec] at hx
    split at hx
    · cases hx
      refine ⟨hsame, fun _ => ⟨hn, fun g u => ?_, fun g u => ?_, fun x hx => hhead x (List.mem_of_mem_tail hx)⟩,
        fun e => (by rw [show CtState.up _ = s.ct.up from rfl, hu] at e; cases e)⟩
      · have h1 := hl.le g u
        have h2 := hpend g u
        have h3 := sum_dTerm_nonneg g u rest
        simp only [CtState.getNumberFieldTerm, CtState.getFieldSize, get?_set, List.map_cons, List.sum_cons, dTerm, dSize, hz] at h1 h2 h3 ⊢
        by_cases e : f = g
        · subst e
          simp only [if_true, Option.getD_some, getD_set]
          by_cases e2 : t = u
          · subst e2; simp only [and_self, if_true] at h2 ⊢; omega
          · simp only [e2, if_false]; exact h1
        · simp only [e, if_false]; exact h1
      · have h2 := hpend g u
        simp only [CtState.getNumberFieldTerm, CtState.getFieldSize, get?_set, List.map_cons, List.sum_cons, dTerm, dSize, hz] at h2 ⊢
        by_cases e : f = g
        · subst e
          simp only [if_true, Option.getD_some, getD_set]
          by_cases e2 : t = u
          · subst e2; simp only [and_self, if_true] at h2 ⊢; omega
          · simp only [e2, and_false, if_false] at h2 ⊢; omega
        · simp only [e, false_and, if_false] at h2 ⊢; omega
    · cases hx
  | touch hp hb hx =>
    have hu := progUp (by rw [hp]; simp)
    exact other hp hu (by rw [← hsame, hu]) (fun _ _ e => by cases e) (fun _ _ e => by cases e)
  | post hp hb hx =>
    have hu := progUp (by rw [hp]; simp)
    exact other hp hu (by rw [← hsame, hu]) (fun _ _ e => by cases e) (fun _ _ e => by cases e)
  | doc hp hb hx =>
    have hu := progUp (by rw [hp]; simp)
    exact other hp hu (dc_save_up hx) (fun _ _ e => by cases e) (fun _ _ e => by cases e)
  | read hid hx =>
    exact ⟨hsame.trans (dc_read_up hx).1.symm, fun hu => leUp_same (h.up hu) (h.up hu).nle rfl rfl rfl, fun hu => ⟨(h.down hu).prog, (h.down hu).sz, (h.down hu).le⟩⟩
  | ix hb hu hx hp =>
    exact ⟨hsame, fun hu => leUp_same (h.up hu) (h.up hu).nle rfl rfl rfl, fun hu => ⟨(h.down hu).prog, (h.down hu).sz, (h.down hu).le⟩⟩
  | @ixDown b ix hb hu hx hp => exact leDown_stop hi h ix fun hu => hend hu (stop_gone s hp).1
  | ct hb hu hx =>
    obtain ⟨g1, g2, g3, g4⟩ := ct_background hb hx
    have hcu : s.ct.up = true := by rw [hsame, hu]
    refine ⟨g1.trans hsame, fun _ => leUp_same (h.up hcu) (CtState.nle_exec hi (h.up hcu).nle ?_ ?_ hx) g2 g4 rfl, fun e => ?_⟩
    · rintro rfl; cases hb
    · rintro rfl; cases hb
    · rw [show CtState.up _ = s.ct.up from g1, hcu] at e; cases e
  | dc hb hu hx =>
    exact ⟨hsame.trans (dc_background hb hx).symm, fun hu => leUp_same (h.up hu) (h.up hu).nle rfl rfl rfl,
      fun hu => ⟨(h.down hu).prog, (h.down hu).sz, (h.down hu).le⟩⟩
  | @crash ix hx =>
    have : ix.proc = .down := by
      simp only [IxState.exec] at hx; split at hx <;> cases hx; rfl
    exact leDown_stop hi h ix fun hu => hend hu (stop_gone s this).1
  | open_ hx => exact ⟨hsame, fun hu => leUp_same (h.up hu) (h.up hu).nle rfl rfl rfl, fun hu => ⟨(h.down hu).prog, (h.down hu).sz, (h.down hu).le⟩⟩
  | @openRest n ct dc hp hu h1 h2 =>
    have hcu : s.ct.up = false := by rw [hsame, hu]
    have hd := h.down hcu
    obtain ⟨ct', o1, o2, o3, o4, o5, o6, o7, o8, -, -⟩ := CtState.open_spec hi hcu
    rw [h1] at o1; cases o1
    have hdu : dc.up = true := by simp only [DcState.exec, hu, Bool.false_eq_true, if_false, Option.some.injEq] at h2; rw [← h2]
    have hfile : ∀ f t m, CtState.FileN ct f t m ↔ CtState.FileN s.ct f t m := by intro f t m; unfold CtState.FileN; rw [o8]
    -- either the file has an entry or the frequency is 0
    have hcase : ∀ f t, (∃ m, CtState.FileN s.ct f t m ∧ ct.getNumberFieldTerm f t = m) ∨ ct.getNumberFieldTerm f t = 0 := by
      intro f t
      by_cases hx : ∃ m, CtState.FileN s.ct f t m
      · obtain ⟨m, hm⟩ := hx; exact .inl ⟨m, hm, o5 f t m hm⟩
      · exact .inr (o6 f t fun m hm => hx ⟨m, hm⟩)
    have hsz : ∀ f, 0 ≤ ct.getFieldSize f := by
      intro f
      cases hc : s.ct.mx.cur f with
      | none => rw [(o4 f hc).1]
      | some c =>
        obtain ⟨x, y, hx⟩ := hi.sm f c hc
        rw [(o3 f c _ _ hc hx).1]; exact hd.sz f c _ _ hc hx
    have hle : ∀ f t, 0 ≤ ct.getNumberFieldTerm f t ∧ ct.getNumberFieldTerm f t ≤ ct.getFieldSize f := by
      intro f t
      rcases hcase f t with ⟨m, hm, e⟩ | e
      · rw [e]
        obtain ⟨l1, l2, l3⟩ := hd.le f t m hm
        refine ⟨l1, ?_⟩
        cases hc : s.ct.mx.cur f with
        | none => rw [(o4 f hc).1]; exact l3 hc
        | some c =>
          obtain ⟨x, y, hx⟩ := hi.sm f c hc
          rw [(o3 f c _ _ hc hx).1]; exact l2 c _ _ hc hx
      · rw [e]; exact ⟨Int.le_refl _, hsz f⟩
    refine ⟨by rw [o2, hdu], fun _ => ⟨⟨fun f t => (hle f t).1, ?_, ?_⟩, fun f t => (hle f t).2, ?_, ?_⟩, fun e => (by rw [show CtState.up _ = true from o2] at e; cases e)⟩
    · intro f m t v hm
      have hm : ct.nf.buf.get? f = some m := hm
      rw [o8, (hi.down hcu).bn] at hm; simp at hm
    · intro f t m hm
      have hm := (hfile f t m).1 hm
      have hv : toInt32 m = m := by
        obtain ⟨b, mm, f1, f2, f3⟩ := hm
        obtain ⟨b', m', e1, e2, -, e3⟩ := hi.sn f _ f1
        cases e1; rw [f2] at e2; cases e2
        exact e3 t m f3
      refine ⟨m, hv.symm, (hd.le f t m hm).1, ?_⟩
      rw [show Disk.ct _ = ct from rfl, o5 f t m hm]
    · intro f t
      have := (hle f t).2
      simpa [hd.prog] using this
    · simp [hd.prog]

theorem metricsSafe_le {as : List Act} {s : Disk} (h : MetricsSafe as s) (gv : GoValues (calls as)) : LeInv s := by
  induction h with
  | nil =>
    refine ⟨rfl, fun e => (by cases e), fun _ => ⟨rfl, ?_, ?_⟩⟩
    · intro f c x y hc; simp [Flusher.cur, Flusher.file] at hc
    · rintro f t n ⟨b, m, hc, _⟩; simp [Flusher.cur, Flusher.file] at hc
  | @snoc as s a s' hs he hend ih =>
    rw [calls_snoc] at gv
    exact le_exec (CtState.run_cinv CtState.init_cinv (run_parts hs.run).2.1) (ih fun op hop => gv op (List.mem_append_left _ hop))
      (fun op hop => gv op (List.mem_append_right _ hop)) he hend

end Disk

/-- **C37, what holds instead.** If, whenever a process ends (crash or panic, possibly in the middle of a call), the metrics writer has
written everything it was sent and no size exceeds 32 bits, then at every moment of every process, also during a call and whatever state
the document-frequency writer was in, document frequencies are between 0 and the collection size. -/
theorem c37_df_le_size_partial {as : List Act} {s : Disk} (h : MetricsSafe as s) (gv : GoValues (calls as)) (hu : s.dc.up = true) (f : String)
    (terms : List String) : ∀ t n, (s.getNumberFieldTerm f terms).get? t = some n → 0 ≤ n ∧ n ≤ s.getFieldSize f := by
  intro t n hn
  have hl := metricsSafe_le h gv
  have hl' := hl.up (by rw [hl.same, hu])
  rw [getNumberFieldTerm_get?] at hn
  split at hn
  · cases hn; exact ⟨hl'.nle.nn f t, hl'.le f t⟩
  · cases hn

namespace Disk

/-- runs actions, checking the condition of `MetricsSafe`. -/
def safeStep (s : Disk) (a : Act) : Option Disk :=
  (s.exec a).bind fun s' =>
    if s.dc.up = true ∧ s'.dc.up = false ∧ ¬ (MetricsFlushed s.ct ∧ ∀ p ∈ s.ct.size, FitsInt32 p.2) then none else some s'

theorem metricsSafe_of {as bs : List Act} {s s' : Disk} (h : MetricsSafe as s) (hr : bs.foldlM safeStep s = some s') : MetricsSafe (as ++ bs) s' := by
  induction bs generalizing as s with
  | nil => cases hr; simpa using h
  | cons a bs ih =>
    rw [List.foldlM_cons] at hr
    obtain ⟨t, h1, h2⟩ := Option.bind_eq_some_iff.1 hr
    obtain ⟨t', h3, h4⟩ := Option.bind_eq_some_iff.1 h1
    split at h4
    · cases h4
    · rename_i hc
      cases h4
      rw [← List.singleton_append, ← List.append_assoc]
      refine ih (.snoc h h3 fun u d => ?_) h2
      have hx : MetricsFlushed s.ct ∧ ∀ p ∈ s.ct.size, FitsInt32 p.2 := Classical.byContradiction fun hn => hc ⟨u, d, hn⟩
      refine ⟨hx.1, fun f => ?_⟩
      unfold getFieldSize CtState.getFieldSize GoMap.getD
      cases hg : s.ct.size.get? f with
      | none => simp [FitsInt32]
      | some n => exact hx.2 _ (mem_of_get? hg)

end Disk

/-- a first process that is killed after the metrics flush but before the frequencies are written, and a second one. -/
def c37Run : List Act :=
  .open_ :: (runOpen 10 ++ runSave "1" ⟨"title", 3, [("house", 2)]⟩ ++ flushMx "title" ++ [.crash, .open_] ++ runOpen 5)

-- the hypotheses can be met with a crash in between
example : ∃ s, MetricsSafe c37Run s ∧ s.dc.up = true ∧ s.getFieldSize "title" = (1 : Int) := by
  obtain ⟨s, h1, h2⟩ := exists_of_run (o := c37Run.foldlM safeStep {})
    (P := fun s => s.dc.up = true ∧ s.getFieldSize "title" = 1) (by decide +kernel)
  exact ⟨s, metricsSafe_of (as := []) .nil h1, h2⟩

end Goir
