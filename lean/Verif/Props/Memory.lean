import Verif.Lemmas.Memory
/-!
# Properties of the in-memory store (C13–C20)

`Memory.run h` is the store after the calls `h` (oldest first); `Spec.*` are the history-based specifications of
`Verif/Spec/History.lean`.
-/
namespace Goir
open GoMap Spec

/-- a small history used to show that hypotheses are satisfiable: two documents, two fields, one shared term. -/
def demoHistory : List StoreOp :=
  [.save "1" ⟨"summary", 3, [("house", 2), ("of", 1)]⟩,
   .save "2" ⟨"summary", 2, [("house", 1), ("dragon", 1)]⟩,
   .save "1" ⟨"name", 1, [("jose", 1)]⟩]

/-- **C13** `GetDocuments(name, term)` contains exactly the documents posted under `term` in `name`; every entry of its data
is `true`; `ok` tells whether there is one; `GetIndex(name)` holds the same set under `term`. -/
theorem c13_memory_postings_exact (h : List StoreOp) (name term : String) :
    (∀ d, GoSet.contains ((Memory.run h).getDocuments name term).1 d = true ↔ Posted h name term d) ∧
    (∀ d b, (GoSet.getData ((Memory.run h).getDocuments name term).1).get? d = some b → b = true) ∧
    (((Memory.run h).getDocuments name term).2 = true ↔ ∃ d, Posted h name term d) ∧
    ((Memory.run h).getIndex name).get? term =
      (if ((Memory.run h).getDocuments name term).2 = true
       then some ((Memory.run h).getDocuments name term).1 else none) := by
  refine ⟨fun d => ?_, ?_, ?_, ?_⟩
  · rw [Memory.getDocuments_contains]
    simpa [Memory.run, Memory.new, Memory.getIndex, hasPosting] using
      Memory.hasPosting_foldl_apply h Memory.new name term d
  · intro d b hb
    have hall := Memory.allTrue_foldl_apply h Memory.new name
      (by intro t s hs; simp [Memory.new, Memory.getIndex] at hs) term
    rw [Memory.getDocuments_eq] at hb
    cases hg : ((Memory.run h).getIndex name).get? term with
    | none => simp [hg, GoSet.getData] at hb
    | some s => simp only [hg] at hb; exact hall s hg d b hb
  · rw [Memory.getDocuments_ok]
    simpa [Memory.run, Memory.new, Memory.getIndex] using Memory.isSome_foldl_apply h Memory.new name term
  · rw [Memory.getDocuments_eq]
    cases ((Memory.run h).getIndex name).get? term <;> simp

example : Posted demoHistory "summary" "house" "2" ∧ ¬ Posted demoHistory "summary" "dragon" "1" := by
  constructor
  · exact ⟨_, List.mem_cons_of_mem _ List.mem_cons_self, by decide⟩
  · simp [Posted, demoHistory, StoreOp.doc, StoreOp.field, GoMap.keys]

/-- **C14** `GetFields(ids, name)` maps each requested document to its latest saved field of that name, and nothing else. -/
theorem c14_memory_getFields_latest (h : List StoreOp) (ids : List String) (name d : String) :
    ((Memory.run h).getFields ids name).get? d = if d ∈ ids then lastSaved h d name else none := by
  rw [Memory.get?_getFields, Memory.run, Memory.storedField_foldl_apply]
  simp [Memory.new, Memory.storedField]

example : lastSaved (demoHistory ++ [.save "1" ⟨"name", 7, []⟩]) "1" "name" = some ⟨"name", 7, []⟩ := by decide

/-- C14: `GetFieldDocumentTest(id)` maps each field name to the latest saved field of that name in that document. -/
theorem c14_memory_getFieldDocumentTest (h : List StoreOp) (d name : String) :
    ((Memory.run h).getFieldDocumentTest d).get? name = lastSaved h d name := by
  have e := c14_memory_getFields_latest h [d] name d
  rw [Memory.get?_getFields] at e
  simp only [List.mem_singleton, if_true] at e
  rw [← e]
  unfold Memory.getFieldDocumentTest Memory.storedField
  cases (Memory.run h).fieldDocument.get? d <;> rfl

/-- **C15** the three counters count calls, lengths and `SaveOrUpdate` calls with the term; the answer of
`GetNumberFieldTerm` has exactly the requested terms as keys. -/
theorem c15_memory_counters_exact (h : List StoreOp) (gv : GoValues h) (name : String) (terms : List String) :
    (Memory.run h).getFieldSize name = callCount h name ∧
    (Memory.run h).getFieldLength name = lengthSum h name ∧
    ∀ t, ((Memory.run h).getNumberFieldTerm name terms).get? t =
      if t ∈ terms then some (termCount h name t : Int) else none := by
  refine ⟨?_, ?_, fun t => ?_⟩
  · rw [Memory.run, Memory.size_foldl_apply]; simp [Memory.new, Memory.getFieldSize, getD]
  · rw [Memory.run, Memory.length_foldl_apply]; simp [Memory.new, Memory.getFieldLength, getD]
  · rw [Memory.get?_getNumberFieldTerm, Memory.run, Memory.nft_foldl_apply h gv]
    simp [Memory.new, Memory.nft, getD]

example : GoValues demoHistory ∧ callCount demoHistory "summary" = 2 ∧ lengthSum demoHistory "summary" = 5 ∧
    termCount demoHistory "summary" "house" = 2 := by
  refine ⟨?_, by decide, by decide, by decide⟩
  intro op hop; simp only [demoHistory, List.mem_cons, List.not_mem_nil, or_false] at hop
  rcases hop with rfl | rfl | rfl <;> decide

/-- **C16** the document frequency never exceeds the collection size. -/
theorem c16_memory_df_le_size (h : List StoreOp) (gv : GoValues h) (name t : String) :
    ((Memory.run h).getNumberFieldTerm name [t]).getD t 0 ≤ (Memory.run h).getFieldSize name := by
  obtain ⟨hs, -, hn⟩ := c15_memory_counters_exact h gv name [t]
  rw [hs, GoMap.getD, hn t]
  simp only [List.mem_singleton, if_true, Option.getD_some]
  have : termCount h name t ≤ callCount h name := by
    unfold termCount callCount
    apply List.Sublist.length_le
    have e : (h.filter fun op => decide (op.isSave = true ∧ op.field.name = name ∧ t ∈ op.field.tf.keys)) =
      ((h.filter fun op => decide (op.field.name = name)).filter
        fun op => decide (op.isSave = true ∧ t ∈ op.field.tf.keys)) := by
      rw [List.filter_filter]; congr 1; funext op
      by_cases h1 : op.isSave = true <;> by_cases h2 : op.field.name = name <;> simp [h1, h2]
    rw [e]; exact List.filter_sublist
  exact_mod_cast this

/-- **C17** a call on (`d`, field `f`) changes nothing observable about any other field name, no field entry of another
document, and no posting membership of another document. -/
theorem c17_memory_frame (m : Memory) (op : StoreOp) :
    (∀ name, name ≠ op.field.name →
      (∀ t, (m.apply op).getDocuments name t = m.getDocuments name t) ∧
      (m.apply op).getIndex name = m.getIndex name ∧
      (m.apply op).getFieldSize name = m.getFieldSize name ∧
      (m.apply op).getFieldLength name = m.getFieldLength name ∧
      (op.field.tf.WF → ∀ terms t, ((m.apply op).getNumberFieldTerm name terms).get? t =
        (m.getNumberFieldTerm name terms).get? t) ∧
      ∀ ids d, ((m.apply op).getFields ids name).get? d = (m.getFields ids name).get? d) ∧
    (∀ d, d ≠ op.doc →
      (∀ ids name, ((m.apply op).getFields ids name).get? d = (m.getFields ids name).get? d) ∧
      ∀ name t, GoSet.contains ((m.apply op).getDocuments name t).1 d = GoSet.contains (m.getDocuments name t).1 d) := by
  constructor
  · intro name hne
    have hne' : ¬ op.field.name = name := fun e => hne e.symm
    refine ⟨fun t => ?_, ?_, ?_, ?_, fun wf terms t => ?_, fun ids d => ?_⟩
    · simp [Memory.getDocuments_eq, Memory.getIndex_apply, hne']
    · simp [Memory.getIndex_apply, hne']
    · simp [Memory.fieldSize_apply, hne']
    · simp [Memory.fieldLength_apply, hne']
    · simp [Memory.get?_getNumberFieldTerm, Memory.nft_apply _ _ wf, hne']
    · simp [Memory.get?_getFields, Memory.storedField_apply, hne']
  · intro d hne
    have hne' : ¬ op.doc = d := fun e => hne e.symm
    refine ⟨fun ids name => ?_, fun name t => ?_⟩
    · simp [Memory.get?_getFields, Memory.storedField_apply, hne']
    · simp only [Memory.getDocuments_contains, Memory.getIndex_apply]
      split
      · rw [hasPosting_foldl]; simp [hne']
      · rfl

/-! ### C18 order independence -/

theorem lastSaved_some_mem (h : List StoreOp) (d name : String) (g : Field) (hl : lastSaved h d name = some g) :
    ∃ o ∈ h, o.isSave = true ∧ o.doc = d ∧ o.field.name = name ∧ o.field = g := by
  unfold lastSaved at hl
  rw [List.findSome?_eq_some_iff] at hl
  obtain ⟨l1, o, l2, he, hf, -⟩ := hl
  refine ⟨o, ?_, ?_⟩
  · have : o ∈ h.reverse := he ▸ by simp
    simpa using this
  · split at hf
    · rename_i hh; exact ⟨hh.1, hh.2.1, hh.2.2, by simpa using hf⟩
    · simp at hf

private theorem sum_perm {l l' : List Int} (h : l.Perm l') : l.sum = l'.sum := by
  induction h with
  | nil => rfl
  | cons x _ ih => simp [ih]
  | swap x y l => simp only [List.sum_cons]; omega
  | trans _ _ a b => exact a.trans b

private theorem lastSaved_eq_some_of_nodup (h : List StoreOp) (nd : (h.map target).Nodup) (d name : String) (f : Field) :
    lastSaved h d name = some f ↔ ∃ op ∈ h, op.isSave = true ∧ op.doc = d ∧ op.field.name = name ∧ op.field = f := by
  induction h with
  | nil => simp [lastSaved]
  | cons op h ih =>
    simp only [List.map_cons, List.nodup_cons] at nd
    rw [Memory.lastSaved_cons]
    by_cases hc : op.isSave = true ∧ op.doc = d ∧ op.field.name = name
    · have hn : lastSaved h d name = none := by
        cases hl : lastSaved h d name with
        | none => rfl
        | some g =>
          exfalso
          obtain ⟨o, ho, h1, h2, h3, h4⟩ := lastSaved_some_mem h d name g hl
          apply nd.1
          rw [List.mem_map]
          exact ⟨o, ho, by simp [target, h2, h3, hc.2.1, hc.2.2]⟩
      simp only [hn, Option.none_or, if_pos hc, Option.some.injEq, List.mem_cons, exists_eq_or_imp]
      constructor
      · intro e; exact Or.inl ⟨hc.1, hc.2.1, hc.2.2, e⟩
      · rintro (⟨-, -, -, e⟩ | ⟨o, ho, h1, h2, h3, h4⟩)
        · exact e
        · exfalso; apply nd.1; rw [List.mem_map]
          exact ⟨o, ho, by simp [target, h2, h3, hc.2.1, hc.2.2]⟩
    · simp only [hc, if_false, Option.or_none, ih nd.2, List.mem_cons, exists_eq_or_imp]
      constructor
      · exact Or.inr
      · rintro (⟨a, b, c, -⟩ | h)
        · exact absurd ⟨a, b, c⟩ hc
        · exact h

/-- **C18** two histories that are permutations of each other and make each (document, field) pair the target of at most one
call are indistinguishable. -/
theorem c18_memory_order_independent (h h' : List StoreOp) (gv : GoValues h) (hp : h.Perm h')
    (once : (h.map target).Nodup) (name : String) :
    (∀ t d, GoSet.contains ((Memory.run h).getDocuments name t).1 d =
        GoSet.contains ((Memory.run h').getDocuments name t).1 d) ∧
    (∀ t, ((Memory.run h).getDocuments name t).2 = ((Memory.run h').getDocuments name t).2) ∧
    (∀ ids d, ((Memory.run h).getFields ids name).get? d = ((Memory.run h').getFields ids name).get? d) ∧
    (Memory.run h).getFieldSize name = (Memory.run h').getFieldSize name ∧
    (Memory.run h).getFieldLength name = (Memory.run h').getFieldLength name ∧
    (∀ terms t, ((Memory.run h).getNumberFieldTerm name terms).get? t =
        ((Memory.run h').getNumberFieldTerm name terms).get? t) := by
  have gv' : GoValues h' := fun op hop => gv op (hp.mem_iff.2 hop)
  have once' : (h'.map target).Nodup := (hp.map target).nodup_iff.1 once
  have hpost : ∀ t d, Posted h name t d ↔ Posted h' name t d := by
    intro t d; unfold Posted; simp only [hp.mem_iff]
  refine ⟨fun t d => ?_, fun t => ?_, fun ids d => ?_, ?_, ?_, fun terms t => ?_⟩
  · rw [Bool.eq_iff_iff, (c13_memory_postings_exact h name t).1, (c13_memory_postings_exact h' name t).1, hpost]
  · rw [Bool.eq_iff_iff, (c13_memory_postings_exact h name t).2.2.1, (c13_memory_postings_exact h' name t).2.2.1]
    simp only [hpost]
  · rw [c14_memory_getFields_latest, c14_memory_getFields_latest]
    have : lastSaved h d name = lastSaved h' d name := by
      ext f
      rw [lastSaved_eq_some_of_nodup h once, lastSaved_eq_some_of_nodup h' once']
      simp only [hp.mem_iff]
    rw [this]
  · rw [(c15_memory_counters_exact h gv name []).1, (c15_memory_counters_exact h' gv' name []).1]
    exact congrArg _ (hp.filter _).length_eq
  · rw [(c15_memory_counters_exact h gv name []).2.1, (c15_memory_counters_exact h' gv' name []).2.1]
    exact sum_perm ((hp.filter _).map _)
  · rw [(c15_memory_counters_exact h gv name terms).2.2, (c15_memory_counters_exact h' gv' name terms).2.2]
    have : termCount h name t = termCount h' name t := (hp.filter _).length_eq
    rw [this]

example : (demoHistory.map target).Nodup ∧ demoHistory.Perm demoHistory.reverse :=
  ⟨by decide, (List.reverse_perm _).symm⟩

/-! ### C19 re-saving -/

/-- **C19, refuted**: after saving a document twice, the store does not look as if only the second save had happened: the
collection size is 2 instead of 1, the frequency of a term in both versions is 2, and the document is still posted under a
term it no longer contains. -/
theorem c19_resave_replaces_refuted :
    ∃ (d : String) (f f' : Field), f.name = f'.name ∧ f.tf.WF ∧ f'.tf.WF ∧
      let twice := Memory.run [.save d f, .save d f']
      let once := Memory.run [.save d f']
      twice.getFieldSize f.name ≠ once.getFieldSize f.name ∧
      (∃ t, (twice.getNumberFieldTerm f.name [t]).get? t ≠ (once.getNumberFieldTerm f.name [t]).get? t) ∧
      (∃ t, GoSet.contains (twice.getDocuments f.name t).1 d = true ∧
            GoSet.contains (once.getDocuments f.name t).1 d = false) := by
  refine ⟨"1", ⟨"t", 2, [("old", 1), ("both", 1)]⟩, ⟨"t", 1, [("both", 1)]⟩, rfl, by decide, by decide, ?_⟩
  refine ⟨by decide, ⟨"both", by decide⟩, ⟨"old", by decide, by decide⟩⟩

/-- the failure is not an accident of the witness: whatever the history, a document stays posted under every term of every
version ever saved. -/
theorem c19_stale_postings_persist (h h' : List StoreOp) (d : String) (f : Field) (t : String) (ht : t ∈ f.tf.keys) :
    GoSet.contains ((Memory.run (h ++ .save d f :: h')).getDocuments f.name t).1 d = true := by
  rw [(c13_memory_postings_exact _ _ _).1]
  exact ⟨.save d f, by simp, rfl, rfl, ht⟩

/-- **C19, partial**: what re-saving does guarantee is that `GetFields` returns the last version; and in histories that save
each (document, field) pair at most once the counters do count documents: the size is the number of distinct documents saved
with the field and the document frequency of `t` is the number of documents in `GetDocuments(name, t)`.
Missing for the full claim: histories with re-saves (false there, see above). -/
theorem c19_counts_documents_partial (h : List StoreOp) (gv : GoValues h) (once : (h.map target).Nodup)
    (saves : ∀ op ∈ h, op.isSave = true) (name : String) :
    (∃ ds : List String, ds.Nodup ∧ (∀ d, d ∈ ds ↔ ∃ op ∈ h, op.doc = d ∧ op.field.name = name) ∧
      (Memory.run h).getFieldSize name = ds.length) ∧
    (∀ t, ∃ ds : List String, ds.Nodup ∧
      (∀ d, d ∈ ds ↔ GoSet.contains ((Memory.run h).getDocuments name t).1 d = true) ∧
      ((Memory.run h).getNumberFieldTerm name [t]).get? t = some (ds.length : Int)) := by
  have key : ∀ p : StoreOp → Bool, (∀ op, p op = true → op.field.name = name) →
      ((h.filter p).map StoreOp.doc).Nodup := by
    intro p hp
    have h1 : ((h.filter p).map target).Nodup := (List.Sublist.map target List.filter_sublist).nodup once
    have h2 : (((h.filter p).map StoreOp.doc).map fun d => (d, name)) = (h.filter p).map target := by
      rw [List.map_map]
      apply List.map_congr_left
      intro op hop
      simp only [List.mem_filter] at hop
      simp [target, hp op hop.2]
    rw [← h2] at h1
    exact List.Pairwise.of_map (fun d => (d, name)) (fun a b hab e => hab (by rw [e])) h1
  constructor
  · refine ⟨(h.filter fun op => decide (op.field.name = name)).map StoreOp.doc, key _ (by simp), ?_, ?_⟩
    · intro d; simp only [List.mem_map, List.mem_filter, decide_eq_true_eq]
      constructor
      · rintro ⟨op, ⟨a, b⟩, c⟩; exact ⟨op, a, c, b⟩
      · rintro ⟨op, a, c, b⟩; exact ⟨op, ⟨a, b⟩, c⟩
    · rw [(c15_memory_counters_exact h gv name []).1]; simp [callCount]
  · intro t
    refine ⟨(h.filter fun op => decide (op.isSave = true ∧ op.field.name = name ∧ t ∈ op.field.tf.keys)).map StoreOp.doc,
      key _ (fun op hop => by simp only [decide_eq_true_eq] at hop; exact hop.2.1), ?_, ?_⟩
    · intro d
      rw [(c13_memory_postings_exact h name t).1]
      simp only [Posted, List.mem_map, List.mem_filter, decide_eq_true_eq]
      constructor
      · rintro ⟨op, ⟨a, -, b, c⟩, e⟩; exact ⟨op, a, e, b, c⟩
      · rintro ⟨op, a, e, b, c⟩; exact ⟨op, ⟨a, saves op a, b, c⟩, e⟩
    · rw [(c15_memory_counters_exact h gv name [t]).2.2]; simp [termCount]

example : (demoHistory.map target).Nodup ∧ (∀ op ∈ demoHistory, op.isSave = true) := by decide

/-! ### C20 IndexDocument -/

private theorem indexDocument_eq (m : Memory) (d : String) (fs : List Field) :
    fs.foldl (fun m f => m.saveOrUpdate d f) m = (fs.map (StoreOp.save d)).foldl Memory.apply m := by
  rw [List.foldl_map]; rfl

/-- **C20** after `IndexDocument(d, doc)` (distinct field names) on any store `m`: for each field `f` of `doc`, `d` is posted
under each of its terms, `GetFields` returns `f`, size moved by 1, length by `f.Length`, and the frequency of `t` by 1 iff
`t` is in `f.TF`. -/
theorem c20_indexDocument_searchable (m : Memory) (d : String) (doc : NormalizedDocument)
    (distinct : (doc.fields.map Field.name).Nodup) (gv : ∀ f ∈ doc.fields, f.tf.WF)
    (f : Field) (hf : f ∈ doc.fields) :
    let m' := m.indexDocument d doc
    (∀ t ∈ f.tf.keys, GoSet.contains (m'.getDocuments f.name t).1 d = true ∧ (m'.getDocuments f.name t).2 = true) ∧
    (m'.getFields [d] f.name).get? d = some f ∧
    m'.getFieldSize f.name = m.getFieldSize f.name + 1 ∧
    m'.getFieldLength f.name = m.getFieldLength f.name + f.length ∧
    (∀ t, (m'.getNumberFieldTerm f.name [t]).getD t 0 =
      (m.getNumberFieldTerm f.name [t]).getD t 0 + (if t ∈ f.tf.keys then 1 else 0)) := by
  intro m'
  have hm' : m' = (doc.fields.map (StoreOp.save d)).foldl Memory.apply m := indexDocument_eq m d doc.fields
  have hgv : GoValues (doc.fields.map (StoreOp.save d)) := by
    intro op hop; simp only [List.mem_map] at hop
    obtain ⟨g, hg, rfl⟩ := hop; exact gv g hg
  have honce : ((doc.fields.map (StoreOp.save d)).map target).Nodup := by
    have : (doc.fields.map (StoreOp.save d)).map target = (doc.fields.map Field.name).map (fun n => (d, n)) := by
      simp [List.map_map, Function.comp_def, target, StoreOp.doc, StoreOp.field]
    rw [this]
    exact distinct.map (fun n => (d, n)) (by intro a b hab e; exact hab (Prod.mk.inj e).2)
  -- the only field with this name is `f`
  have huniq : ∀ p : Field → Bool, p f = true → (∀ g, p g = true → g.name = f.name) → doc.fields.filter p = [f] := by
    intro p hpf hp
    have main : ∀ l : List Field, (l.map Field.name).Nodup → f ∈ l → l.filter p = [f] := by
      intro l
      induction l with
      | nil => intro _ h; simp at h
      | cons g l ih =>
        intro nd hm
        simp only [List.map_cons, List.nodup_cons] at nd
        by_cases hgf : g = f
        · subst hgf
          have : l.filter p = [] := by
            rw [List.filter_eq_nil_iff]
            intro x hx hpx
            exact nd.1 (by rw [← hp x hpx]; exact List.mem_map_of_mem hx)
          simp [hpf, this]
        · have hfl : f ∈ l := by
            rcases List.mem_cons.1 hm with h | h
            · exact absurd h.symm hgf
            · exact h
          have hpg : ¬ p g = true := by
            intro hpg
            exact nd.1 (by rw [hp g hpg]; exact List.mem_map_of_mem hfl)
          simp [hpg, ih nd.2 hfl]
    exact main _ distinct hf
  refine ⟨fun t ht => ?_, ?_, ?_, ?_, fun t => ?_⟩
  · have hp : Posted (doc.fields.map (StoreOp.save d)) f.name t d :=
      ⟨.save d f, List.mem_map_of_mem hf, rfl, rfl, ht⟩
    constructor
    · rw [Memory.getDocuments_contains, hm', Memory.hasPosting_foldl_apply]; exact Or.inr hp
    · rw [Memory.getDocuments_ok, hm', Memory.isSome_foldl_apply]; exact Or.inr ⟨d, hp⟩
  · rw [Memory.get?_getFields, hm', Memory.storedField_foldl_apply]
    have : lastSaved (doc.fields.map (StoreOp.save d)) d f.name = some f := by
      rw [lastSaved_eq_some_of_nodup _ honce]
      exact ⟨.save d f, List.mem_map_of_mem hf, rfl, rfl, rfl, rfl⟩
    simp [this]
  · rw [hm', Memory.size_foldl_apply]
    have : callCount (doc.fields.map (StoreOp.save d)) f.name = 1 := by
      unfold callCount
      rw [List.filter_map, List.length_map]
      have := huniq ((fun op : StoreOp => decide (op.field.name = f.name)) ∘ StoreOp.save d)
        (by simp [StoreOp.field]) (fun g hg => of_decide_eq_true hg)
      rw [this]; rfl
    rw [this]; rfl
  · rw [hm', Memory.length_foldl_apply]
    have : lengthSum (doc.fields.map (StoreOp.save d)) f.name = f.length := by
      unfold lengthSum
      rw [List.filter_map, List.map_map]
      have := huniq ((fun op : StoreOp => decide (op.field.name = f.name)) ∘ StoreOp.save d)
        (by simp [StoreOp.field]) (fun g hg => of_decide_eq_true hg)
      rw [this]; simp [StoreOp.field]
    rw [this]
  · simp only [GoMap.getD, Memory.get?_getNumberFieldTerm, List.mem_singleton, if_true, Option.getD_some]
    rw [hm', Memory.nft_foldl_apply _ hgv]
    have : (termCount (doc.fields.map (StoreOp.save d)) f.name t : Int) = if t ∈ f.tf.keys then 1 else 0 := by
      unfold termCount
      rw [List.filter_map, List.length_map]
      by_cases ht : t ∈ f.tf.keys
      · have := huniq ((fun op : StoreOp => decide (op.isSave = true ∧ op.field.name = f.name ∧ t ∈ op.field.tf.keys))
          ∘ StoreOp.save d) (by simp [StoreOp.field, StoreOp.isSave, ht]) (by simp [StoreOp.field, StoreOp.isSave]; intro g h _; exact h)
        rw [this]; simp [ht]
      · have : doc.fields.filter ((fun op : StoreOp => decide (op.isSave = true ∧ op.field.name = f.name ∧ t ∈ op.field.tf.keys))
          ∘ StoreOp.save d) = [] := by
          rw [List.filter_eq_nil_iff]
          intro g hg hpg
          simp only [Function.comp, StoreOp.field, StoreOp.isSave, decide_eq_true_eq] at hpg
          -- same name, hence g = f
          have h1 := huniq (fun x => decide (x.name = f.name)) (by simp) (by simp)
          have h2 : g ∈ doc.fields.filter (fun x => decide (x.name = f.name)) := by
            simp [hg, hpg.2.1]
          rw [h1] at h2; simp only [List.mem_singleton] at h2
          subst h2; exact ht hpg.2.2
        rw [this]; simp [ht]
    rw [this]

example : ((⟨[⟨"id", 1, [("7", 1)]⟩, ⟨"title", 2, [("a", 2)]⟩]⟩ : NormalizedDocument).fields.map Field.name).Nodup := by
  decide

end Goir
