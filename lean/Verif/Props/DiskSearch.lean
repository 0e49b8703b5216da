import Verif.Model.DiskSearch
import Verif.Props.DiskStore
import Verif.Props.SearchOrder
import Verif.Props.Http
/-!
# C78: searching a disk store
-/
namespace Goir
open GoMap Spec Disk

/-- two stores give the same answers, except for the order of the elements of the maps they return. -/
structure Reads.Same (st st' : Reads) : Prop where
  found : ∀ f t, (st.getDocuments f t).2 = (st'.getDocuments f t).2
  docs : ∀ f t d, (st.getDocuments f t).1.contains d = (st'.getDocuments f t).1.contains d
  fields : ∀ ids f d, (st.getFields ids f).get? d = (st'.getFields ids f).get? d
  size : ∀ f, st.getFieldSize f = st'.getFieldSize f
  length : ∀ f, st.getFieldLength f = st'.getFieldLength f
  nft : ∀ f terms t, (st.getNumberFieldTerm f terms).get? t = (st'.getNumberFieldTerm f terms).get? t

/-- the score of a document depends only on these answers of the store. -/
theorem queryScore_congr {F : Type} [GoFloat F] {st st' : Reads} {q : Query F} {d : String}
    (hm : ∀ t ∈ q.terms, st.has q.fieldName t d = st'.has q.fieldName t d) (hf : st.fieldOf d q.fieldName = st'.fieldOf d q.fieldName)
    (hs : st.getFieldSize q.fieldName = st'.getFieldSize q.fieldName) (hl : st.getFieldLength q.fieldName = st'.getFieldLength q.fieldName)
    (hn : ∀ t ∈ q.terms, (st.getNumberFieldTerm q.fieldName q.terms).getD t 0 = (st'.getNumberFieldTerm q.fieldName q.terms).getD t 0) :
    queryScore st q d = queryScore st' q d := by
  have hm : st.matches q.fieldName q.terms d = st'.matches q.fieldName q.terms d := by
    rw [Bool.eq_iff_iff]
    unfold Reads.matches
    simp only [List.any_eq_true]
    exact ⟨fun ⟨t, h1, h2⟩ => ⟨t, h1, by rw [← hm t h1]; exact h2⟩, fun ⟨t, h1, h2⟩ => ⟨t, h1, by rw [hm t h1]; exact h2⟩⟩
  unfold queryScore
  rw [hm, hf, hs, hl]
  congr 2
  funext field
  unfold bm25
  simp only
  refine List.foldl_ext _ _ _ fun x t ht => ?_
  unfold bm25Step
  rw [hn t ht]

/-- searches of two stores that give every document the same scores have the same possible results, up to the order of equal scores. -/
theorem search_congr {F : Type} [GoFloat F] {st st' : Reads} (hst : st.Consistent) (hst' : st'.Consistent) (query : List (Query F))
    (h : ∀ q ∈ query, ∀ d, queryScore st q d = queryScore st' q d) {cpus cpus' : Nat}
    (hc' : 0 < cpus') {l : Scores F} (hl : SState.Returns st query cpus l) :
    ∃ l', SState.Returns st' query cpus' l' ∧ l'.Perm l := by
  obtain ⟨hn, qs, hp, hm⟩ := c59_result hst query cpus hl
  obtain ⟨l', hl', hm'⟩ := c59_every_order hst' query hc' hp
  obtain ⟨hn', -⟩ := c59_result hst' query cpus' hl'
  refine ⟨l', hl', (List.perm_ext_iff_of_nodup (List.Nodup.of_map _ hn') (List.Nodup.of_map _ hn)).2 fun e => ?_⟩
  obtain ⟨d, x⟩ := e
  have : docScores st qs d = docScores st' qs d := by
    unfold docScores
    refine List.filterMap_congr fun q hq => h q (hp.mem_iff.1 hq) d
  rw [hm, hm', this]

namespace Reads.Same
variable {st st' st'' : Reads}

theorem symm (h : st.Same st') : st'.Same st :=
  ⟨fun f t => (h.found f t).symm, fun f t d => (h.docs f t d).symm, fun i f d => (h.fields i f d).symm, fun f => (h.size f).symm,
    fun f => (h.length f).symm, fun f l t => (h.nft f l t).symm⟩

theorem trans (h : st.Same st') (h' : st'.Same st'') : st.Same st'' :=
  ⟨fun f t => (h.found f t).trans (h'.found f t), fun f t d => (h.docs f t d).trans (h'.docs f t d),
    fun i f d => (h.fields i f d).trans (h'.fields i f d), fun f => (h.size f).trans (h'.size f),
    fun f => (h.length f).trans (h'.length f), fun f l t => (h.nft f l t).trans (h'.nft f l t)⟩

theorem queryScore_eq {F : Type} [GoFloat F] (h : st.Same st') (q : Query F) (d : String) : queryScore st q d = queryScore st' q d :=
  queryScore_congr (fun t _ => by unfold Reads.has; rw [h.found, h.docs]) (h.fields ..) (h.size _) (h.length _) (fun t _ => by unfold GoMap.getD; rw [h.nft])

/-- searches of two stores that give the same answers have the same possible results, up to the order of equal scores. -/
theorem search {F : Type} [GoFloat F] (h : st.Same st') (hst : st.Consistent) (hst' : st'.Consistent) (query : List (Query F)) {cpus cpus' : Nat}
    (hc' : 0 < cpus') {l : Scores F} (hl : SState.Returns st query cpus l) :
    ∃ l', SState.Returns st' query cpus' l' ∧ l'.Perm l :=
  search_congr hst hst' query (fun q _ d => h.queryScore_eq q d) hc' hl

end Reads.Same

namespace Disk

theorem getFields_wf {s s' : Disk} {ids : List String} {name : String} {out : GoMap String Field} (h : s.getFields ids name = some (s', out)) :
    out.WF := by
  have : ∀ (ids : List String) (a a' : DcState × GoMap String Field), a.2.WF →
      ids.foldlM (fun (acc : DcState × GoMap String Field) d => (acc.1.getField d name).map fun x =>
        (x.1, match x.2 with | some f => acc.2.set d f | none => acc.2)) a = some a' → a'.2.WF := by
    intro ids
    induction ids with
    | nil => intro a a' hw h; cases h; exact hw
    | cons d ids ih =>
      intro a a' hw h
      rw [List.foldlM_cons] at h
      cases hg : a.1.getField d name with
      | none => rw [hg] at h; cases h
      | some x =>
        rw [hg] at h
        refine ih _ _ ?_ h
        simp only
        split
        · exact hw.set _ _
        · exact hw
  unfold Disk.getFields DcState.getFields at h
  simp only [Option.map_eq_some_iff] at h
  obtain ⟨r, h1, h2⟩ := h
  cases h2
  exact this ids _ _ (by simp) h1

end Disk

/-- the cache that the store was opened with is large enough for the documents saved. -/
def CacheSuffices (as : List Act) : Prop :=
  ∀ n, Act.openRest n ∈ as → ((((calls as).filter StoreOp.isSave).map StoreOp.doc).toFinset.card : Int) ≤ n

/-- between two calls, a freshly created disk store filled with SaveOrUpdate answers everything a search asks as a Memory store. -/
theorem disk_reads_like_memory {as : List Act} {s : Disk} (h : run {} (.open_ :: as) = some s) (ho : Act.open_ ∉ as) (gv : GoValues (calls as))
    (hs : ∀ op ∈ calls as, op.isSave = true) (hi : s.idle = true) (hn : CacheSuffices as) :
    s.reads.Same (Memory.run (calls as)).reads ∧ s.reads.Consistent := by
  have hsame : s.reads.Same (Memory.run (calls as)).reads := by
    refine ⟨fun f t => ((c22_disk_like_memory h ho gv hs hi f).1 t).1, fun f t d => ((c22_disk_like_memory h ho gv hs hi f).1 t).2 d,
      fun ids f d => ?_, fun f => (c22_disk_like_memory h ho gv hs hi f).2.2.1, fun f => (c22_disk_like_memory h ho gv hs hi f).2.2.2.1,
      fun f l t => (c22_disk_like_memory h ho gv hs hi f).2.2.2.2 l t⟩
    obtain ⟨s', out, e, ho⟩ := c22_getFields_like_memory h ho gv hi hn ids f
    show (((s.getFields ids f).map Prod.snd).getD []).get? d = _
    rw [e]; exact ho d
  have hm := memory_consistent (Memory.run (calls as))
  refine ⟨hsame, fun ids f => ?_, fun ids f d => ?_⟩
  · obtain ⟨s', out, e, -⟩ := c22_getFields_like_memory h ho gv hi hn ids f
    show (((s.getFields ids f).map Prod.snd).getD []).WF
    rw [e]; exact getFields_wf e
  · have e2 : s.reads.fieldOf d f = (Memory.run (calls as)).reads.fieldOf d f := hsame.fields ..
    rw [hsame.fields, hm.fields, e2]

/-- Nothing that happens between two saves changes an answer: whatever the writers, the merge and GetFields calls do meanwhile. -/
theorem disk_answers_stable {as bs : List Act} {s s' : Disk} (h : run {} (.open_ :: as) = some s) (h' : run s bs = some s') (ho : Act.open_ ∉ as ++ bs)
    (gv : GoValues (calls as)) (hs : ∀ op ∈ calls as, op.isSave = true) (hi : s.idle = true) (hi' : s'.idle = true) (hn : CacheSuffices (as ++ bs))
    (hb : calls bs = []) : s'.reads.Same s.reads := by
  have hc : calls (as ++ bs) = calls as := by
    show (as ++ bs).filterMap _ = _
    rw [List.filterMap_append]
    show calls as ++ calls bs = _
    rw [hb, List.append_nil]
  have hr : run {} (.open_ :: (as ++ bs)) = some s' := by
    rw [← List.cons_append]
    unfold run at *
    rw [List.foldlM_append, h]; exact h'
  have hn1 : CacheSuffices as := by
    intro n hm
    have := hn n (List.mem_append_left _ hm)
    rwa [hc] at this
  have e1 := (disk_reads_like_memory h (fun e => ho (List.mem_append_left _ e)) gv hs hi hn1).1
  have e2 := (disk_reads_like_memory hr ho (by rw [hc]; exact gv) (by rw [hc]; exact hs) hi' hn).1
  rw [hc] at e2
  exact e2.trans e1.symm

/-- **C78.** A search of a disk store between two calls returns what the same search of a Memory store with the same history can return, up to
the order of equal scores, and the other way round. -/
theorem c78_search_like_memory {F : Type} [GoFloat F] {as : List Act} {s : Disk} (h : run {} (.open_ :: as) = some s) (ho : Act.open_ ∉ as)
    (gv : GoValues (calls as)) (hs : ∀ op ∈ calls as, op.isSave = true) (hi : s.idle = true) (hn : CacheSuffices as)
    (query : List (Query F)) {cpus cpus' : Nat} (hc : 0 < cpus) (hc' : 0 < cpus') (l : Scores F) :
    (SState.Returns s.reads query cpus l → ∃ l', SState.Returns (Memory.run (calls as)).reads query cpus' l' ∧ l'.Perm l) ∧
    (SState.Returns (Memory.run (calls as)).reads query cpus' l → ∃ l', SState.Returns s.reads query cpus l' ∧ l'.Perm l) := by
  obtain ⟨h1, h2⟩ := disk_reads_like_memory h ho gv hs hi hn
  exact ⟨fun hl => h1.search h2 (memory_consistent _) query hc' hl, fun hl => h1.symm.search (memory_consistent _) h2 query hc hl⟩

/-- **C78.** Whatever the schedule of the search and of the store's goroutines, Search on a disk store returns `d` iff for some query `d` was
saved under the query's field with one of the query's terms. -/
theorem c78_sound_complete {F : Type} [GoFloat F] {as : List Act} {s : Disk} (h : run {} (.open_ :: as) = some s) (ho : Act.open_ ∉ as)
    (gv : GoValues (calls as)) (hs : ∀ op ∈ calls as, op.isSave = true) (hi : s.idle = true) (hn : CacheSuffices as)
    (query : List (Query F)) {cpus : Nat} {l : Scores F} (hl : SState.Returns s.reads query cpus l) (d : String) :
    d ∈ l.map Prod.fst ↔ ∃ q ∈ query, ∃ t ∈ q.terms, Spec.Saved (calls as) q.fieldName t d := by
  obtain ⟨h1, h2⟩ := disk_reads_like_memory h ho gv hs hi hn
  obtain ⟨l', h3, h4⟩ := h1.search h2 (memory_consistent _) query (cpus' := 1) (by omega) hl
  rw [← c60_sound_complete _ hs query 1 h3 d]
  exact (h4.symm.map Prod.fst).mem_iff

/-- **C78, POST /nir and GET /nir** as main sets them up, on a disk store: if the saves made are those of a list of POST requests, the search of
GET /nir?query=q returns `d` iff an accepted request with id `d` had a title or a text that shares a term with `q`. -/
theorem c78_http {F : Type} [GoFloat F] {as : List Act} {s : Disk} (env : TextEnv) (bodies : List (Option Http.Document))
    (h : run {} (.open_ :: as) = some s) (ho : Act.open_ ∉ as) (hb : calls as = bodies.flatMap (callsOf env)) (hi : s.idle = true)
    (hn : CacheSuffices as) (q : String) {cpus : Nat} {l : Scores F}
    (hl : SState.Returns s.reads (Http.queries (termsOf env q)) cpus l) (d : String) : d ∈ l.map Prod.fst ↔
      ∃ doc, some doc ∈ bodies ∧ doc.id = d ∧ d ≠ "" ∧ ∃ t ∈ termsOf env q, t ∈ termsOf env doc.title ∨ t ∈ termsOf env doc.text := by
  have gv : GoValues (calls as) := by rw [hb]; exact (c68_http_finite env bodies).1
  have hs : ∀ op ∈ calls as, op.isSave = true := by rw [hb]; exact (c68_http_finite env bodies).2.1
  obtain ⟨h1, h2⟩ := disk_reads_like_memory h ho gv hs hi hn
  obtain ⟨l', h3, h4⟩ := h1.search h2 (memory_consistent _) _ (cpus' := 1) (by omega) hl
  obtain ⟨m, e1, e2⟩ := c70_searchable (F := F) env bodies
  have e3 := servePosts_eq env bodies
  rw [e1, ← hb] at e3
  cases e3
  rw [← e2 q 1 l' h3 d]
  exact (h4.symm.map Prod.fst).mem_iff

/-- a run that meets the hypotheses: the two requests of a client, with the writers at work in between. -/
def c78Run : List Act :=
  runOpen 300000 ++ runSave "7" ⟨"id", 1, [("7", 1)]⟩ ++ [.ix .recv] ++ runSave "7" ⟨"title", 1, [("cat", 1)]⟩ ++
    [.ix .recv, .ix .startMerge] ++ runSave "7" ⟨"text", 1, [("sat", 1)]⟩ ++ [.dc (.tick ["7"]), .dc .step, .read "7", .read "8"]

example : ∃ s, run {} (.open_ :: c78Run) = some s ∧ Act.open_ ∉ c78Run ∧ s.idle = true ∧ s.dc.fl.pc ≠ .idle ∧
    calls c78Run = [some ⟨"7", "The Cat", "sat"⟩, none].flatMap (callsOf demoEnv) :=
  exists_of_run (by decide +kernel)

example : CacheSuffices c78Run := by
  have h1 : calls c78Run = [.save "7" ⟨"id", 1, [("7", 1)]⟩, .save "7" ⟨"title", 1, [("cat", 1)]⟩, .save "7" ⟨"text", 1, [("sat", 1)]⟩] := by rfl
  intro n hm
  have hn : n = 300000 := by
    simp [c78Run, runOpen, runSave, GoMap.keys] at hm
    exact hm
  subst hn
  rw [h1]
  decide

end Goir
