import Verif.Lemmas.FolderServer
import Verif.Spec.FolderSearch
/-!
# C129: searches on any folder
-/
namespace Goir
open GoMap Spec Spec.Opening

namespace Opening
open BDisk

variable {root : Path} {z : Bytes → Bytes} {fs0 : FS} {F : Type}

/-- what is known of an answer: of every document whose id is the name of a file it is what the folder says, and no file of such a document is damaged. -/
structure Right (fs0 : FS) (root : Path) (m : CMem) (q : Query F) (st : LStats) (docs : GoMap String Field) : Prop where
  listed : ∀ d fl, docs.get? d = some fl → LSearch.Listed m q.terms q.fieldName d
  docs : ∀ d, PlainName d → ∀ fl, docs.get? d = some fl ↔ LSearch.Listed m q.terms q.fieldName d ∧ (doc0 fs0 root d).get? q.fieldName = some fl
  whole : ∀ d, PlainName d → LSearch.Listed m q.terms q.fieldName d → loadDoc fs0 root d ≠ none
  stats : st.len = m.fieldLength.getD q.fieldName 0 ∧ st.size = m.fieldSize.getD q.fieldName 0 ∧ ∀ t, st.nft.get? t = if t ∈ q.terms then some (m.df q.fieldName t) else none

theorem Right.back {m m' : CMem} (g : Grown m m') {q : Query F} {st : LStats} {docs : GoMap String Field} (h : Right fs0 root m' q st docs) : Right fs0 root m q st docs := by
  obtain ⟨⟨dc, n, rfl⟩, -, -⟩ := g
  exact ⟨h.listed, h.docs, h.whole, h.stats⟩

theorem Known.right {m : CMem} {q : Query F} {st : LStats} {docs : GoMap String Field} (h : Known fs0 root m q (.done st docs)) : Right fs0 root m q st docs := by
  have will : ∀ d, PlainName d → LSearch.Listed m q.terms q.fieldName d → ((doc0 fs0 root d).get? q.fieldName ≠ none ∨ loadDoc fs0 root d = none) → ∃ fl, docs.get? d = some fl := by
    rintro d hp ⟨t, ht, hl⟩ hor
    obtain ⟨sr, h1, h2⟩ := (CMem.view_contains _ _ _ _).1 hl
    obtain ⟨rf, h3, h4⟩ := Option.bind_eq_some_iff.1 h1
    exact h.will t ht d rf sr h3 h4 h2 hp hor
  refine ⟨fun d fl e => (h.known.2 d fl e).1, fun d hp fl => ⟨fun e => ⟨(h.known.2 d fl e).1, (h.known.2 d fl e).2 hp⟩, ?_⟩, fun d hp hl hn => ?_, h.stats⟩
  · rintro ⟨hl, hf⟩
    obtain ⟨fl', e⟩ := will d hp hl (.inl (by rw [hf]; simp))
    have := (h.known.2 d fl' e).2 hp
    rw [hf] at this
    cases this
    exact e
  · obtain ⟨fl', e⟩ := will d hp hl (.inr hn)
    have : (doc0 fs0 root d).get? q.fieldName = some fl' := (h.known.2 d fl' e).2 hp
    unfold doc0 at this
    rw [hn] at this
    cases this

variable [GoFloat F]

/-- a server whose clients only read, on the folder `fs0`; `m` is what it had in memory when it had opened the folder. -/
structure Serves (fs0 : FS) (root : Path) (m : CMem) (s : BServer F) : Prop where
  up : s.disk.d.up = true
  calm : Calm fs0 root s.disk
  grown : Grown m s.disk.d.mem
  known : ∀ r ∈ s.reqs, ∀ q x, (q, DQ.running x) ∈ r.threads → Known fs0 root s.disk.d.mem q x
  col : ∀ r ∈ s.reqs, DReq.Collects (Right fs0 root m) r

theorem Grown.trans {m m' m'' : CMem} (h : Grown m m') (h' : Grown m' m'') : Grown m m'' := by
  obtain ⟨⟨dc, n, rfl⟩, h2, h3⟩ := h
  obtain ⟨⟨dc', n', rfl⟩, h5, h6⟩ := h'
  exact ⟨⟨dc', n', rfl⟩, h2.trans h5, fun r hr => (h6 r (Nat.lt_of_lt_of_le hr h2)).trans (h3 r hr)⟩

theorem collects_bmove {R : Query F → LStats → GoMap String Field → Prop} {cpus : Nat} {d d' : BDisk} {s s' : DReq F} (h : DReq.Collects R s) (hm : BReq.Move root cpus d s d' (some s'))
    (hR : ∀ q st docs, (q, DQ.running (.done st docs)) ∈ s.threads → R q st docs ∧ docs.WF) : DReq.Collects R s' := by
  cases hm with
  | inner _ _ i q x x' ht hm =>
    obtain ⟨res, got, chan', h1, h3, h4, h5, h6⟩ := h.main
    have hq : (s.threads.set i (q, .running x')).map Prod.fst = s.threads.map Prod.fst := by
      rw [List.map_set]
      apply List.ext_getElem?
      intro j
      rw [List.getElem?_set]
      split
      · rename_i e
        subst e
        rw [List.getElem?_map, ht]
        have := (List.getElem?_eq_some_iff.1 ht).1
        simp [this]
      · rfl
    refine ⟨⟨res, got, chan', h1.trans hq.symm, ?_, h4, h5, h6⟩, ?_, ?_⟩
    · intro j e u hj hu
      rw [List.getElem?_set] at hu
      split at hu
      · rename_i hij; subst hij
        split at hu
        · cases hu
          exact (h3 i e _ hj ht :)
        · cases hu
      · exact h3 j e u hj hu
    · intro hc
      have := h.closed hc _ (List.mem_of_getElem? ht)
      cases this
    · intro l hl
      have := h.closed (h.res l hl).1 _ (List.mem_of_getElem? ht)
      cases this
  | send _ i q st docs order ht ho hc => exact DReq.collects_move (cpus := cpus) (d := d.d) (d' := d.d) h (.send _ _ i q st docs order ht ho hc) hR
  | close _ h1 hc => exact DReq.collects_move (cpus := cpus) (d := d.d) (d' := d.d) h (.close _ _ h1 hc) hR
  | recv _ l q h1 => exact DReq.collects_move (cpus := cpus) (d := d.d) (d' := d.d) h (.recv _ _ l q h1) hR
  | return_ _ order l h1 hr ho hl => exact DReq.collects_move (cpus := cpus) (d := d.d) (d' := d.d) h (.return_ _ _ order l h1 hr ho hl) hR

theorem serves_step {m : CMem} {cpus : Nat} {s s' : BServer F} (h : Serves fs0 root m s) (hs : BServer.UpStep z root OnlyReads cpus s s') : Serves fs0 root m s' := by
  obtain ⟨hs, hup⟩ := hs
  cases hs with
  | store a d ha hx =>
    have hup : d.d.up = true := hup
    have hreq : (if d.d.up then s.reqs else []) = s.reqs := by rw [hup]; rfl
    have g := exec_grown h.calm h.up hx hup
    refine ⟨hup, exec_calm h.calm ha hx, h.grown.trans g, ?_, ?_⟩
    · rw [hreq]; exact fun r hr q x hq => (h.known r hr q x hq).grow g
    · rw [hreq]; exact h.col
  | arrive query hu =>
    refine ⟨h.up, h.calm, h.grown, fun r hr q x hx => ?_, fun r hr => ?_⟩
    · rcases List.mem_append.1 hr with hr | hr
      · exact h.known r hr q x hx
      · cases List.mem_singleton.1 hr
        obtain ⟨q', -, e⟩ := List.mem_map.1 hx
        cases e
        exact ⟨trivial, ⟨rfl, rfl⟩, fun _ _ _ _ _ _ _ _ _ _ => trivial⟩
    · rcases List.mem_append.1 hr with hr | hr
      · exact h.col r hr
      · cases List.mem_singleton.1 hr
        exact DReq.collects_start _ query
  | req i r r' d hi hm =>
    have hmem := List.mem_of_getElem? hi
    have hcol : DReq.Collects (Right fs0 root m) r' := collects_bmove (h.col r hmem) hm fun q st docs hx => ⟨(h.known r hmem q _ hx).right.back h.grown, (h.known r hmem q _ hx).known.1⟩
    have cols : ∀ r0 ∈ s.reqs.set i r', DReq.Collects (Right fs0 root m) r0 := fun r0 hr0 => by
      rcases LFan.mem_set' hr0 with rfl | hr0
      · exact hcol
      · exact h.col r0 hr0
    cases hm with
    | inner _ _ j q x x' ht hm =>
      have hk := h.known r hmem q x (List.mem_of_getElem? ht)
      obtain ⟨c1, c2, -⟩ := bmove_known h.calm hk.known hm
      refine ⟨hup, c1, h.grown.trans c2.grown, fun r0 hr0 q0 x0 hx0 => ?_, cols⟩
      rcases LFan.mem_set' hr0 with rfl | hr0
      · rcases LFan.mem_set' hx0 with e | hx0
        · cases e; exact hk.move h.calm hm
        · exact (h.known r hmem q0 x0 hx0).grow c2.grown
      · exact (h.known r0 hr0 q0 x0 hx0).grow c2.grown
    | send _ j q st docs order ht ho hc =>
      refine ⟨h.up, h.calm, h.grown, fun r0 hr0 q0 x0 hx0 => ?_, cols⟩
      rcases LFan.mem_set' hr0 with rfl | hr0
      · rcases LFan.mem_set' hx0 with e | hx0
        · cases e
        · exact h.known r hmem q0 x0 hx0
      · exact h.known r0 hr0 q0 x0 hx0
    | _ =>
      refine ⟨h.up, h.calm, h.grown, fun r0 hr0 q0 x0 hx0 => ?_, cols⟩
      rcases LFan.mem_set' hr0 with rfl | hr0
      · exact h.known r hmem q0 x0 hx0
      · exact h.known r0 hr0 q0 x0 hx0
  | panics i r d hi hm =>
    have : ∀ {d'}, BReq.Move root cpus s.disk r d' none → d'.d.up = false := by
      intro d' hm
      cases hm with
      | panics _ _ i q x ht h =>
        cases h with
        | panics _ st fan i ids loc hg h =>
          cases loc with
          | load id todo out => simp only [BDisk.rexec] at h; split at h <;> cases h; rfl
          | get todo o => obtain ⟨y, hy, e⟩ := Option.map_eq_some_iff.1 h; cases e
          | field id r todo o => cases h
          | put id r todo o => obtain ⟨y, hy, e⟩ := Option.map_eq_some_iff.1 h; cases e
    have := this hm
    rw [show ({ disk := d } : BServer F).disk.d.up = d.d.up from rfl, this] at hup
    cases hup

/-! ### what the store answers -/

omit [GoFloat F] in
theorem damaged_iff {fs : FS} {id : String} (hp : PlainName id) : loadDoc fs root id = none ↔ DamagedDocument fs root id := by
  unfold loadDoc DamagedDocument
  rw [docPath hp]
  constructor
  · intro h
    split at h
    · cases h
    · rename_i buf hr
      refine ⟨buf, file_of_get hr, fun m hm => ?_⟩
      rw [decodeFields_iff.2 hm] at h
      cases h
  · rintro ⟨buf, h1, h2⟩
    rw [show fs.readFile (root ++ ["docs", "metrics", id]) = some buf by simp [FS.readFile, h1]]
    simp only [none_of_iff (fun m => decodeFields_iff) h2, Option.map_none]

omit [GoFloat F] in
theorem stored_iff {fs : FS} {id : String} (hp : PlainName id) (name : String) (fd : Field) : (doc0 fs root id).get? name = some fd ↔ Stored fs root id name fd := by
  by_cases h : loadDoc fs root id = none
  · obtain ⟨buf, h1, h2⟩ := (damaged_iff hp).1 h
    constructor
    · intro e; unfold doc0 at e; rw [h] at e; cases e
    · rintro ⟨buf', m, h3, h4, -⟩
      rw [h1] at h3; cases h3
      exact absurd h4 (h2 m)
  · exact loadDoc_some hp h name fd

omit [GoFloat F] in
theorem has_iff (d : CDisk) (files : String → GoMap String Field) (f t id : String) : (d.readsOf files).has f t id = true ↔ GoSet.contains (d.getDocuments f t).1 id = true := by
  unfold Reads.has
  constructor
  · intro h; exact (Bool.and_eq_true_iff.1 h).2
  · intro h
    refine Bool.and_eq_true_iff.2 ⟨?_, h⟩
    obtain ⟨sr, h4, -⟩ := (CMem.view_contains _ _ _ _).1 h
    exact (CMem.view_ok _ _ _).2 ⟨sr, h4⟩

omit [GoFloat F] in
theorem listed_iff (d : CDisk) (files : String → GoMap String Field) (f : String) (terms : List String) (id : String) : (d.readsOf files).matches f terms id = true ↔ LSearch.Listed d.mem terms f id := by
  unfold Reads.matches LSearch.Listed
  rw [List.any_eq_true]
  exact exists_congr fun t => and_congr_right fun _ => has_iff d files f t id

omit [GoFloat F] in
/-- a process that has opened a folder answers what the folder says. -/
theorem answers_opened {t s : BDisk} {k : Nat} {n : Int} {progs : List (List DOp)} (h0 : Tree root t.fs) (hz : ∀ d, Gz.Written d (z d)) (h : t.kill.run z root (opening k n progs) = some s) (hu : s.d.up = true) :
    Answers t.fs root (s.d.readsOf (doc0 t.fs root)) := by
  refine ⟨fun f t' d => (has_iff _ _ _ _ _).trans (c128_documents h0 hz h hu f t' d), fun ids f d hp fd => ?_, fun f => (c128_numbers h0 hz h hu f).1, fun f terms t' ht => ?_⟩
  · rw [readsOf_fields, ← stored_iff hp]
    by_cases hd : d ∈ ids <;> simp [hd]
  · have e : ((s.d.readsOf (doc0 t.fs root)).getNumberFieldTerm f terms).getD t' 0 = (s.d.getNumberFieldTerm f [t']).getD t' 0 := by
      show (s.d.mem.view.getNumberFieldTerm f terms).getD t' 0 = (s.d.mem.view.getNumberFieldTerm f [t']).getD t' 0
      rw [GoMap.getD, GoMap.getD, CMem.view_nft, CMem.view_nft]
      simp [ht]
    rw [e]
    exact ⟨fun m hm => (c128_numbers h0 hz h hu f).2.1 m hm t', fun hn => (c128_numbers h0 hz h hu f).2.2 hn t'⟩

/-- the score that an answer gives a document. -/
theorem Right.score {s : CDisk} {a : Answer F} (h : Right fs0 root s.mem a.query a.stats a.docs) {d : String} (hp : PlainName d) : a.score d = queryScore (s.readsOf (doc0 fs0 root)) a.query d := by
  have hd := h.docs d hp
  obtain ⟨h1, h2, h3⟩ := h.stats
  have hl := listed_iff s (doc0 fs0 root) a.query.fieldName a.query.terms d
  have hf : (s.readsOf (doc0 fs0 root)).fieldOf d a.query.fieldName = (doc0 fs0 root d).get? a.query.fieldName := by
    unfold Reads.fieldOf
    rw [readsOf_fields]; simp
  have e : a.docs.get? d = if (s.readsOf (doc0 fs0 root)).matches a.query.fieldName a.query.terms d = true then (s.readsOf (doc0 fs0 root)).fieldOf d a.query.fieldName else none := by
    rw [hf]
    by_cases hm : (s.readsOf (doc0 fs0 root)).matches a.query.fieldName a.query.terms d = true
    · rw [if_pos hm]
      cases hx : (doc0 fs0 root d).get? a.query.fieldName with
      | some fl => exact (hd fl).2 ⟨hl.1 hm, hx⟩
      | none =>
        cases hy : a.docs.get? d with
        | none => rfl
        | some fl => have := ((hd fl).1 hy).2; rw [hx] at this; cases this
    · rw [if_neg hm]
      cases hy : a.docs.get? d with
      | none => rfl
      | some fl => exact absurd (hl.2 ((hd fl).1 hy).1) hm
  unfold Answer.score queryScore
  rw [e]
  split
  · congr 1
    funext field
    rw [h1, h2]
    exact bm25_congr fun t => by rw [h3]; exact (CMem.view_nft _ _ _ _).symm
  · rfl

/-- the process that opened the folder serves it. -/
theorem serves {t s₀ : BDisk} {k : Nat} {n : Int} {progs : List (List DOp)} (h0 : Tree root t.fs) (ho : ∀ p ∈ progs, ∀ op ∈ p, ∃ ids name, op = DOp.getFields ids name)
    (h : t.kill.run z root (opening k n progs) = some s₀) (hu : s₀.d.up = true) {cpus : Nat} {s : BServer F} (hs : Reaches (BServer.UpStep z root OnlyReads cpus) { disk := s₀ } s) : Serves t.fs root s₀.d.mem s := by
  refine hs.invariant ⟨hu, run_calm h0 h fun a ha => ?_, Grown.refl _, fun r hr => (by cases hr), fun r hr => (by cases hr)⟩ fun _ _ => serves_step
  simp only [opening, List.mem_cons, List.mem_append, List.mem_replicate, List.not_mem_nil, or_false] at ha
  rcases ha with rfl | ⟨-, rfl⟩ | rfl
  · trivial
  · trivial
  · exact ho

end Opening
open Opening

/-- **C129 Searches on any folder.** The folder holds any bytes. A process has opened it; its clients only read; any number of searches run at the same time, while the store merges its index in the background. There is one store `st`
that stands still and whose answers are what the files of the folder say, such that every search that has returned has returned what Standard.Search returns on `st`: every document (whose id is the name of a file) once, with the sum of
the BM25 scores that the queries give it — a document is in the answer exactly if a query gives it a score. -/
theorem c129_search {F : Type} [GoFloat F] {root : Path} {z : Bytes → Bytes} {t s₀ : BDisk} {k : Nat} {n : Int} {progs : List (List DOp)} (h0 : Tree root t.fs) (hz : ∀ d, Gz.Written d (z d))
    (ho : ∀ p ∈ progs, ∀ op ∈ p, ∃ ids name, op = DOp.getFields ids name) (h : t.kill.run z root (opening k n progs) = some s₀) (hu : s₀.d.up = true) :
    ∃ st : Reads, Answers t.fs root st ∧ st.Consistent ∧ ∀ (cpus : Nat) (s : BServer F), Reaches (BServer.UpStep z root OnlyReads cpus) { disk := s₀ } s → ∀ r ∈ s.reqs, ∀ l : Scores F, r.result = some l →
      (l.map Prod.fst).Nodup ∧ ∃ qs : List (Query F), qs.Perm r.query ∧ ∀ d, PlainName d → ∀ x, (d, x) ∈ l ↔ docScores st qs d ≠ [] ∧ x = (docScores st qs d).foldl GoFloat.add (GoFloat.lit 0) := by
  refine ⟨_, answers_opened h0 hz h hu, readsOf_consistent _ _, fun cpus s hs r hr l hl => ?_⟩
  have hv := serves h0 ho h hu hs
  obtain ⟨as, a1, a2, a3, -⟩ := DReq.collects_result (hv.col r hr) hl
  refine ⟨a3.1, as.map Answer.query, a1, fun d hp x => ?_⟩
  have e : as.filterMap (·.score d) = docScores (s₀.d.readsOf (doc0 t.fs root)) (as.map Answer.query) d := by
    unfold docScores
    rw [List.filterMap_map]
    exact List.filterMap_congr fun a ha' => (a2 a ha').score hp
  rw [a3.2, e]

/-- **C129, as a result of Standard.Search.** If every id that the folder lists is the name of a file, then what a search has returned, sorting included, is what Standard.Search can return on that store. -/
theorem c129_returns {F : Type} [GoFloat F] {root : Path} {z : Bytes → Bytes} {t s₀ : BDisk} {k : Nat} {n : Int} {progs : List (List DOp)} (h0 : Tree root t.fs) (hz : ∀ d, Gz.Written d (z d))
    (ho : ∀ p ∈ progs, ∀ op ∈ p, ∃ ids name, op = DOp.getFields ids name) (h : t.kill.run z root (opening k n progs) = some s₀) (hu : s₀.d.up = true) (hp : ∀ f term d, Says t.fs root f term d → PlainName d) :
    ∃ st : Reads, Answers t.fs root st ∧ st.Consistent ∧ ∀ (cpus : Nat) (s : BServer F), Reaches (BServer.UpStep z root OnlyReads cpus) { disk := s₀ } s → ∀ r ∈ s.reqs, ∀ l : Scores F, r.result = some l →
      ∀ cpus', 0 < cpus' → SState.Returns st r.query cpus' l := by
  refine ⟨_, answers_opened h0 hz h hu, readsOf_consistent _ _, fun cpus s hs r hr l hl cpus' hc => ?_⟩
  have hv := serves h0 ho h hu hs
  refine Server.returns (files := doc0 t.fs root) (s := s₀.d) ((hv.col r hr).mono fun q st docs hR => ⟨fun d fl => ?_, hR.stats⟩) hl hc (readsOf_consistent _ _)
  have plain : LSearch.Listed s₀.d.mem q.terms q.fieldName d → PlainName d := by
    rintro ⟨term, -, hl⟩
    exact hp q.fieldName term d ((c128_documents h0 hz h hu q.fieldName term d).1 hl)
  constructor
  · intro e
    have hl := hR.listed d fl e
    exact (hR.docs d (plain hl) fl).1 e
  · rintro ⟨hl, e⟩
    exact (hR.docs d (plain hl) fl).2 ⟨hl, e⟩

/-- **C129, nothing is passed over.** No file of a document that a search which has returned had to read is damaged: a damaged document ends the process, it is never silently left out. -/
theorem c129_no_damage {F : Type} [GoFloat F] {root : Path} {z : Bytes → Bytes} {t s₀ : BDisk} {k : Nat} {n : Int} {progs : List (List DOp)} (h0 : Tree root t.fs) (hz : ∀ d, Gz.Written d (z d))
    (ho : ∀ p ∈ progs, ∀ op ∈ p, ∃ ids name, op = DOp.getFields ids name) (h : t.kill.run z root (opening k n progs) = some s₀) (hu : s₀.d.up = true) {cpus : Nat} {s : BServer F}
    (hs : Reaches (BServer.UpStep z root OnlyReads cpus) { disk := s₀ } s) {r : DReq F} (hr : r ∈ s.reqs) {l : Scores F} (hl : r.result = some l) {q : Query F} (hq : q ∈ r.query) {term d : String} (ht : term ∈ q.terms)
    (hd : PlainName d) (hsays : Says t.fs root q.fieldName term d) : ¬ DamagedDocument t.fs root d := by
  have hv := serves h0 ho h hu hs
  obtain ⟨as, a1, a2, -⟩ := DReq.collects_result (hv.col r hr) hl
  obtain ⟨a, ha, rfl⟩ := List.mem_map.1 (a1.mem_iff.2 hq)
  rw [← damaged_iff hd]
  exact (a2 a ha).whole d hd ⟨term, ht, (c128_documents h0 hz h hu _ term d).2 hsays⟩

/-- **C129, no panic.** If every id that the folder lists is the name of a file, and no file of a listed document is damaged, then no search ends the process. -/
theorem c129_no_panic {F : Type} [GoFloat F] {root : Path} {z : Bytes → Bytes} {t s₀ : BDisk} {k : Nat} {n : Int} {progs : List (List DOp)} (h0 : Tree root t.fs) (hz : ∀ d, Gz.Written d (z d))
    (ho : ∀ p ∈ progs, ∀ op ∈ p, ∃ ids name, op = DOp.getFields ids name) (h : t.kill.run z root (opening k n progs) = some s₀) (hu : s₀.d.up = true)
    (hp : ∀ f term d, Says t.fs root f term d → PlainName d ∧ ¬ DamagedDocument t.fs root d) {cpus : Nat} {s : BServer F} (hs : Reaches (BServer.UpStep z root OnlyReads cpus) { disk := s₀ } s) {r : DReq F} (hr : r ∈ s.reqs)
    (d : BDisk) : ¬ BReq.Move root cpus s.disk r d none := by
  have hv := serves h0 ho h hu hs
  intro hm
  cases hm with
  | panics _ _ i q x ht hm =>
    have hk := (hv.known r hr q x (List.mem_of_getElem? ht)).known
    cases hm with
    | panics _ st fan i ids loc hg hx =>
      obtain ⟨k1, k2, -⟩ := hk.1 _ (List.mem_of_getElem? hg)
      obtain ⟨id, hi, hn⟩ := rexec_panics hv.calm k2 hx
      obtain ⟨term, -, hl⟩ := k1 id hi
      have hl : GoSet.contains (s₀.d.getDocuments q.fieldName term).1 id = true := by
        obtain ⟨⟨dc, n', e⟩, -, -⟩ := hv.grown
        rw [e] at hl
        exact hl
      obtain ⟨p1, p2⟩ := hp _ _ _ ((c128_documents h0 hz h hu q.fieldName term id).1 hl)
      exact p2 ((damaged_iff p1).1 (hn p1))

/-! ### replicas -/

namespace Spec.Opening

theorem SameFolder.symm {fs fs' : FS} {root root' : Path} (h : SameFolder fs root fs' root') : SameFolder fs' root' fs root := fun p => (h p).symm

theorem SameFolder.says {fs fs' : FS} {root root' : Path} (h : SameFolder fs root fs' root') {f t d : String} (hs : Says fs root f t d) : Says fs' root' f t d := by
  obtain ⟨⟨h1, h2⟩, p, buf, m, ds, hp, h3⟩ := hs
  refine ⟨⟨by rw [← h]; exact h1, h2⟩, ?_⟩
  cases hp with
  | index hb => exact ⟨_, buf, m, ds, .index (by rw [← h]; exact hb), h3⟩
  | fragment hb => exact ⟨_, buf, m, ds, .fragment (by rw [← h]; exact hb), h3⟩

theorem SameFolder.stored {fs fs' : FS} {root root' : Path} (h : SameFolder fs root fs' root') {id name : String} {fd : Field} (hs : Stored fs root id name fd) : Stored fs' root' id name fd := by
  obtain ⟨buf, m, h1, h2⟩ := hs
  exact ⟨buf, m, by rw [← h]; exact h1, h2⟩

theorem SameFolder.metrics {fs fs' : FS} {root root' : Path} (h : SameFolder fs root fs' root') {f : String} {x y : Int} (hs : Metrics fs root f x y) : Metrics fs' root' f x y := by
  obtain ⟨g, buf, ⟨h1, h2⟩, h3, h4⟩ := hs
  exact ⟨g, buf, ⟨by rw [← h]; exact h1, h2⟩, by rw [← h]; exact h3, h4⟩

theorem SameFolder.counts {fs fs' : FS} {root root' : Path} (h : SameFolder fs root fs' root') {f : String} {m : GoMap String Int} (hs : Counts fs root f m) : Counts fs' root' f m := by
  obtain ⟨⟨h1, h2⟩, buf, h3, h4⟩ := hs
  exact ⟨⟨by rw [← h]; exact h1, h2⟩, buf, by rw [← h]; exact h3, h4⟩

/-- stores that answer what the same contents say give every document the same scores. -/
theorem Answers.score {F : Type} [GoFloat F] {fs fs' : FS} {root root' : Path} {st st' : Reads} (hs : SameFolder fs root fs' root') (hone : OneMetrics fs root) (h : Answers fs root st) (h' : Answers fs' root' st') (q : Query F) {d : String}
    (hp : PlainName d) : queryScore st q d = queryScore st' q d := by
  have hm : st.getFieldSize q.fieldName = st'.getFieldSize q.fieldName ∧ st.getFieldLength q.fieldName = st'.getFieldLength q.fieldName := by
    rcases h.metrics q.fieldName with h1 | ⟨h1, h2, h3⟩ <;> rcases h'.metrics q.fieldName with h4 | ⟨h4, h5, h6⟩
    · exact hone _ _ _ _ _ h1 (hs.symm.metrics h4)
    · exact absurd (hs.metrics h1) (h4 _ _)
    · exact absurd (hs.symm.metrics h4) (h1 _ _)
    · exact ⟨h2.trans h5.symm, h3.trans h6.symm⟩
  refine queryScore_congr (fun t _ => ?_) ?_ hm.1 hm.2 fun t ht => ?_
  · rw [Bool.eq_iff_iff, h.documents, h'.documents]
    exact ⟨hs.says, hs.symm.says⟩
  · unfold Reads.fieldOf
    apply Option.ext
    intro fd
    rw [h.fields _ _ _ hp, h'.fields _ _ _ hp]
    exact and_congr_right fun _ => ⟨hs.stored, hs.symm.stored⟩
  · by_cases hc : ∃ m, Counts fs root q.fieldName m
    · obtain ⟨m, hc⟩ := hc
      rw [(h.counts _ _ t ht).1 m hc, (h'.counts _ _ t ht).1 m (hs.counts hc)]
    · rw [(h.counts _ _ t ht).2 fun m hm => hc ⟨m, hm⟩, (h'.counts _ _ t ht).2 fun m hm => hc ⟨m, hs.symm.counts hm⟩]

end Spec.Opening

/-- **C129 Replicas answer alike.** Two processes, with programs, caches and processors of their own, have opened two copies of a folder, and their clients only read. Then, over the reals, two searches with the same queries return
the same documents with the same scores, whatever else the processes do. -/
theorem c129_replicas {root root' : Path} {z z' : Bytes → Bytes} {t t' s₀ s₀' : BDisk} {k k' : Nat} {n n' : Int} {progs progs' : List (List DOp)} (h0 : Tree root t.fs) (h0' : Tree root' t'.fs) (hz : ∀ d, Gz.Written d (z d))
    (hz' : ∀ d, Gz.Written d (z' d)) (same : SameFolder t.fs root t'.fs root') (one : OneMetrics t.fs root) (ho : ∀ p ∈ progs, ∀ op ∈ p, ∃ ids name, op = DOp.getFields ids name)
    (ho' : ∀ p ∈ progs', ∀ op ∈ p, ∃ ids name, op = DOp.getFields ids name) (h : t.kill.run z root (opening k n progs) = some s₀) (hu : s₀.d.up = true) (h' : t'.kill.run z' root' (opening k' n' progs') = some s₀')
    (hu' : s₀'.d.up = true) {cpus cpus' : Nat} {s s' : BServer ℝ} (hs : Reaches (BServer.UpStep z root OnlyReads cpus) { disk := s₀ } s) (hs' : Reaches (BServer.UpStep z' root' OnlyReads cpus') { disk := s₀' } s')
    {r r' : DReq ℝ} (hr : r ∈ s.reqs) (hr' : r' ∈ s'.reqs) (hq : r.query.Perm r'.query) {l l' : Scores ℝ} (hl : r.result = some l) (hl' : r'.result = some l') {d : String} (hp : PlainName d) (x : ℝ) : (d, x) ∈ l ↔ (d, x) ∈ l' := by
  obtain ⟨st, a1, -, a2⟩ := c129_search (F := ℝ) h0 hz ho h hu
  obtain ⟨st', b1, -, b2⟩ := c129_search (F := ℝ) h0' hz' ho' h' hu'
  obtain ⟨-, qs, p1, e1⟩ := a2 cpus s hs r hr l hl
  obtain ⟨-, qs', p2, e2⟩ := b2 cpus' s' hs' r' hr' l' hl'
  have e : docScores st qs d = docScores st' qs d := List.filterMap_congr fun q _ => Answers.score same one a1 b1 q hp
  rw [e1 d hp, e2 d hp, foldl_add_real, foldl_add_real, e]
  have hpp := docScores_perm (st := st') (p1.trans (hq.trans p2.symm)) d
  rw [hpp.sum_eq, ne_eq, ne_eq, perm_nil_iff hpp]

/-- … and for a single query over any kind of number. -/
theorem c129_replicas_one {F : Type} [GoFloat F] {root root' : Path} {z z' : Bytes → Bytes} {t t' s₀ s₀' : BDisk} {k k' : Nat} {n n' : Int} {progs progs' : List (List DOp)} (h0 : Tree root t.fs) (h0' : Tree root' t'.fs)
    (hz : ∀ d, Gz.Written d (z d)) (hz' : ∀ d, Gz.Written d (z' d)) (same : SameFolder t.fs root t'.fs root') (one : OneMetrics t.fs root) (ho : ∀ p ∈ progs, ∀ op ∈ p, ∃ ids name, op = DOp.getFields ids name)
    (ho' : ∀ p ∈ progs', ∀ op ∈ p, ∃ ids name, op = DOp.getFields ids name) (h : t.kill.run z root (opening k n progs) = some s₀) (hu : s₀.d.up = true) (h' : t'.kill.run z' root' (opening k' n' progs') = some s₀')
    (hu' : s₀'.d.up = true) {cpus cpus' : Nat} {s s' : BServer F} (hs : Reaches (BServer.UpStep z root OnlyReads cpus) { disk := s₀ } s) (hs' : Reaches (BServer.UpStep z' root' OnlyReads cpus') { disk := s₀' } s')
    {r r' : DReq F} (hr : r ∈ s.reqs) (hr' : r' ∈ s'.reqs) {q : Query F} (hq : r.query = [q]) (hq' : r'.query = [q]) {l l' : Scores F} (hl : r.result = some l) (hl' : r'.result = some l') {d : String} (hp : PlainName d) (x : F) :
    (d, x) ∈ l ↔ (d, x) ∈ l' := by
  obtain ⟨st, a1, -, a2⟩ := c129_search (F := F) h0 hz ho h hu
  obtain ⟨st', b1, -, b2⟩ := c129_search (F := F) h0' hz' ho' h' hu'
  obtain ⟨-, qs, p1, e1⟩ := a2 cpus s hs r hr l hl
  obtain ⟨-, qs', p2, e2⟩ := b2 cpus' s' hs' r' hr' l' hl'
  rw [hq] at p1
  rw [hq'] at p2
  obtain rfl := List.perm_singleton.1 p1
  obtain rfl := List.perm_singleton.1 p2
  have e : docScores st [q] d = docScores st' [q] d := List.filterMap_congr fun q _ => Answers.score same one a1 b1 q hp
  rw [e1 d hp, e2 d hp, e]

end Goir
