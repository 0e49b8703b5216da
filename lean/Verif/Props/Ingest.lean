import Verif.Model.Ingest
import Verif.Props.Flatten
import Verif.Props.Http
import Verif.Props.DiskSearch
/-!
# C81, C82: indexing JSON documents
-/
namespace Goir
open GoMap Spec

/-- the id under which a document is indexed: the text of its top-level `Id`, or the uuid if there is none or it is empty. -/
def IdOf (uuid : String) (o : JObj JLeaf) (id : String) : Prop :=
  (∃ v, LeafAt o ["Id"] v ∧ v.sprintS ≠ "" ∧ id = v.sprintS) ∨ ((∀ v, LeafAt o ["Id"] v → v.sprintS = "") ∧ id = uuid)

/-- the value at the dotted path `name` has the term `t`. -/
def HasTerm (env : TextEnv) (o : JObj JLeaf) (name t : String) : Prop :=
  ∃ p v, LeafAt o p v ∧ name = dotted p ∧ t ∈ termsOf env v.sprintS

namespace Ingest

/-- the calls on the store: a field per entry of the flattened document. -/
def callsOf (env : TextEnv) (id : String) (order : GoMap String JLeaf) : List StoreOp :=
  order.map fun e => .save id (Text.makeField e.1 (termsOf env e.2.sprintS))

/-- the calls that indexing a document can make. -/
def Calls (env : TextEnv) (uuid : String) (o : JObj JLeaf) (ops : List StoreOp) : Prop :=
  ∃ order₁ order₂ : GoMap String JLeaf, order₁.Perm (JObj.flatten o) ∧ order₂.Perm (JObj.flatten o) ∧ ops = callsOf env (docId uuid order₁) order₂

theorem fields_eq (env : TextEnv) (order : GoMap String JLeaf) :
    fields env order = some (order.map fun e => Text.makeField e.1 (termsOf env e.2.sprintS)) := by
  have : ∀ (order : GoMap String JLeaf) (acc : List Field), order.foldlM (fun fields e => do
      let r ← Text.preprocessing env e.2.sprintS
      return fields ++ [Text.makeField e.1 r]) acc = some (acc ++ order.map fun e => Text.makeField e.1 (termsOf env e.2.sprintS)) := by
    intro order
    induction order with
    | nil => intro acc; simp
    | cons e order ih =>
      intro acc
      rw [List.foldlM_cons, preprocessing_some]
      refine (ih (acc ++ [Text.makeField e.1 (termsOf env e.2.sprintS)])).trans ?_
      simp
  exact (this order []).trans (by simp)

theorem indexes_iff (env : TextEnv) (uuid : String) (h : List StoreOp) (o : JObj JLeaf) (out : Option Memory) :
    Indexes env uuid (Memory.run h) o out ↔ ∃ ops, Calls env uuid o ops ∧ out = some (Memory.run (h ++ ops)) := by
  have key : ∀ (id : String) (order : GoMap String JLeaf), (fields env order).map (fun fs => (Memory.run h).indexDocument id ⟨fs⟩) =
      some (Memory.run (h ++ callsOf env id order)) := by
    intro id order
    rw [fields_eq]
    simp only [Option.map_some, Option.some.injEq, Memory.indexDocument, Memory.run, List.foldl_append, callsOf, List.foldl_map]
    rfl
  unfold Indexes Calls
  simp only [key]
  constructor
  · rintro ⟨o1, o2, p1, p2, e⟩; exact ⟨_, ⟨o1, o2, p1, p2, rfl⟩, e⟩
  · rintro ⟨ops, ⟨o1, o2, p1, p2, rfl⟩, e⟩; exact ⟨o1, o2, p1, p2, e⟩

theorem flatten_wf (o : JObj JLeaf) : (JObj.flatten o).WF := by
  have : ∀ (o : JObj JLeaf) (out : GoMap String JLeaf) (pfx : String), out.WF → (JObj.recFlatten o out pfx).WF := by
    intro o
    induction o with
    | nil => intro out pfx h; exact h
    | leaf k v rest ih => intro out pfx h; exact ih _ _ (h.set _ _)
    | sub k o rest ih1 ih2 => intro out pfx h; exact ih2 _ _ (ih1 _ _ h)
  exact this o [] "" (by simp)

theorem docId_spec {uuid : String} {o : JObj JLeaf} (wf : o.WF) (plain : PlainKeys o) {order : GoMap String JLeaf}
    (hp : order.Perm (JObj.flatten o)) : IdOf uuid o (docId uuid order) := by
  have e : JObj.getID JLeaf.sprintS order = JObj.getID JLeaf.sprintS (JObj.flatten o) :=
    (c11_getID JLeaf.sprintS (JObj.flatten o)).2.2 (flatten_wf o) order hp.symm
  unfold docId
  simp only [e]
  by_cases hid : JObj.getID JLeaf.sprintS (JObj.flatten o) = ""
  · rw [if_pos hid]
    refine .inr ⟨fun v hv => ?_, rfl⟩
    rw [c11_getID_flatten _ o wf plain v hv] at hid
    exact hid
  · rw [if_neg hid]
    refine .inl ?_
    have := mt (c11_getID JLeaf.sprintS (JObj.flatten o)).2.1.2 hid
    cases hg : (JObj.flatten o).get? "Id" with
    | none => exact absurd (.inl hg) this
    | some v =>
      obtain ⟨p, hpv, hd⟩ := (c09_flatten_exact o wf plain "Id" v).1 hg
      have hv := (c11_getID JLeaf.sprintS (JObj.flatten o)).1 v hg
      have hpv' : LeafAt o ["Id"] v := by
        have := c09_top_level plain hpv (by decide) hd
        rw [this] at hpv; exact hpv
      exact ⟨v, hpv', by rw [← hv]; exact hid, hv⟩

theorem mem_order {o : JObj JLeaf} (wf : o.WF) (plain : PlainKeys o) {order : GoMap String JLeaf} (hp : order.Perm (JObj.flatten o)) (k : String) (v : JLeaf) :
    (k, v) ∈ order ↔ ∃ p, LeafAt o p v ∧ k = dotted p := by
  rw [hp.mem_iff, ← GoMap.get?_eq_some_iff (flatten_wf o), c09_flatten_exact o wf plain]

theorem calls_saves {env : TextEnv} {uuid : String} {o : JObj JLeaf} {ops : List StoreOp} (h : Calls env uuid o ops) :
    ∀ op ∈ ops, op.isSave = true ∧ op.field.tf.WF := by
  obtain ⟨o1, o2, p1, p2, rfl⟩ := h
  intro op hop
  obtain ⟨e, -, rfl⟩ := List.mem_map.1 hop
  exact ⟨rfl, (c08_field_length _ _).2.1⟩

/-- the calls for one document save it under one id, with each of its dotted paths once. -/
theorem calls_spec {env : TextEnv} {uuid : String} {o : JObj JLeaf} (wf : o.WF) (plain : PlainKeys o) {ops : List StoreOp} (h : Calls env uuid o ops) :
    ∃ id, IdOf uuid o id ∧ (ops.map fun op => op.field.name).Nodup ∧
      ∀ op, op ∈ ops ↔ ∃ p v, LeafAt o p v ∧ op = .save id (Text.makeField (dotted p) (termsOf env v.sprintS)) := by
  obtain ⟨o1, o2, p1, p2, rfl⟩ := h
  refine ⟨_, docId_spec wf plain p1, ?_, fun op => ?_⟩
  · have : ((callsOf env (docId uuid o1) o2).map fun op => op.field.name) = GoMap.keys o2 := by
      simp [callsOf, GoMap.keys, Function.comp_def, StoreOp.field, Text.makeField]
    rw [this]
    exact (p2.map Prod.fst).nodup_iff.2 (flatten_wf o)
  · simp only [callsOf, List.mem_map]
    constructor
    · rintro ⟨⟨k, v⟩, he, rfl⟩
      obtain ⟨p, hp, rfl⟩ := (mem_order wf plain p2 _ _).1 he
      exact ⟨p, v, hp, rfl⟩
    · rintro ⟨p, v, hp, rfl⟩
      exact ⟨(dotted p, v), (mem_order wf plain p2 _ _).2 ⟨p, hp, rfl⟩, rfl⟩

theorem idOf_unique {uuid : String} {o : JObj JLeaf} (wf : o.WF) (plain : PlainKeys o) {a b : String} (h : IdOf uuid o a) (h' : IdOf uuid o b) : a = b := by
  rcases h with ⟨v, h1, h2, rfl⟩ | ⟨h1, rfl⟩
  · rcases h' with ⟨w, g1, g2, rfl⟩ | ⟨g1, rfl⟩
    · rw [(c09_path_unique wf plain h1 g1 rfl).2]
    · exact absurd (g1 v h1) h2
  · rcases h' with ⟨w, g1, g2, rfl⟩ | ⟨g1, rfl⟩
    · exact absurd (h1 w g1) g2
    · rfl

end Ingest

open Ingest

/-- **C81.** Indexing a JSON document whose keys are non-empty and dot-free never panics, and whatever the iteration orders of the maps: the document gets
the id of the specification; GetDocuments has, besides what it had, exactly that id under each dotted path and each term of the text of the value there;
GetFields finds each of its paths, and everything else as before; and the size of exactly its paths grows by one. -/
theorem c81_indexed (env : TextEnv) (uuid : String) (h : List StoreOp) {o : JObj JLeaf} (wf : o.WF) (plain : PlainKeys o) {out : Option Memory}
    (hi : Indexes env uuid (Memory.run h) o out) : ∃ m' id, out = some m' ∧ IdOf uuid o id ∧
      (∀ name t d, GoSet.contains (m'.getDocuments name t).1 d = true ↔
        GoSet.contains ((Memory.run h).getDocuments name t).1 d = true ∨ (d = id ∧ HasTerm env o name t)) ∧
      (∀ p v, LeafAt o p v → (m'.getFields [id] (dotted p)).get? id = some (Text.makeField (dotted p) (termsOf env v.sprintS))) ∧
      (∀ d name, ¬ (d = id ∧ ∃ p v, LeafAt o p v ∧ name = dotted p) → (m'.getFields [d] name).get? d = ((Memory.run h).getFields [d] name).get? d) ∧
      (∀ p v, LeafAt o p v → m'.getFieldSize (dotted p) = (Memory.run h).getFieldSize (dotted p) + 1) ∧
      (∀ name, (∀ p v, LeafAt o p v → name ≠ dotted p) → m'.getFieldSize name = (Memory.run h).getFieldSize name) := by
  obtain ⟨ops, hc, rfl⟩ := (indexes_iff ..).1 hi
  obtain ⟨id, hid, hn, hm⟩ := calls_spec wf plain hc
  have hcount : ∀ name, (Memory.run (h ++ ops)).getFieldSize name = (Memory.run h).getFieldSize name + callCount ops name := by
    intro name
    rw [Memory.run, Memory.run, Memory.size_foldl_apply, Memory.size_foldl_apply]
    simp only [callCount, List.filter_append, List.length_append]
    push_cast; omega
  refine ⟨_, id, rfl, hid, fun name t d => ?_, fun p v hp => ?_, fun d name hnot => ?_, fun p v hp => ?_, fun name hnot => ?_⟩
  · rw [(c13_memory_postings_exact _ _ _).1, (c13_memory_postings_exact _ _ _).1]
    unfold Posted HasTerm
    simp only [List.mem_append, or_and_right, exists_or]
    apply or_congr Iff.rfl
    constructor
    · rintro ⟨op, hop, h1, h2, h3⟩
      obtain ⟨p, v, hp, rfl⟩ := (hm op).1 hop
      exact ⟨h1.symm, p, v, hp, h2.symm, (mem_makeField _ _ _).1 h3⟩
    · rintro ⟨rfl, p, v, hp, rfl, ht⟩
      exact ⟨_, (hm _).2 ⟨p, v, hp, rfl⟩, rfl, rfl, (mem_makeField _ _ _).2 ht⟩
  · rw [c14_memory_getFields_latest, if_pos (by simp)]
    unfold lastSaved
    rw [List.reverse_append, List.findSome?_append]
    have hmem := (hm _).2 ⟨p, v, hp, rfl⟩
    have hs : ∀ op ∈ ops.reverse, op.isSave = true ∧ op.doc = id ∧ op.field.name = dotted p → op.field = Text.makeField (dotted p) (termsOf env v.sprintS) := by
      intro op hop ⟨_, _, hname⟩
      obtain ⟨q, w, hq, rfl⟩ := (hm op).1 (List.mem_reverse.1 hop)
      obtain ⟨rfl, rfl⟩ := c09_path_unique wf plain hq hp hname
      rfl
    cases hf : ops.reverse.findSome? (fun op => if op.isSave = true ∧ op.doc = id ∧ op.field.name = dotted p then some op.field else none) with
    | none =>
      have := (List.findSome?_eq_none_iff.1 hf) _ (List.mem_reverse.2 hmem)
      simp [StoreOp.isSave, StoreOp.doc, StoreOp.field, Text.makeField] at this
    | some x =>
      obtain ⟨op, hop, hx⟩ := List.exists_of_findSome?_eq_some hf
      split at hx
      · rename_i hc; cases hx; rw [hs op hop hc]; rfl
      · cases hx
  · rw [c14_memory_getFields_latest, c14_memory_getFields_latest, if_pos (by simp), if_pos (by simp)]
    unfold lastSaved
    rw [List.reverse_append, List.findSome?_append]
    have : ops.reverse.findSome? (fun op => if op.isSave = true ∧ op.doc = d ∧ op.field.name = name then some op.field else none) = none := by
      rw [List.findSome?_eq_none_iff]
      intro op hop
      rw [if_neg]
      rintro ⟨-, h2, h3⟩
      obtain ⟨q, w, hq, rfl⟩ := (hm op).1 (List.mem_reverse.1 hop)
      exact hnot ⟨h2.symm, q, w, hq, h3.symm⟩
    rw [this]; rfl
  · rw [hcount]
    have hmem := (hm _).2 ⟨p, v, hp, rfl⟩
    have : callCount ops (dotted p) = 1 := by
      unfold callCount
      have e : (ops.filter fun op => decide (op.field.name = dotted p)).length = (ops.map fun op => op.field.name).count (dotted p) := by
        rw [List.count_eq_countP, List.countP_map, List.countP_eq_length_filter]
        congr 1
      rw [e]
      exact List.count_eq_one_of_mem hn (List.mem_map.2 ⟨_, hmem, rfl⟩)
    rw [this]; rfl
  · rw [hcount]
    have : callCount ops name = 0 := by
      unfold callCount
      rw [List.length_eq_zero_iff, List.filter_eq_nil_iff]
      intro op hop hx
      obtain ⟨q, w, hq, rfl⟩ := (hm op).1 hop
      exact hnot q w hq (of_decide_eq_true hx).symm
    rw [this]; simp

/-- the calls of indexing a list of documents, each with the uuid it would get. -/
def AllCalls (env : TextEnv) : List (String × JObj JLeaf) → List StoreOp → Prop
  | [], ops => ops = []
  | (uuid, o) :: docs, ops => ∃ ops₁ ops₂, Calls env uuid o ops₁ ∧ AllCalls env docs ops₂ ∧ ops = ops₁ ++ ops₂

/-- indexing a list of documents one after the other. -/
inductive IndexesAll (env : TextEnv) : Memory → List (String × JObj JLeaf) → Option Memory → Prop
  | nil (m : Memory) : IndexesAll env m [] (some m)
  | cons {m m' : Memory} {uuid : String} {o : JObj JLeaf} {docs : List (String × JObj JLeaf)} {out : Option Memory}
      (h₁ : Indexes env uuid m o (some m')) (h₂ : IndexesAll env m' docs out) : IndexesAll env m ((uuid, o) :: docs) out
  | panic {m : Memory} {uuid : String} {o : JObj JLeaf} {docs : List (String × JObj JLeaf)} (h : Indexes env uuid m o none) :
      IndexesAll env m ((uuid, o) :: docs) none

theorem indexesAll_calls {env : TextEnv} {docs : List (String × JObj JLeaf)} {out : Option Memory} {m : Memory} (hi : IndexesAll env m docs out) :
    ∀ h, m = Memory.run h → ∃ ops, AllCalls env docs ops ∧ out = some (Memory.run (h ++ ops)) := by
  induction hi with
  | nil m => intro h e; exact ⟨[], rfl, by rw [List.append_nil, e]⟩
  | cons h1 h2 ih =>
    intro h e
    subst e
    obtain ⟨ops, c1, e1⟩ := (indexes_iff ..).1 h1
    obtain ⟨ops', c2, e2⟩ := ih (h ++ ops) (Option.some.inj e1)
    exact ⟨ops ++ ops', ⟨ops, ops', c1, c2, rfl⟩, by rw [e2, List.append_assoc]⟩
  | panic h1 =>
    intro h e
    subst e
    obtain ⟨ops, c1, e1⟩ := (indexes_iff ..).1 h1
    cases e1

theorem allCalls_saves {env : TextEnv} {docs : List (String × JObj JLeaf)} {ops : List StoreOp} (h : AllCalls env docs ops) :
    ∀ op ∈ ops, op.isSave = true ∧ op.field.tf.WF := by
  induction docs generalizing ops with
  | nil => cases h; intro op hop; cases hop
  | cons e docs ih =>
    obtain ⟨o1, o2, h1, h2, rfl⟩ := h
    intro op hop
    rcases List.mem_append.1 hop with hop | hop
    · exact calls_saves h1 op hop
    · exact ih h2 op hop

theorem allCalls_saved {env : TextEnv} {docs : List (String × JObj JLeaf)} (hd : ∀ e ∈ docs, e.2.WF ∧ PlainKeys e.2) {ops : List StoreOp}
    (h : AllCalls env docs ops) (name t d : String) :
    Saved ops name t d ↔ ∃ e ∈ docs, IdOf e.1 e.2 d ∧ HasTerm env e.2 name t := by
  induction docs generalizing ops with
  | nil => cases h; simp [Saved]
  | cons e docs ih =>
    obtain ⟨o1, o2, h1, h2, rfl⟩ := h
    have : Saved (o1 ++ o2) name t d ↔ Saved o1 name t d ∨ Saved o2 name t d := by
      unfold Saved; simp only [List.mem_append, or_and_right, exists_or]
    rw [this, ih (fun e he => hd e (List.mem_cons_of_mem _ he)) h2]
    simp only [List.mem_cons, or_and_right, exists_or, exists_eq_left]
    apply or_congr _ Iff.rfl
    obtain ⟨wf, plain⟩ := hd e List.mem_cons_self
    obtain ⟨id, hid, -, hm⟩ := calls_spec wf plain h1
    constructor
    · rintro ⟨op, hop, -, rfl, rfl, ht⟩
      obtain ⟨p, v, hp, rfl⟩ := (hm op).1 hop
      exact ⟨hid, p, v, hp, rfl, (mem_makeField _ _ _).1 ht⟩
    · rintro ⟨hd', p, v, hp, rfl, ht⟩
      obtain rfl := idOf_unique wf plain hid hd'
      exact ⟨_, (hm _).2 ⟨p, v, hp, rfl⟩, rfl, rfl, rfl, (mem_makeField _ _ _).2 ht⟩

/-- **C81, end to end.** After indexing any list of such documents into an empty Memory store, whatever the iteration orders and the schedule of the search, Search
returns `d` iff a document with id `d` has, for some query, a value at the query's field whose text shares a term with the query. -/
theorem c81_searchable {F : Type} [GoFloat F] (env : TextEnv) (docs : List (String × JObj JLeaf)) (hd : ∀ e ∈ docs, e.2.WF ∧ PlainKeys e.2)
    {out : Option Memory} (hi : IndexesAll env Memory.new docs out) : ∃ m, out = some m ∧
      ∀ (query : List (Query F)) (cpus : Nat) (l : Scores F), SState.Returns m.reads query cpus l → ∀ d, d ∈ l.map Prod.fst ↔
        ∃ e ∈ docs, IdOf e.1 e.2 d ∧ ∃ q ∈ query, ∃ t ∈ q.terms, HasTerm env e.2 q.fieldName t := by
  obtain ⟨ops, h1, rfl⟩ := indexesAll_calls hi [] rfl
  refine ⟨_, rfl, fun query cpus l hl d => ?_⟩
  rw [List.nil_append] at hl
  rw [c60_sound_complete _ (fun op hop => (allCalls_saves h1 op hop).1) query cpus hl d]
  simp only [allCalls_saved hd h1]
  constructor
  · rintro ⟨q, hq, t, ht, e, he, h1, h2⟩; exact ⟨e, he, h1, q, hq, t, ht, h2⟩
  · rintro ⟨e, he, h1, q, hq, t, ht, h2⟩; exact ⟨q, hq, t, ht, e, he, h1, h2⟩

/-- **C81, on a disk store**, as in the code: the same, between two calls and with a cache large enough. -/
theorem c81_disk {F : Type} [GoFloat F] (env : TextEnv) (docs : List (String × JObj JLeaf)) (hd : ∀ e ∈ docs, e.2.WF ∧ PlainKeys e.2)
    {as : List Disk.Act} {s : Disk} (h : Disk.run {} (.open_ :: as) = some s) (ho : Disk.Act.open_ ∉ as) (hc : AllCalls env docs (Disk.calls as))
    (hi : s.idle = true) (hn : CacheSuffices as) (query : List (Query F)) {cpus : Nat} {l : Scores F}
    (hl : SState.Returns s.reads query cpus l) (d : String) : d ∈ l.map Prod.fst ↔
      ∃ e ∈ docs, IdOf e.1 e.2 d ∧ ∃ q ∈ query, ∃ t ∈ q.terms, HasTerm env e.2 q.fieldName t := by
  rw [c78_sound_complete h ho (fun op hop => (allCalls_saves hc op hop).2) (fun op hop => (allCalls_saves hc op hop).1) hi hn query hl d]
  simp only [allCalls_saved hd hc]
  constructor
  · rintro ⟨q, hq, t, ht, e, he, h1, h2⟩; exact ⟨e, he, h1, q, hq, t, ht, h2⟩
  · rintro ⟨e, he, h1, q, hq, t, ht, h2⟩; exact ⟨q, hq, t, ht, e, he, h1, h2⟩

/-- indexing is always possible. -/
theorem c81_possible (env : TextEnv) (docs : List (String × JObj JLeaf)) (m : Memory) : ∃ out, IndexesAll env m docs out := by
  induction docs generalizing m with
  | nil => exact ⟨_, .nil m⟩
  | cons e docs ih =>
    obtain ⟨uuid, o⟩ := e
    have : Indexes env uuid m o (some (m.indexDocument (docId uuid (JObj.flatten o)) ⟨(JObj.flatten o).map fun e => Text.makeField e.1 (termsOf env e.2.sprintS)⟩)) :=
      ⟨_, _, .refl _, .refl _, by rw [fields_eq]; rfl⟩
    obtain ⟨out, h⟩ := ih _
    exact ⟨out, .cons this h⟩

/-- `{"Id": "p1", "author": {"name": "Ann Lee", "born": 1970}, "tags": ["red", "blue"]}` -/
def c81Doc : JObj JLeaf :=
  .leaf "Id" (.str "p1") (.sub "author" (.leaf "name" (.str "Ann Lee") (.leaf "born" (.num "1970") .nil)) (.leaf "tags" (.arr [.str "red", .str "blue"]) .nil))

/-- a document that meets the hypotheses, with a value two levels down. -/
example : c81Doc.WF ∧ PlainKeys c81Doc ∧ IdOf "u" c81Doc "p1" ∧ HasTerm demoEnv c81Doc "author.name" "lee" ∧ HasTerm demoEnv c81Doc "tags" "blue" := by
  refine ⟨by simp [c81Doc, JObj.WF, JObj.topKeys], by simp [c81Doc, PlainKeys], .inl ⟨_, .here _ _ _, ?_, ?_⟩, ?_, ?_⟩
  · simp [JLeaf.sprintS, JLeaf.printV]
  · simp [JLeaf.sprintS, JLeaf.printV]
  · exact ⟨["author", "name"], _, .skipLeaf _ _ _ _ _ (.into _ _ _ _ _ (.here _ _ _)), rfl, by decide⟩
  · exact ⟨["tags"], _, .skipLeaf _ _ _ _ _ (.skipSub _ _ _ _ _ (.here _ _ _)), rfl, by decide⟩

/-! ### C82 -/

/-- a rune that separates words. -/
def Separator (env : TextEnv) (c : Char) : Prop := env.isLetter c = false ∧ env.isNumber c = false ∧ c ≠ '\''

instance (env : TextEnv) (c : Char) : Decidable (Separator env c) := inferInstanceAs (Decidable (_ ∧ _))

theorem termsOf_sep (env : TextEnv) (a b : String) {c : Char} (h : Separator env c) :
    termsOf env (a ++ String.ofList [c] ++ b) = termsOf env a ++ termsOf env b := by
  have := c05_preprocessing_distributes env a b c h
  rw [preprocessing_some, preprocessing_some, preprocessing_some] at this
  exact Option.some.inj this

theorem termsOf_empty (env : TextEnv) : termsOf env "" = [] := by
  unfold termsOf; rw [c05_preprocessing_per_token]; rfl

theorem termsOf_sep_left (env : TextEnv) (b : String) {c : Char} (h : Separator env c) : termsOf env (String.ofList [c] ++ b) = termsOf env b := by
  have := termsOf_sep env "" b h
  rwa [termsOf_empty, String.empty_append, List.nil_append] at this

theorem termsOf_sep_right (env : TextEnv) (a : String) {c : Char} (h : Separator env c) : termsOf env (a ++ String.ofList [c]) = termsOf env a := by
  have := termsOf_sep env a "" h
  rwa [termsOf_empty, String.append_empty, List.append_nil] at this

/-- the runes that package fmt puts around a value are separators (they are, in Unicode). -/
def FmtSeparators (env : TextEnv) : Prop := ∀ c ∈ ['%', '!', '(', ')', '=', '<', '>', '[', ']', ' ', ':'], Separator env c

theorem insertKey_perm (e : String × String) (es : List (String × String)) : (insertKey e es).Perm (e :: es) := by
  induction es with
  | nil => exact .refl _
  | cons f es ih =>
    rw [insertKey]
    split
    · exact .refl _
    · exact (ih.cons f).trans (.swap e f es)

theorem sortKeys_perm (es : List (String × String)) : (sortKeys es).Perm es := by
  induction es with
  | nil => exact .refl _
  | cons e es ih => exact (insertKey_perm e _).trans (ih.cons e)

theorem insertKey_sorted (e : String × String) {es : List (String × String)} (h : es.Pairwise fun a b => a.1 ≤ b.1) :
    (insertKey e es).Pairwise fun a b => a.1 ≤ b.1 := by
  induction es with
  | nil => exact List.pairwise_singleton _ _
  | cons f es ih =>
    rw [List.pairwise_cons] at h
    rw [insertKey]
    split
    · rename_i hle
      rw [List.pairwise_cons, List.pairwise_cons]
      refine ⟨fun x hx => ?_, h⟩
      rcases List.mem_cons.1 hx with rfl | hx
      · exact hle
      · exact String.le_trans hle (h.1 x hx)
    · rename_i hle
      rw [List.pairwise_cons]
      refine ⟨fun x hx => ?_, ih h.2⟩
      rcases List.mem_cons.1 ((insertKey_perm e es).mem_iff.1 hx) with rfl | hx
      · exact (String.le_total _ _).resolve_left hle
      · exact h.1 x hx

theorem sortKeys_sorted (es : List (String × String)) : (sortKeys es).Pairwise fun a b => a.1 ≤ b.1 := by
  induction es with
  | nil => exact .nil
  | cons e es ih => exact insertKey_sorted e ih

theorem printElems_eq (vs : List JLeaf) : JLeaf.printElems vs = vs.map JLeaf.printV := by
  induction vs with
  | nil => simp [JLeaf.printElems]
  | cons v vs ih => simp [JLeaf.printElems, ih]

theorem printEnts_eq (es : List (String × JLeaf)) : JLeaf.printEnts es = es.map fun e => (e.1, e.2.printV) := by
  induction es with
  | nil => simp [JLeaf.printEnts]
  | cons e es ih => obtain ⟨k, v⟩ := e; simp [JLeaf.printEnts, ih]

/-- a permutation of the images is the image of a permutation. -/
theorem exists_perm_map {α β : Type} (f : α → β) {m : List β} : ∀ {l : List α}, m.Perm (l.map f) → ∃ l' : List α, l'.Perm l ∧ m = l'.map f := by
  induction m with
  | nil => intro l h; have := h.symm.eq_nil; exact ⟨l, .refl _, this.symm⟩
  | cons b m ih =>
    intro l h
    obtain ⟨a, ha, rfl⟩ := List.mem_map.1 (h.subset (List.mem_cons_self ..))
    obtain ⟨s, t, rfl⟩ := List.append_of_mem ha
    rw [List.map_append, List.map_cons] at h
    have h' : m.Perm ((s ++ t).map f) := by
      rw [List.map_append]
      exact (List.perm_cons (f a)).1 (h.trans List.perm_middle)
    obtain ⟨l', hp, rfl⟩ := ih h'
    exact ⟨a :: l', (hp.cons a).trans List.perm_middle.symm, rfl⟩

theorem termsOf_joinSpace (env : TextEnv) (he : FmtSeparators env) (xs : List String) : termsOf env (joinSpace xs) = xs.flatMap (termsOf env) := by
  induction xs with
  | nil => simp [joinSpace, termsOf_empty]
  | cons v xs ih =>
    cases xs with
    | nil => simp [joinSpace]
    | cons w xs =>
      rw [List.flatMap_cons, ← ih, joinSpace]
      exact termsOf_sep env _ _ (he ' ' (by decide))

/-- **C82, what the terms of a value are.** A string has its own terms; but null, booleans and numbers also have the terms of the error text of package fmt. -/
theorem c82_terms_of_values (env : TextEnv) (he : FmtSeparators env) :
    (∀ s, termsOf env (JLeaf.str s).sprintS = termsOf env s) ∧
    (∀ printed, termsOf env (JLeaf.num printed).sprintS = termsOf env "s" ++ termsOf env "float64" ++ termsOf env printed) ∧
    (∀ b, termsOf env (JLeaf.bool b).sprintS = termsOf env "s" ++ termsOf env "bool" ++ termsOf env (if b then "true" else "false")) ∧
    termsOf env JLeaf.null.sprintS = termsOf env "s" ++ termsOf env "nil" := by
  have wrap : ∀ (ty x : String), termsOf env ("%!s(" ++ ty ++ "=" ++ x ++ ")") = termsOf env "s" ++ termsOf env ty ++ termsOf env x := by
    intro ty x
    have e : "%!s(" ++ ty ++ "=" ++ x ++ ")" =
        (String.ofList ['%'] ++ (String.ofList ['!'] ++ (("s" ++ String.ofList ['('] ++ ty) ++ String.ofList ['='] ++ x))) ++ String.ofList [')'] := by
      have : "%!s(" = String.ofList ['%'] ++ (String.ofList ['!'] ++ ("s" ++ String.ofList ['('])) := by decide
      rw [this]; simp only [String.append_assoc]
    rw [e, termsOf_sep_right _ _ (he ')' (by decide)), termsOf_sep_left _ _ (he '%' (by decide)), termsOf_sep_left _ _ (he '!' (by decide)),
      termsOf_sep _ _ _ (he '=' (by decide)), termsOf_sep _ _ _ (he '(' (by decide))]
  refine ⟨fun s => by simp [JLeaf.sprintS, JLeaf.printV], fun printed => ?_, fun b => ?_, ?_⟩
  · have := wrap "float64" printed
    rw [← this]; simp [JLeaf.sprintS, JLeaf.printV]
  · have := wrap "bool" (if b then "true" else "false")
    rw [← this]; cases b <;> simp [JLeaf.sprintS, JLeaf.printV]
  · have e : JLeaf.null.sprintS = (String.ofList ['%'] ++ (String.ofList ['!'] ++ (("s" ++ String.ofList ['('] ++ (String.ofList ['<'] ++ "nil" ++ String.ofList ['>']))))) ++ String.ofList [')'] := by
      simp only [JLeaf.sprintS]; decide
    rw [e, termsOf_sep_right _ _ (he ')' (by decide)), termsOf_sep_left _ _ (he '%' (by decide)), termsOf_sep_left _ _ (he '!' (by decide)),
      termsOf_sep _ _ _ (he '(' (by decide)), termsOf_sep_right _ _ (he '>' (by decide)), termsOf_sep_left _ _ (he '<' (by decide))]

/-- the terms of a value in an array or in an object in an array: those it has alone, but for null it is just `nil`. -/
def innerTerms (env : TextEnv) : JLeaf → List String
  | .null => termsOf env "nil"
  | v => termsOf env v.sprintS

theorem innerTerms_eq (env : TextEnv) (he : FmtSeparators env) (v : JLeaf) : innerTerms env v = termsOf env v.printV := by
  cases v with
  | null =>
    have e : JLeaf.null.printV = String.ofList ['<'] ++ "nil" ++ String.ofList ['>'] := by simp only [JLeaf.printV]; decide
    rw [e, termsOf_sep_right _ _ (he '>' (by decide)), termsOf_sep_left _ _ (he '<' (by decide))]
    rfl
  | _ => rfl

/-- **C82, arrays.** An array has the terms of its elements, in order; an object in it has the term `map`, and then the terms of its keys and values, by
increasing key. -/
theorem c82_terms_of_arrays (env : TextEnv) (he : FmtSeparators env) :
    (∀ elems, termsOf env (JLeaf.arr elems).sprintS = elems.flatMap (innerTerms env)) ∧
    (∀ ents, ∃ sorted : List (String × JLeaf), sorted.Perm ents ∧ (sorted.Pairwise fun a b => a.1 ≤ b.1) ∧
      termsOf env (JLeaf.obj ents).sprintS = termsOf env "map" ++ sorted.flatMap fun e => termsOf env e.1 ++ innerTerms env e.2) := by
  refine ⟨fun elems => ?_, fun ents => ?_⟩
  · have e : (JLeaf.arr elems).sprintS = String.ofList ['['] ++ joinSpace (elems.map JLeaf.printV) ++ String.ofList [']'] := by
      simp [JLeaf.sprintS, JLeaf.printV, printElems_eq]
    rw [e, termsOf_sep_right _ _ (he ']' (by decide)), termsOf_sep_left _ _ (he '[' (by decide)), termsOf_joinSpace env he, List.flatMap_map]
    congr 1
    funext v
    exact (innerTerms_eq env he v).symm
  · have hp := sortKeys_perm (JLeaf.printEnts ents)
    have hs := sortKeys_sorted (JLeaf.printEnts ents)
    rw [printEnts_eq] at hp
    obtain ⟨sorted, h1, h2⟩ := exists_perm_map _ hp
    rw [← printEnts_eq] at h2
    rw [h2, List.pairwise_map] at hs
    refine ⟨sorted, h1, hs, ?_⟩
    have e : (JLeaf.obj ents).sprintS = ("map" ++ String.ofList ['['] ++
        joinSpace ((sortKeys (JLeaf.printEnts ents)).map fun e => e.1 ++ ":" ++ e.2)) ++ String.ofList [']'] := by
      have : "map[" = "map" ++ String.ofList ['['] := by decide
      simp only [JLeaf.sprintS, JLeaf.printV, this]
    rw [e, termsOf_sep_right _ _ (he ']' (by decide)), termsOf_sep _ _ _ (he '[' (by decide)), termsOf_joinSpace env he, h2, List.map_map, List.flatMap_map]
    congr 2
    funext x
    rw [innerTerms_eq env he]
    exact termsOf_sep env _ _ (he ':' (by decide))

example : FmtSeparators demoEnv := by unfold FmtSeparators; decide

/-- **C82 is false of the code**: two documents, `{"Id": "a", "year": 1970}` and `{"Id": "b", "year": true}`, and whatever the schedule, a search of the year for
`s` finds both, and one for `float64` finds the first. -/
theorem c82_refuted {F : Type} [GoFloat F] : ∃ docs : List (String × JObj JLeaf), (∀ e ∈ docs, e.2.WF ∧ PlainKeys e.2) ∧
    (∀ e ∈ docs, ∀ v, LeafAt e.2 ["year"] v → v = .num "1970" ∨ v = .bool true) ∧
    ∃ m, IndexesAll demoEnv Memory.new docs (some m) ∧
      (∀ cpus l, SState.Returns (F := F) m.reads [⟨"year", GoFloat.lit 1, ["s"]⟩] cpus l → "a" ∈ l.map Prod.fst ∧ "b" ∈ l.map Prod.fst) ∧
      (∀ cpus l, SState.Returns (F := F) m.reads [⟨"year", GoFloat.lit 1, ["float64"]⟩] cpus l → "a" ∈ l.map Prod.fst) := by
  let oa : JObj JLeaf := .leaf "Id" (.str "a") (.leaf "year" (.num "1970") .nil)
  let ob : JObj JLeaf := .leaf "Id" (.str "b") (.leaf "year" (.bool true) .nil)
  have hd : ∀ e ∈ [("u", oa), ("v", ob)], e.2.WF ∧ PlainKeys e.2 := by
    intro e he
    simp only [List.mem_cons, List.not_mem_nil, or_false] at he
    rcases he with rfl | rfl
    · exact ⟨by simp [oa, JObj.WF, JObj.topKeys], by simp [oa, PlainKeys]⟩
    · exact ⟨by simp [ob, JObj.WF, JObj.topKeys], by simp [ob, PlainKeys]⟩
  obtain ⟨out, hi⟩ := c81_possible demoEnv [("u", oa), ("v", ob)] Memory.new
  obtain ⟨m, rfl, hs⟩ := c81_searchable (F := F) demoEnv _ hd hi
  have ia : IdOf "u" oa "a" := .inl ⟨_, .here _ _ _, by simp [JLeaf.sprintS, JLeaf.printV], by simp [JLeaf.sprintS, JLeaf.printV]⟩
  have ib : IdOf "v" ob "b" := .inl ⟨_, .here _ _ _, by simp [JLeaf.sprintS, JLeaf.printV], by simp [JLeaf.sprintS, JLeaf.printV]⟩
  have ya : LeafAt oa ["year"] (.num "1970") := .skipLeaf _ _ _ _ _ (.here _ _ _)
  have yb : LeafAt ob ["year"] (.bool true) := .skipLeaf _ _ _ _ _ (.here _ _ _)
  refine ⟨_, hd, ?_, m, hi, fun cpus l hl => ⟨(hs _ cpus l hl "a").2 ?_, (hs _ cpus l hl "b").2 ?_⟩, fun cpus l hl => (hs _ cpus l hl "a").2 ?_⟩
  · intro e he v hv
    simp only [List.mem_cons, List.not_mem_nil, or_false] at he
    rcases he with rfl | rfl
    · exact .inl (c09_path_unique (hd _ (by simp)).1 (hd _ (by simp)).2 hv ya rfl).2
    · exact .inr (c09_path_unique (hd _ (by simp)).1 (hd _ (by simp)).2 hv yb rfl).2
  · exact ⟨_, List.mem_cons_self, ia, _, List.mem_cons_self, "s", by simp, ["year"], _, ya, rfl, by decide⟩
  · exact ⟨("v", ob), by simp, ib, _, List.mem_cons_self, "s", by simp, ["year"], _, yb, rfl, by decide⟩
  · exact ⟨_, List.mem_cons_self, ia, _, List.mem_cons_self, "float64", by simp, ["year"], _, ya, rfl, by decide⟩

/-- … and a numeric id is not the document's id: `{"Id": 7}` is indexed under `%!s(float64=7)`. -/
theorem c82_numeric_id_refuted (uuid printed : String) {o : JObj JLeaf} (wf : o.WF) (plain : PlainKeys o) (h : LeafAt o ["Id"] (.num printed)) :
    ∀ id, IdOf uuid o id → id = "%!s(float64=" ++ printed ++ ")" := by
  intro id hid
  refine idOf_unique wf plain hid (.inl ⟨_, h, ?_, by simp [JLeaf.sprintS, JLeaf.printV]⟩)
  intro e
  have : (JLeaf.num printed).sprintS.toList.length = 0 := by rw [e]; rfl
  simp [JLeaf.sprintS, JLeaf.printV] at this

end Goir
