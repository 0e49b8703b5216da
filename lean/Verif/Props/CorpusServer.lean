import Verif.Props.CorpusHttp
import Verif.Props.ServerLoaded
import Verif.Props.ConcurrentDiskDocs
import Verif.Props.ServerWitness
/-!
# C127: a live server ranks by BM25 of the collection

The texts are put in by clients of the store of main, with its goroutines at work; then any number of searches run at the same time, while the goroutines still write files.
-/
namespace Goir
open GoMap Spec Strconv

namespace CDisk

/-- the calls that write and that a client has not finished. -/
def unfinished (cl : DClient) : List StoreOp := (match cl.cur with | some (.write op _) => [op] | _ => []) ++ writes cl.todo

theorem flatMap_set {α β : Type} (f : α → List β) {l : List α} {i : Nat} {x : α} (h : l[i]? = some x) (y : α) : ((l.set i y).flatMap f ++ f x).Perm (l.flatMap f ++ f y) := by
  induction l generalizing i with
  | nil => cases h
  | cons a l ih =>
    cases i with
    | zero =>
      simp only [List.getElem?_cons_zero, Option.some.injEq] at h
      subst h
      simp only [List.set_cons_zero, List.flatMap_cons]
      exact List.perm_append_comm.trans (by rw [List.append_assoc]; exact List.Perm.append_left _ List.perm_append_comm)
    | succ i =>
      simp only [List.set_cons_succ, List.flatMap_cons, List.append_assoc]
      exact List.Perm.append_left _ (ih (by simpa using h))

theorem unfinished_step {s s' : CDisk} {a : Act} (hs : Step s a s') (hno : noOpen a = true) (hup : s'.up = true) :
    s'.clients.length = s.clients.length ∧ (s'.returned ++ s'.clients.flatMap unfinished).Perm (s.returned ++ s.clients.flatMap unfinished) := by
  have same : ∀ {i : Nat} {cl : DClient} (c : DClient), s.clients[i]? = some cl → unfinished c = unfinished cl →
      (s.clients.set i c).length = s.clients.length ∧ (s.returned ++ (s.clients.set i c).flatMap unfinished).Perm (s.returned ++ s.clients.flatMap unfinished) := by
    intro i cl c hi e
    refine ⟨by simp, List.Perm.append_left _ ?_⟩
    have := flatMap_set unfinished hi c
    rw [e] at this
    exact (List.perm_append_right_iff _).1 this
  have ret : ∀ {i : Nat} {cl : DClient} {op : StoreOp} (c : DClient), s.clients[i]? = some cl → unfinished cl = op :: unfinished c →
      (s.clients.set i c).length = s.clients.length ∧ ((s.returned ++ [op]) ++ (s.clients.set i c).flatMap unfinished).Perm (s.returned ++ s.clients.flatMap unfinished) := by
    intro i cl op c hi e
    refine ⟨by simp, ?_⟩
    rw [List.append_assoc]
    refine List.Perm.append_left _ ?_
    have := flatMap_set unfinished hi c
    rw [e] at this
    refine (List.perm_append_right_iff (unfinished c)).1 (List.Perm.trans ?_ this)
    simp only [List.singleton_append, List.cons_append]
    exact List.perm_middle.symm
  cases hs with
  | beginWrite hu hi hc ht => exact same _ hi (by simp [unfinished, hc, ht, writes])
  | beginRead hu hi hc ht => exact same _ hi (by simp [unfinished, hc, ht, writes])
  | acc hu hi hc he hn => exact same _ hi (by simp [unfinished, hc])
  | accReturn hu hi hc he hn => exact ret _ hi (by simp [unfinished, hc])
  | msgLen hu hi hc => exact same _ hi (by simp [unfinished, hc])
  | msgSize hu hi hc => exact same _ hi (by simp [unfinished, hc])
  | sendI hu hi hc he => exact same _ hi (by simp [unfinished, hc])
  | msgN hu hi hc => exact same _ hi (by simp [unfinished, hc])
  | docHit hu hi hc hr => exact same _ hi (by simp [unfinished, hc])
  | docMiss hu hi hc hr => exact same _ hi (by simp [unfinished, hc])
  | docSet hu hi hc => exact same _ hi (by simp [unfinished, hc])
  | docPut hu hi hc he => exact same _ hi (by simp [unfinished, hc])
  | readEnd hu hi hc => exact same _ hi (by simp [unfinished, hc])
  | readHit hu hi hc hr => exact same _ hi (by simp [unfinished, hc])
  | readMiss hu hi hc hr => exact same _ hi (by simp [unfinished, hc])
  | readField hu hi hc => exact same _ hi (by simp [unfinished, hc])
  | readAbsent hu hi hc hl => exact same _ hi (by simp [unfinished, hc])
  | readLoad hu hi hc hl hb => exact same _ hi (by simp [unfinished, hc])
  | readPut hu hi hc he => exact same _ hi (by simp [unfinished, hc])
  | recvM hi hc he => exact same _ hi (by simp [unfinished, hc])
  | recvN hi hc he => exact same _ hi (by simp [unfinished, hc])
  | recvD hi hc he => exact ret _ hi (by simp [unfinished, hc])
  | openRest hp hu' hm hn => cases hno
  | ixDown => simp [stop] at hup
  | crash => simp [stop] at hup
  | _ => exact ⟨rfl, .refl _⟩

/-- what has returned and what is still to be done are the programs of the clients. -/
theorem unfinished_run {as bs : List Act} {n : Int} {progs : List (List DOp)} {s₁ s : CDisk} (h1 : run {} (as ++ [.openRest n progs]) = some s₁)
    (hb : ∀ b ∈ bs, noOpen b = true) (h : s₁.run bs = some s) (hu : s.up = true) :
    s.clients.length = progs.length ∧ (s.returned ++ s.clients.flatMap unfinished).Perm (progs.flatMap writes) := by
  induction bs using List.reverseRecOn generalizing s with
  | nil =>
    cases h
    obtain ⟨s₀, h2, h3⟩ := run_snoc.1 h1
    cases exec_step h3 with
    | openRest hp hu' hm hn =>
      have hoff := (ok_run h2).off hu'
      refine ⟨by simp, ?_⟩
      show (s₀.returned ++ (progs.map fun p => ({ todo := p } : DClient)).flatMap unfinished).Perm _
      rw [hoff.returned, List.nil_append, List.flatMap_map]
      exact .refl _
  | append_singleton bs b ih =>
    obtain ⟨u, h2, h3⟩ := run_snoc.1 h
    have hs := exec_step h3
    have hnb := hb b (by simp)
    obtain ⟨e1, e2⟩ := unfinished_step hs hnb hu
    obtain ⟨i1, i2⟩ := ih (fun x hx => hb x (by simp [hx])) h2 (up_before hs hnb hu)
    exact ⟨e1.trans i1, e2.trans i2⟩

/-- when all clients are done, all calls have returned. -/
theorem done_returned {as bs : List Act} {n : Int} {progs : List (List DOp)} {s₁ s : CDisk} (h1 : run {} (as ++ [.openRest n progs]) = some s₁)
    (hb : ∀ b ∈ bs, noOpen b = true) (h : s₁.run bs = some s) (hu : s.up = true) (hd : Done s) : s.returned.Perm (progs.flatMap writes) := by
  have hp := (unfinished_run h1 hb h hu).2
  have : s.clients.flatMap unfinished = [] := by
    rw [List.flatMap_eq_nil_iff]
    intro cl hcl
    obtain ⟨e1, e2⟩ := hd cl hcl
    simp [unfinished, e1, e2, writes]
  rw [this, List.append_nil] at hp
  exact hp

/-- before the first process has come up, there are no calls and no files of counters. -/
structure Fresh (s : CDisk) : Prop where
  up : s.up = false
  clients : s.clients = []
  mx : s.mx = {}
  nf : s.nf = {}
  earlier : s.earlier = []
  begun : s.begun = []

theorem fresh_step {s s' : CDisk} {a : Act} (h : Fresh s) (hs : Step s a s') (hno : noOpen a = true) : Fresh s' := by
  obtain ⟨h1, h2, h3, h4, h5, h6⟩ := h
  cases hs with
  | ixDown => exact ⟨rfl, rfl, by simp [stop, h3, Flusher.killed], by simp [stop, h4, Flusher.killed], by simp [stop, h5, h6], rfl⟩
  | crash => exact ⟨rfl, rfl, by simp [stop, h3, Flusher.killed], by simp [stop, h4, Flusher.killed], by simp [stop, h5, h6], rfl⟩
  | stepM he => rw [h3] at he; cases he
  | stepN he => rw [h4] at he; cases he
  | openRest => cases hno
  | ix => exact ⟨h1, h2, h3, h4, h5, h6⟩
  | open_ => exact ⟨h1, h2, h3, h4, h5, h6⟩
  | stepD => exact ⟨h1, h2, h3, h4, h5, h6⟩
  | recvM hi => rw [h2] at hi; cases hi
  | recvN hi => rw [h2] at hi; cases hi
  | recvD hi => rw [h2] at hi; cases hi
  | _ => simp_all

theorem fresh_run {as : List Act} {s : CDisk} (hno : ∀ a ∈ as, noOpen a = true) (h : run {} as = some s) : Fresh s := by
  induction as using List.reverseRecOn generalizing s with
  | nil => cases h; exact ⟨rfl, rfl, rfl, rfl, rfl, rfl⟩
  | append_singleton as a ih =>
    obtain ⟨u, h2, h3⟩ := run_snoc.1 h
    exact fresh_step (ih (fun x hx => hno x (by simp [hx])) h2) (exec_step h3) (hno a (by simp))

/-- the first process knows nothing when it comes up. -/
theorem first_spec {as : List Act} {n : Int} {progs : List (List DOp)} {s₁ : CDisk} (hno : ∀ a ∈ as, noOpen a = true) (h : run {} (as ++ [.openRest n progs]) = some s₁) (f : String) :
    s₁.getFieldSize f = 0 ∧ s₁.getFieldLength f = 0 ∧ (∀ t, (s₁.getNumberFieldTerm f [t]).getD t 0 = 0) ∧ ∀ t d, GoSet.contains (s₁.getDocuments f t).1 d = false := by
  have hdoc : ∀ t d, GoSet.contains (s₁.getDocuments f t).1 d = false := by
    intro t d
    by_contra hc
    rw [Bool.not_eq_false] at hc
    obtain ⟨sr, q1, q2⟩ := (CMem.view_contains _ _ _ _).1 hc
    have e := (postOk_run h).set sr d q2
    obtain ⟨s₀, h2, h3⟩ := run_snoc.1 h
    have fr := fresh_run hno h2
    have hh : s₁.hist = [] := by
      cases exec_step h3 with
      | openRest => simp [hist, fr.earlier, fr.begun]
    obtain ⟨op, hop, -⟩ := e
    rw [hh] at hop; cases hop
  obtain ⟨s₀, h2, h3⟩ := run_snoc.1 h
  have fr := fresh_run hno h2
  cases exec_step h3 with
  | openRest hp hu hm hn =>
    rw [fr.mx] at hm
    rw [fr.nf] at hn
    cases hm
    cases hn
    refine ⟨rfl, rfl, fun t => ?_, hdoc⟩
    rw [GoMap.getD, getNumberFieldTerm, CMem.view_nft]
    simp only [List.mem_singleton, if_true]
    rfl

/-- every field has one client that saves it, and every document has one client that uses it. -/
def Apart (progs : List (List DOp)) : Prop := (∀ f, ∃ c, c < progs.length ∧ OneWriter c f progs) ∧ ∀ d, ∃ c, c < progs.length ∧ OneUser c d progs

/-- the fields of a document as they are in the cache. -/
def cached (s : CDisk) (d : String) : GoMap String Field := ((s.cache.val d).map s.mem.docCells).getD []

end CDisk

theorem lastSaved_once {S : List Entry} (h : Once S) {l : List StoreOp} (hp : l.Perm (savesOf S)) (d f : String) (g : Field) :
    lastSaved l d f = some g ↔ ∃ e ∈ S, e.doc = d ∧ e.field = f ∧ g = Text.makeField f e.words := by
  have fwd : ∀ g, lastSaved l d f = some g → ∃ e ∈ S, e.doc = d ∧ e.field = f ∧ g = Text.makeField f e.words := by
    intro g hg
    obtain ⟨o, ho, -, h2, h3, h4⟩ := lastSaved_some_mem _ _ _ _ hg
    obtain ⟨e, he, rfl⟩ := List.mem_map.1 (hp.mem_iff.1 ho)
    have h3 : e.field = f := h3
    exact ⟨e, he, h2, h3, by rw [← h4, ← h3]; rfl⟩
  refine ⟨fwd g, ?_⟩
  rintro ⟨e, he, rfl, rfl, rfl⟩
  cases hl : lastSaved l e.doc e.field with
  | none =>
    unfold lastSaved at hl
    rw [List.findSome?_eq_none_iff] at hl
    have := hl (.save e.doc (Text.makeField e.field e.words)) (by rw [List.mem_reverse]; exact hp.mem_iff.2 (List.mem_map.2 ⟨e, he, rfl⟩))
    have h2 : (StoreOp.save e.doc (Text.makeField e.field e.words)).isSave = true ∧ (StoreOp.save e.doc (Text.makeField e.field e.words)).doc = e.doc ∧
      (StoreOp.save e.doc (Text.makeField e.field e.words)).field.name = e.field := ⟨rfl, rfl, rfl⟩
    rw [if_pos h2] at this; cases this
  | some g =>
    obtain ⟨e', he', h1, h2, rfl⟩ := fwd g hl
    obtain rfl := h.unique he' he h1 h2
    rfl

/-- when the clients are done, the cache holds what was saved, and the store reads like a memory store that got the same texts. -/
theorem CDisk.done_alike {S : List Entry} (h : Once S) {as : List Act} {n : Int} {progs : List (List DOp)} {bs : List Act} {s : CDisk} (hno : ∀ a ∈ as, noOpen a = true)
    (hr : run {} (as ++ [.openRest n progs] ++ bs) = some s) (hb : ∀ b ∈ bs, noOpen b = true)
    (hu : s.up = true) (hd : Done s) (hS : (progs.flatMap writes).Perm (savesOf S)) (ha : Apart progs) (hroom : ((progs.flatMap touched).toFinset.card : Int) ≤ n) :
    Server.InCache s.cached s.mem s.cache ∧ (s.readsOf s.cached).Alike (Memory.run (savesOf S)).reads := by
  obtain ⟨s₁, h1, h2⟩ : ∃ s₁, run {} (as ++ [.openRest n progs]) = some s₁ ∧ s₁.run bs = some s := by
    rw [run_append] at hr
    exact Option.bind_eq_some_iff.1 hr
  have e2 := first_spec hno h1
  have hlen := (unfinished_run h1 hb h2 hu).1
  have hret := (done_returned h1 hb h2 hu hd).trans hS
  have gv : GoValues (progs.flatMap writes) := fun op hop => savesOf_goValues S op (hS.mem_iff.1 hop)
  have hw1 : written (as ++ [.openRest n progs]) = progs.flatMap writes := by
    rw [written_append, written_noOpen hno, List.nil_append]
    simp [written]
  have hw : written (as ++ [.openRest n progs] ++ bs) = progs.flatMap writes := by
    rw [written_append, written_noOpen hb, List.append_nil, hw1]
  have hhist : ∀ op ∈ s.hist, op ∈ s.returned := fun op hop => hret.mem_iff.2 (hS.mem_iff.1 (hw ▸ (hist_written hr).1 op hop))
  have hdocs : DocsOk s := docsOk_run hr (fun op hop => gv op (hw ▸ (hist_written hr).1 op hop))
  have hok := ok_run hr
  -- the map of a saved document
  have full : ∀ d f g, lastSaved s.returned d f = some g → ∃ r, s.cache.val d = some r ∧ (s.mem.docCells r).get? f = some g := by
    intro d f g hg
    obtain ⟨c, hc, ho⟩ := ha.2 d
    obtain ⟨cl, hcl⟩ : ∃ cl, s.clients[c]? = some cl := ⟨_, List.getElem?_eq_getElem (by omega)⟩
    have own := ownDoc_run h1 (by rw [hw1]; exact gv) ho hroom hb h2 hu
    have hp := own.pos cl hcl
    rw [(hd cl (List.mem_of_getElem? hcl)).2] at hp
    rw [← Conc.lastSaved_filter] at hg
    obtain ⟨r, hm⟩ := hp (fun e => by rw [e] at hg; cases hg)
    exact ⟨r, hm.val, hm.cells f g hg⟩
  have field : ∀ d f, (s.cached d).get? f = lastSaved s.returned d f := by
    intro d f
    cases hg : lastSaved s.returned d f with
    | some g =>
      obtain ⟨r, h3, h4⟩ := full d f g hg
      unfold cached
      rw [h3]; exact h4
    | none =>
      cases hx : (s.cached d).get? f with
      | none => rfl
      | some fl =>
        exfalso
        unfold cached at hx
        cases hv : s.cache.val d with
        | none => rw [hv] at hx; cases hx
        | some r =>
          rw [hv] at hx
          have hx : (s.mem.docCells r).get? f = some fl := hx
          obtain ⟨-, g, g1, g2, -⟩ := (hdocs.cell r).src f fl hx
          have htag : r.tag = d := hok.ctag d r hv
          rw [htag] at g1
          obtain ⟨e, he, ee⟩ := List.mem_map.1 (hret.mem_iff.1 (hhist _ g1))
          cases ee
          have := (lastSaved_once h hret e.doc f _).2 ⟨e, he, rfl, g2, rfl⟩
          rw [hg] at this; cases this
  have nums : ∀ f, s.getFieldSize f = saveCount s.returned f ∧ s.getFieldLength f = saveLengthSum s.returned f ∧ (∀ t, (s.getNumberFieldTerm f [t]).getD t 0 = termCount s.returned f t) ∧
      ∀ t d, GoSet.contains (s.getDocuments f t).1 d = true ↔ Posted s.returned f t d := by
    intro f
    obtain ⟨c, hc, ho⟩ := ha.1 f
    obtain ⟨cl, hcl⟩ : ∃ cl, s.clients[c]? = some cl := ⟨_, List.getElem?_eq_getElem (by omega)⟩
    obtain ⟨q1, q2, q3, q4⟩ := c92_own_field h1 hb h2 hu gv ho hcl (fun op loc e => by rw [(hd cl (List.mem_of_getElem? hcl)).2] at e; cases e)
    obtain ⟨z1, z2, z3, z4⟩ := e2 f
    refine ⟨by rw [q1, z1, zero_add], by rw [q2, z2, zero_add], fun t => by rw [q3, z3, zero_add], fun t d => ?_⟩
    rw [q4, z4]; simp
  refine ⟨fun f t d hc => ?_, ?_⟩
  · obtain ⟨op, hop, o1, o2, -⟩ := ((nums f).2.2.2 t d).1 hc
    obtain ⟨e, he, rfl⟩ := List.mem_map.1 (hret.mem_iff.1 hop)
    obtain ⟨r, h3, -⟩ := full e.doc e.field _ ((lastSaved_once h hret e.doc e.field _).2 ⟨e, he, rfl, rfl, rfl⟩)
    have o1 : e.doc = d := o1
    subst o1
    exact ⟨r, h3, by unfold cached; rw [h3]; rfl⟩
  · have gvS := savesOf_goValues S
    have sv := savesOf_isSave S
    have allSave : ∀ op ∈ s.returned, op.isSave = true := fun op hop => sv op (hret.mem_iff.1 hop)
    have filt : ∀ f, (s.returned.filter fun op => op.isSave = true ∧ op.field.name = f).Perm ((savesOf S).filter fun op => op.field.name = f) := by
      intro f
      refine (List.Perm.of_eq ?_).trans (hret.filter _)
      refine List.filter_congr fun op hop => ?_
      simp [allSave op hop]
    refine ⟨fun f t d => ?_, fun ids f d => ?_, fun f => ?_, fun f => ?_, fun f l t => ?_⟩
    · have a1 : (s.readsOf s.cached).has f t d = true ↔ Posted s.returned f t d := by
        rw [← (nums f).2.2.2 t d]
        unfold Reads.has
        rw [Bool.and_eq_true]
        constructor
        · exact fun hx => hx.2
        · intro hx
          refine ⟨?_, hx⟩
          obtain ⟨sr, h4, -⟩ := (CMem.view_contains _ _ _ _).1 hx
          exact (CMem.view_ok _ _ _).2 ⟨sr, h4⟩
      have a2 : (Memory.run (savesOf S)).reads.has f t d = true ↔ Posted (savesOf S) f t d := by
        obtain ⟨b1, -, b2, -⟩ := c13_memory_postings_exact (savesOf S) f t
        unfold Reads.has
        show (((Memory.run (savesOf S)).getDocuments f t).2 && ((Memory.run (savesOf S)).getDocuments f t).1.contains d) = true ↔ _
        rw [Bool.and_eq_true]
        constructor
        · rintro ⟨-, hd⟩; exact (b1 d).1 hd
        · intro hp; exact ⟨b2.2 ⟨d, hp⟩, (b1 d).2 hp⟩
      rw [Bool.eq_iff_iff, a1, a2]
      unfold Posted
      simp only [hret.mem_iff]
    · rw [readsOf_fields, field]
      have := c14_memory_getFields_latest (savesOf S) ids f d
      rw [show ((Memory.run (savesOf S)).reads.getFields ids f).get? d = _ from this]
      congr 1
      ext g
      rw [lastSaved_once h hret, lastSaved_once h (.refl _)]
    · show s.getFieldSize f = (Memory.run (savesOf S)).getFieldSize f
      rw [(nums f).1, (c15_memory_counters_exact _ gvS f []).1]
      unfold saveCount callCount
      rw [(filt f).length_eq]
    · show s.getFieldLength f = (Memory.run (savesOf S)).getFieldLength f
      rw [(nums f).2.1, (c15_memory_counters_exact _ gvS f []).2.1]
      unfold saveLengthSum lengthSum
      exact ((filt f).map _).sum_eq
    · show (s.getNumberFieldTerm f l).get? t = ((Memory.run (savesOf S)).getNumberFieldTerm f l).get? t
      rw [(c15_memory_counters_exact _ gvS f l).2.2 t]
      have e3 := (nums f).2.2.1 t
      unfold getNumberFieldTerm at e3 ⊢
      rw [GoMap.getD, CMem.view_nft] at e3
      rw [CMem.view_nft]
      simp only [List.mem_singleton, if_true, Option.getD_some] at e3
      rw [e3]
      unfold termCount
      rw [(hret.filter _).length_eq]

/-- **C127.** The first process of the store of main, in an empty folder: its clients save the texts `S`, each one once, side by side, no two clients on the same field or the same document, and the cache has room
for the documents. When all have returned, any number of searches arrive and run side by side, while the goroutines of the store still write their files, in any order. What any of them returns is as C125 says: exactly the
documents with a term of one of its queries in the field of that query; the score of each is a finite float64 close to BM25 of the collection `S`; and documents whose BM25 differs by more than the errors come in the right order. -/
theorem c127_live {S : List Entry} (h : Once S) {n : Int} {progs : List (List DOp)} {bs : List CDisk.Act} {s₀ : CDisk} (h1 : CDisk.run {} (CDisk.openEmpty n progs ++ bs) = some s₀)
    (hb : ∀ b ∈ bs, CDisk.noOpen b = true) (hu : s₀.up = true) (hd : CDisk.Done s₀) (hS : (progs.flatMap CDisk.writes).Perm (savesOf S)) (ha : CDisk.Apart progs)
    (hroom : ((progs.flatMap CDisk.touched).toFinset.card : Int) ≤ n) {allow : CDisk.Act → Prop} {cpus : Nat} {s : Server (F64 L)} (h2 : Reaches (Server.UpStep allow cpus) ⟨s₀, []⟩ s)
    {r : DReq (F64 L)} (hr : r ∈ s.reqs) {l : Scores (F64 L)} (hl : r.result = some l) {N T : Nat} (hm : Moderate S r.query N T) :
    (l.map Prod.fst).Nodup ∧ (∀ d, d ∈ l.map Prod.fst ↔ ∃ q ∈ r.query, Hits S q.fieldName q.terms d) ∧
    (∀ d v, (d, v) ∈ l → ∃ x, v.toReal = some x ∧ |x - collectionScore S r.query d| ≤ scoreError64 N T r.query.length * collectionScore S r.query d) ∧
    ∀ (i j : Nat) (d d' : String), (l.map Prod.fst)[i]? = some d → (l.map Prod.fst)[j]? = some d' →
      collectionScore S r.query d' * (1 + scoreError64 N T r.query.length) < collectionScore S r.query d * (1 - scoreError64 N T r.query.length) → i < j := by
  obtain ⟨hin, hal⟩ := CDisk.done_alike h (as := [.open_, .ix .merge]) (by decide) h1 hb hu hd hS ha hroom
  exact c125_search h (readsOf_consistent _ _) hal hm 1 (Server.loaded_returns hu hd (CDisk.ok_run h1).lok hin h2 hr hl (by omega))

/-- one client is apart from the others. -/
theorem CDisk.apart_one (p : List DOp) : Apart [p] := by
  have key : ∀ j (q : List DOp), [p][j]? = some q → j = 0 := by
    intro j q h
    cases j with
    | zero => rfl
    | succ j => cases h
  exact ⟨fun f => ⟨0, by simp, fun j q h1 h2 => absurd (key j q h1) h2⟩, fun d => ⟨0, by simp, fun j q h1 h2 => absurd (key j q h1) h2⟩⟩

theorem CDisk.writes_calls (l : List StoreOp) : writes (l.map DOp.write) = l := by
  induction l with
  | nil => rfl
  | cons a l ih => simp [writes, ih]

/-! ### concrete cases -/

/-- two texts: document "a" has "x y" in its title, document "b" has "x" in its body. -/
def twoTexts : List Entry := [⟨"a", "title", ["x", "y"]⟩, ⟨"b", "body", ["x"]⟩]

/-- two clients save one each, in turns. -/
def twoClients : List (List DOp) := (savesOf twoTexts).map fun op => [.write op]

/-- both save; then the index writer takes its messages, and the writer of documents begins its work. -/
def twoRun : List CDisk.Act := CDisk.turns 7 ++ [.recvM 0, .recvM 1] ++ CDisk.turns 10 ++ List.replicate 3 (.client 0 0) ++ [.recvN 0] ++ List.replicate 3 (.client 0 0) ++ [.recvN 0, .recvN 1] ++ CDisk.turns 5 ++
  [.recvD 1, .recvD 0] ++ [.ix .recv, .ix .recv, .tickD ["a", "b"], .stepD]

theorem twoRun_ok : ∃ s, CDisk.run {} (CDisk.openEmpty 2 twoClients ++ twoRun) = some s ∧ s.up = true ∧ (∀ cl ∈ s.clients, cl.todo = [] ∧ cl.cur = none) ∧ (s.hist.all fun op => decide op.field.tf.WF) = true :=
  exists_of_run (by decide +kernel)

/-- the search for "x" in titles and bodies. -/
noncomputable def twoQuery {L : MathLog} : List (Query (F64 L)) := [⟨"title", GoFloat.lit 1, ["x"]⟩, ⟨"body", GoFloat.lit 1, ["x"]⟩]

theorem twoTexts_once : Once twoTexts := by unfold Once twoTexts; decide

theorem twoClients_apart : CDisk.Apart twoClients := by
  refine ⟨fun f => ?_, fun e => ?_⟩
  · by_cases hf : f = "body"
    · refine ⟨1, by decide, fun j p hj hne => ?_⟩
      match j with
      | 0 => cases hj; subst hf; decide
      | 1 => exact absurd rfl hne
      | j + 2 => cases hj
    · refine ⟨0, by decide, fun j p hj hne => ?_⟩
      match j with
      | 0 => exact absurd rfl hne
      | 1 =>
        cases hj
        intro op hop
        obtain rfl : op = .save "b" (Text.makeField "body" ["x"]) := by simpa [CDisk.writes] using hop
        exact fun e => hf e.symm
      | j + 2 => cases hj
  · by_cases he : e = "b"
    · refine ⟨1, by decide, fun j p hj hne => ?_⟩
      match j with
      | 0 => cases hj; subst he; decide
      | 1 => exact absurd rfl hne
      | j + 2 => cases hj
    · refine ⟨0, by decide, fun j p hj hne => ?_⟩
      match j with
      | 0 => exact absurd rfl hne
      | 1 => cases hj; simpa [CDisk.touched] using he
      | j + 2 => cases hj

theorem twoQuery_moderate {L : MathLog} : Moderate twoTexts (twoQuery (L := L)) 1 1 := by
  have two : ∀ q ∈ twoQuery (L := L), q = ⟨"title", GoFloat.lit 1, ["x"]⟩ ∨ q = ⟨"body", GoFloat.lit 1, ["x"]⟩ := by simp [twoQuery]
  refine ⟨fun f => ?_, fun q hq => ?_, fun q hq => ?_, fun q hq => ?_, by norm_num, by norm_num, by show 2 ≤ 2^40; norm_num⟩
  · by_cases h1 : f = "title"
    · subst h1; decide
    by_cases h2 : f = "body"
    · subst h2; decide
    have : column twoTexts f = [] := by simp [column, twoTexts, Ne.symm h1, Ne.symm h2]
    rw [this]; simp
  · rcases two q hq with rfl | rfl
    · show (column twoTexts "title").length ≤ 1; decide
    · show (column twoTexts "body").length ≤ 1; decide
  · rcases two q hq with rfl | rfl <;> exact le_rfl
  · rcases two q hq with rfl | rfl <;>
    · refine ⟨1, lit64_one, .inr ?_⟩
      constructor <;> norm_num

/-- the hypotheses of C127 are met: two clients save in turns, a search for "x" in the titles and the bodies arrives while the documents are being written, it comes to an end, and it finds both documents. -/
example {L : MathLog} : ∃ (s₀ : CDisk) (s : Server (F64 L)) (r : DReq (F64 L)) (l : Scores (F64 L)), CDisk.run {} (CDisk.openEmpty 2 twoClients ++ twoRun) = some s₀ ∧ s₀.up = true ∧ CDisk.Done s₀ ∧
    (∀ b ∈ twoRun, CDisk.noOpen b = true) ∧ (twoClients.flatMap CDisk.writes).Perm (savesOf twoTexts) ∧ CDisk.Apart twoClients ∧ ((twoClients.flatMap CDisk.touched).toFinset.card : Int) ≤ 2 ∧
    Reaches (Server.UpStep Server.RoomyAct 4) ⟨s₀, []⟩ s ∧ r ∈ s.reqs ∧ r.result = some l ∧ Moderate twoTexts r.query 1 1 ∧ (l.map Prod.fst).Perm ["a", "b"] := by
  obtain ⟨d, h1, hu, hc, hh⟩ := twoRun_ok
  have hd : CDisk.Done d := hc
  have hroomy : ∀ a ∈ CDisk.openEmpty 2 twoClients ++ twoRun, Server.RoomyAct a := fun a ha =>
    (Server.fits_ok (d := "c") ((by decide +kernel : ∀ a ∈ CDisk.openEmpty 2 twoClients ++ twoRun, Server.fits "c" a = true) a ha)).1
  have gv : GoValues d.hist := by
    rw [List.all_eq_true] at hh
    exact fun op ho => by simpa using hh op ho
  let Q : List (Query (F64 L)) := twoQuery
  have r0 : Reaches (Server.UpStep Server.RoomyAct 4) ⟨d, []⟩ { disk := d, reqs := [DReq.start Q] } := .single ⟨.arrive { disk := d } _ hu, hu⟩
  have r1 : Reaches (Server.Step Server.RoomyAct 4) ({} : Server (F64 L)) { disk := d, reqs := [DReq.start Q] } := (Server.reaches_run h1 hroomy).tail (.arrive { disk := d } _ hu)
  have lv := Server.lively_reach (by decide) r1
  obtain ⟨s, l, hs', hl⟩ := ((c101_server_search_ends (by decide) r1 (i := 0) rfl).1 gv).2
  have hup := Server.reqStep_upStep (allow := Server.RoomyAct) (by decide) lv hs'
  have hq := (Server.queries_reqStep (j := 0) lv hs' (by decide) rfl).2
  unfold Server.queries at hq
  unfold Server.resultOf at hl
  cases hr : s.reqs[0]? with
  | none => rw [hr] at hl; cases hl
  | some r =>
    rw [hr] at hl hq
    have hl : r.result = some l := by simpa using hl
    have hq : r.query = Q := by simpa [DReq.query, DReq.start, Q, twoQuery] using hq
    have once := twoTexts_once
    have perm : (twoClients.flatMap CDisk.writes).Perm (savesOf twoTexts) := .refl _
    have ap := twoClients_apart
    have room : ((twoClients.flatMap CDisk.touched).toFinset.card : Int) ≤ 2 := by decide
    have md : Moderate twoTexts r.query 1 1 := by rw [hq]; exact twoQuery_moderate
    have no : ∀ b ∈ twoRun, CDisk.noOpen b = true := by decide
    have fin := c127_live once h1 no hu hd perm ap room (r0.trans hup) (List.mem_of_getElem? hr) hl md
    refine ⟨d, s, r, l, h1, hu, hd, no, perm, ap, room, r0.trans hup, List.mem_of_getElem? hr, hl, md, ?_⟩
    rw [List.perm_ext_iff_of_nodup fin.1 (by decide)]
    intro x
    rw [fin.2.1 x, hq]
    simp [Q, twoQuery, Hits, twoTexts, eq_comm]

namespace Http

/-- a cache for the documents has room for what the handlers touch. -/
theorem touched_posted (env : TextEnv) (docs : List Document) {n : Int} (hroom : (docs.length : Int) ≤ n) :
    ((([(savesOf (docs.flatMap (textsOf (termsOf env)))).map DOp.write].flatMap CDisk.touched).toFinset.card : Nat) : Int) ≤ n := by
  refine le_trans ?_ hroom
  have e : ∀ docs : List Document, CDisk.touched ((savesOf (docs.flatMap (textsOf (termsOf env)))).map DOp.write) = docs.flatMap fun d => [d.id, d.id, d.id] := by
    intro docs
    induction docs with
    | nil => rfl
    | cons d docs ih =>
      rw [List.flatMap_cons, show savesOf (textsOf (termsOf env) d ++ docs.flatMap (textsOf (termsOf env))) = savesOf (textsOf (termsOf env) d) ++ savesOf (docs.flatMap (textsOf (termsOf env))) from List.map_append, List.map_append]
      show d.id :: d.id :: d.id :: CDisk.touched ((savesOf (docs.flatMap (textsOf (termsOf env)))).map DOp.write) = _
      rw [ih]; rfl
  simp only [List.flatMap_cons, List.flatMap_nil, List.append_nil, e]
  have : (docs.flatMap fun d => [d.id, d.id, d.id]).toFinset ⊆ (docs.map Document.id).toFinset := by
    intro x hx
    simp only [List.mem_toFinset, List.mem_flatMap, List.mem_cons, List.not_mem_nil, or_false, or_self] at hx ⊢
    obtain ⟨d, hd, rfl⟩ := hx
    exact List.mem_map_of_mem hd
  have h3 := (Finset.card_le_card this).trans (List.toFinset_card_le _)
  simpa using h3

/-- **C127 (HTTP).** A client POSTs documents with different ids, one request after the other, to the server of main that was started in an empty folder; the cache has room for them. When the last one is answered, any number
of GET requests arrive and are handled side by side, while the goroutines of the store still write their files. The bytes of every answer are the ranking of the posted documents by BM25, as in C126. -/
theorem c127_http (D : Digits) (env : TextEnv) {bodies : List (List UInt8)} {docs : List Document} (h : Accepts bodies docs) (hid : (docs.map Document.id).Nodup)
    {n : Int} {acts : List CDisk.Act} {s₀ : CDisk} (h1 : CDisk.run {} (CDisk.openEmpty n [((bodies.map shouldBindJSON).flatMap (callsOf env)).map .write] ++ acts) = some s₀)
    (hb : ∀ b ∈ acts, CDisk.noOpen b = true) (hu : s₀.up = true) (hd : CDisk.Done s₀) (hroom : (docs.length : Int) ≤ n)
    {allow : CDisk.Act → Prop} {cpus : Nat} {s : Server (F64 L)} (h2 : Reaches (Server.UpStep allow cpus) ⟨s₀, []⟩ s)
    {raw bs : List UInt8} {q : String} (ha : Asks raw bs) (hq : Decodes bs q.toList) (hf : Fair (termsOf env) docs (termsOf env q)) {terms : List String} (ht : Text.preprocessing env (queryText raw) = some terms)
    {r : DReq (F64 L)} (hr : r ∈ s.reqs) (hrq : r.query = queries terms) {l : Scores (F64 L)} (hl : r.result = some l) (duration : String) :
    Ranked (termsOf env) docs (termsOf env q) ((respond l).map (reply (D.printer L) duration)) := by
  rw [(accepts_calls env h).1] at h1
  have hroom' := touched_posted env docs hroom
  have once := posted_once (termsOf env) hid
  obtain ⟨hin, hal⟩ := CDisk.done_alike (S := posted (termsOf env) docs) once (as := [.open_, .ix .merge]) (by decide) h1 hb hu hd (by simp only [List.flatMap_cons, List.flatMap_nil, List.append_nil, CDisk.writes_calls]; exact .refl _)
    (CDisk.apart_one _) hroom'
  have hret := Server.loaded_returns hu hd (CDisk.ok_run h1).lok hin h2 hr hl (cpus' := 1) (by omega)
  rw [hrq] at hret
  exact ranked D env hid ha hq hf (readsOf_consistent _ _) hal (cpus := 1) ⟨_, duration, ⟨terms, l, ht, hret, rfl⟩, rfl⟩

/-! ### a concrete case -/

/-- ten documents. -/
def tenDocs : List Document := ["0", "1", "2", "3", "4", "5", "6", "7", "8", "9"].map fun i => ⟨i, "red", "red"⟩

/-- the steps of thirty saves, three per document, one after the other; then the writer of documents begins. -/
def tenRun : List CDisk.Act := (List.replicate 3 (CDisk.saveAlone 0)).flatten ++
  (List.replicate 27 (List.replicate 7 (.client 0 0) ++ [.recvM 0] ++ List.replicate 9 (.client 0 0) ++ [.recvN 0] ++ List.replicate 5 (.client 0 0) ++ [.recvD 0])).flatten ++ [.tickD ["3", "0", "1", "2", "9", "8", "7", "6", "5", "4"], .stepD]

set_option maxRecDepth 100000 in
theorem tenRun_ok : ∃ s, CDisk.run {} (CDisk.openEmpty 10 [(savesOf (posted (termsOf demoEnv) tenDocs)).map .write] ++ tenRun) = some s ∧ s.up = true ∧ (∀ cl ∈ s.clients, cl.todo = [] ∧ cl.cur = none) ∧
    (s.hist.all fun op => decide op.field.tf.WF) = true :=
  exists_of_run (by decide +kernel)

theorem tenRun_noOpen : ∀ b ∈ tenRun, CDisk.noOpen b = true := by decide +kernel

/-- the hypotheses are met: ten documents are posted, GET /nir?query=red arrives while the documents are being written, the search comes to an end, and the answer is the ranking of the ten. -/
example (D : Digits) : ∃ (bodies : List (List UInt8)) (s₀ : CDisk) (s : Server (F64 L)) (raw bs : List UInt8) (terms : List String) (r : DReq (F64 L)) (l : Scores (F64 L)),
    Accepts bodies tenDocs ∧ (tenDocs.map Document.id).Nodup ∧ CDisk.run {} (CDisk.openEmpty 10 [((bodies.map shouldBindJSON).flatMap (callsOf demoEnv)).map .write] ++ tenRun) = some s₀ ∧
    (∀ b ∈ tenRun, CDisk.noOpen b = true) ∧ s₀.up = true ∧ CDisk.Done s₀ ∧ Reaches (Server.UpStep Server.RoomyAct 4) ⟨s₀, []⟩ s ∧ Asks raw bs ∧ Decodes bs "red".toList ∧
    Fair (termsOf demoEnv) tenDocs (termsOf demoEnv "red") ∧ Text.preprocessing demoEnv (queryText raw) = some terms ∧ r ∈ s.reqs ∧ r.query = queries terms ∧ r.result = some l ∧
    ∃ body rs, (respond l).map (reply (D.printer L) "1ms") = some (200, body) ∧ Tells body 10 "BM25" (some rs) ∧ rs.length = 10 := by
  have key : ∀ ids : List String, (∀ i ∈ ids, i ≠ "") → Accepts (ids.map fun i => bodyOf i "red" "red") (ids.map fun i => ⟨i, "red", "red"⟩) := by
    intro ids
    induction ids with
    | nil => intro _; exact .nil
    | cons i ids ih =>
      intro h
      obtain ⟨s, h1, h2⟩ := bodyOf_carries i "red" "red" (h i (by simp))
      exact .doc h1 h2 (h i (by simp)) (ih fun j hj => h j (by simp [hj]))
  have ha := key ["0", "1", "2", "3", "4", "5", "6", "7", "8", "9"] (by decide)
  obtain ⟨d, h1, hu, hd, hh⟩ := tenRun_ok
  have h1' : CDisk.run {} (CDisk.openEmpty 10 [(((["0", "1", "2", "3", "4", "5", "6", "7", "8", "9"].map fun i => bodyOf i "red" "red").map shouldBindJSON).flatMap (callsOf demoEnv)).map .write] ++ tenRun) = some d := by
    rw [(accepts_calls demoEnv ha).1]; exact h1
  have hroomy : ∀ a ∈ CDisk.openEmpty 10 [(savesOf (posted (termsOf demoEnv) tenDocs)).map .write] ++ tenRun, Server.RoomyAct a := by
    intro a hm n progs e
    subst e
    rcases List.mem_append.1 hm with hm | hm
    · simp only [CDisk.openEmpty, List.mem_cons, List.not_mem_nil, or_false, reduceCtorEq, false_or, CDisk.Act.openRest.injEq] at hm
      omega
    · have := tenRun_noOpen _ hm
      cases this
  have gv : GoValues d.hist := by
    rw [List.all_eq_true] at hh
    exact fun op ho => by simpa using hh op ho
  have r0 : Reaches (Server.UpStep Server.RoomyAct 4) (⟨d, []⟩ : Server (F64 L)) { disk := d, reqs := [DReq.start (queries (termsOf demoEnv "red"))] } := .single ⟨.arrive { disk := d } _ hu, hu⟩
  have r1 : Reaches (Server.Step Server.RoomyAct 4) ({} : Server (F64 L)) { disk := d, reqs := [DReq.start (queries (termsOf demoEnv "red"))] } :=
    (Server.reaches_run h1 hroomy).tail (.arrive { disk := d } _ hu)
  have lv := Server.lively_reach (by decide) r1
  obtain ⟨s, l, hs', hl⟩ := ((c101_server_search_ends (by decide) r1 (i := 0) rfl).1 gv).2
  have hup := Server.reqStep_upStep (allow := Server.RoomyAct) (by decide) lv hs'
  have hq := (Server.queries_reqStep (j := 0) lv hs' (by decide) rfl).2
  unfold Server.queries at hq
  unfold Server.resultOf at hl
  cases hr : s.reqs[0]? with
  | none => rw [hr] at hl; cases hl
  | some r =>
    rw [hr] at hl hq
    have hl : r.result = some l := by simpa using hl
    have hq : r.query = queries (termsOf demoEnv "red") := by simpa [DReq.query, DReq.start, queries] using hq
    have fair : Fair (termsOf demoEnv) tenDocs (termsOf demoEnv "red") := ⟨by decide, by decide, by decide, by decide, by decide⟩
    obtain ⟨raw, bs, a1, a2⟩ : ∃ raw bs, Asks raw bs ∧ Decodes bs "red".toList :=
      ⟨"query=red".toList.map Char.toUInt8, Collection.utf8 "red".toList,
        Or.inl ⟨[], "query=red".toList.map Char.toUInt8, [], (fun p hp => by cases hp), forQuery_of (by decide) rfl, (fun p hp => by cases hp), rfl⟩, Collection.decodes_utf8 _⟩
    have ht : Text.preprocessing demoEnv (queryText raw) = some (termsOf demoEnv "red") := by rw [preprocessing_some, c115_query a1 a2]
    have fin := c127_http D demoEnv (L := L) ha (by decide) h1' tenRun_noOpen hu hd (by decide) (r0.trans hup) a1 a2 fair ht (List.mem_of_getElem? hr) hq hl "1ms"
    refine ⟨_, d, s, raw, bs, _, r, l, ha, by decide, h1', tenRun_noOpen, hu, hd, r0.trans hup, a1, a2, fair, ht, List.mem_of_getElem? hr, hq, hl, ?_⟩
    have hred : "red" ∈ termsOf demoEnv "red" := by decide
    obtain ⟨body, rs, e1, e2, e3, -⟩ := fin.2.1 ⟨tenDocs, by decide, by decide, fun x hx => ⟨hx, by
      obtain ⟨i, -, rfl⟩ := List.mem_map.1 hx
      exact ⟨"red", hred, .inr hred⟩⟩⟩
    exact ⟨body, rs, e1, e2, e3⟩

end Http
end Goir
