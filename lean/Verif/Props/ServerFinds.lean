import Verif.Props.Server
import Verif.Props.Http
/-!
# C102: the searches of a running server find what was stored
-/
namespace Goir
open GoMap Spec

namespace Server
open CDisk DLive
variable {F : Type} [GoFloat F]

/-- nobody saves document `d`, and what the clients are given are values of Go. -/
def Spares (d : String) (a : CDisk.Act) : Prop := ∀ n progs, a = .openRest n progs → ∀ op ∈ progs.flatMap writes, op.field.tf.WF ∧ (op.isSave = true → op.doc ≠ d)

theorem spares_noOpen {d : String} (a : CDisk.Act) (h : noOpen a = true) : Spares d a := by rintro n progs rfl; cases h

theorem Spares.noSave {d : String} {a : CDisk.Act} (h : Spares d a) : NoSave d a := by
  cases a with
  | openRest n progs =>
    intro op ho
    have := (h n progs rfl op ho).2
    simp only [Conc.onDoc, Bool.and_eq_false_iff, decide_eq_false_iff_not]
    cases hsv : op.isSave with
    | false => exact .inl rfl
    | true => exact .inr (this hsv)
  | _ => trivial

/-- the store while nobody saves `d`. -/
structure Kept (d : String) (m : GoMap String Field) (s : CDisk) : Prop where
  good : Good0 s
  gv : GoValues s.hist
  todo : ∀ cl ∈ s.clients, ∀ op ∈ writes cl.todo, op.field.tf.WF
  ro : ReadOnly d m s

theorem kept_steady (d : String) (m : GoMap String Field) : Steady (Spares d) (Kept d m) where
  step s a s' h hs ha := by
    have hgt : GoValues s'.hist ∧ ∀ cl ∈ s'.clients, ∀ op ∈ writes cl.todo, op.field.tf.WF := by
      have set_ : ∀ {i : Nat} {cl : DClient} (c : DClient), s.clients[i]? = some cl → (∀ op ∈ writes c.todo, op ∈ writes cl.todo) → ∀ cl ∈ s.clients.set i c, ∀ op ∈ writes cl.todo, op.field.tf.WF := by
        intro i cl c hi hc x hx op ho
        rcases LFan.mem_set' hx with rfl | hx
        · exact h.todo cl (List.mem_of_getElem? hi) op (hc op ho)
        · exact h.todo x hx op ho
      cases hs with
      | @beginWrite i k cl op rest hu hi hc ht =>
        refine ⟨?_, set_ _ hi (by intro op' ho; rw [ht]; exact List.mem_cons_of_mem _ ho)⟩
        intro op' ho
        have : op' ∈ s.hist ++ [op] := by simpa [hist] using ho
        rcases List.mem_append.1 this with ho | ho
        · exact h.gv op' ho
        · cases List.mem_singleton.1 ho
          exact h.todo cl (List.mem_of_getElem? hi) _ (by rw [ht]; exact List.mem_cons_self)
      | @beginRead i k cl ids name rest hu hi hc ht => exact ⟨h.gv, set_ _ hi (by intro op' ho; rw [ht]; exact ho)⟩
      | acc hu hi hc he hn => exact ⟨h.gv, set_ _ hi fun _ ho => ho⟩
      | accReturn hu hi hc he hn => exact ⟨h.gv, set_ _ hi fun _ ho => ho⟩
      | msgLen hu hi hc => exact ⟨h.gv, set_ _ hi fun _ ho => ho⟩
      | msgSize hu hi hc => exact ⟨h.gv, set_ _ hi fun _ ho => ho⟩
      | sendI hu hi hc he => exact ⟨h.gv, set_ _ hi fun _ ho => ho⟩
      | msgN hu hi hc => exact ⟨h.gv, set_ _ hi fun _ ho => ho⟩
      | docHit hu hi hc hr => exact ⟨h.gv, set_ _ hi fun _ ho => ho⟩
      | docMiss hu hi hc hr => exact ⟨h.gv, set_ _ hi fun _ ho => ho⟩
      | docSet hu hi hc => exact ⟨h.gv, set_ _ hi fun _ ho => ho⟩
      | docPut hu hi hc he => exact ⟨h.gv, set_ _ hi fun _ ho => ho⟩
      | readEnd hu hi hc => exact ⟨h.gv, set_ _ hi fun _ ho => ho⟩
      | readHit hu hi hc hr => exact ⟨h.gv, set_ _ hi fun _ ho => ho⟩
      | readMiss hu hi hc hr => exact ⟨h.gv, set_ _ hi fun _ ho => ho⟩
      | readField hu hi hc => exact ⟨h.gv, set_ _ hi fun _ ho => ho⟩
      | readAbsent hu hi hc hl => exact ⟨h.gv, set_ _ hi fun _ ho => ho⟩
      | readLoad hu hi hc hl hb => exact ⟨h.gv, set_ _ hi fun _ ho => ho⟩
      | readPut hu hi hc he => exact ⟨h.gv, set_ _ hi fun _ ho => ho⟩
      | recvM hi hc he => exact ⟨h.gv, set_ _ hi fun _ ho => ho⟩
      | recvN hi hc he => exact ⟨h.gv, set_ _ hi fun _ ho => ho⟩
      | recvD hi hc he => exact ⟨h.gv, set_ _ hi fun _ ho => ho⟩
      | ixDown hb hu he hp => exact ⟨fun op ho => h.gv op (by simpa [hist, stop] using ho), fun _ hx => (by simp [stop] at hx)⟩
      | crash he => exact ⟨fun op ho => h.gv op (by simpa [hist, stop] using ho), fun _ hx => (by simp [stop] at hx)⟩
      | @openRest n progs hp hu hm hn =>
        refine ⟨h.gv, fun cl hcl op ho => ?_⟩
        obtain ⟨p, hp, rfl⟩ := List.mem_map.1 hcl
        exact (ha n progs rfl op (List.mem_flatMap.2 ⟨p, hp, ho⟩)).1
      | _ => exact ⟨h.gv, h.todo⟩
    exact ⟨Good0.steady.step _ _ _ h.good hs trivial, hgt.1, hgt.2, readOnly_step h.good.ok (h.good.docs h.gv) hs ha.noSave h.ro⟩
  idle s cs h hu hcs := by
    have hcur : ∀ cl ∈ cs, ∀ c, cl.cur = some c → cl ∈ s.clients := by
      intro cl hcl c hc
      rcases hcs cl hcl with h | ⟨h, -⟩
      · exact h
      · rw [h] at hc; cases hc
    have htodo : ∀ cl ∈ cs, ∀ op ∈ writes cl.todo, cl ∈ s.clients := by
      intro cl hcl op ho
      rcases hcs cl hcl with h | ⟨-, h⟩
      · exact h
      · rw [h] at ho; cases ho
    refine ⟨Good0.steady.idle _ _ h.good hu hcs, h.gv, fun cl hcl op ho => h.todo cl (htodo cl hcl op ho) op ho, ?_⟩
    exact ⟨h.ro.buf, h.ro.file, h.ro.val, fun cl hcl op ho => h.ro.todo cl (htodo cl hcl op ho) op ho, fun cl hcl op loc e => h.ro.cur cl (hcur cl hcl _ e) op loc e,
        fun cl hcl ids name loc e => h.ro.pos cl (hcur cl hcl _ e) ids name loc e, h.ro.ans⟩

/-- … and as long as the process runs, `d` is listed. -/
def KeptListed (f t d : String) (r : Ref String) (sr : Ref (String × String)) (m : GoMap String Field) (s : CDisk) : Prop := Kept d m s ∧ (s.up = true → Listed f t d r sr s)

theorem keptListed_steady (f t d : String) (r : Ref String) (sr : Ref (String × String)) (m : GoMap String Field) : Steady (fun a => noOpen a = true) (KeptListed f t d r sr m) where
  step s a s' h hs ha := by
    refine ⟨(kept_steady d m).step s a s' h.1 hs (spares_noOpen a ha), fun hup => ?_⟩
    cases hu : s.up with
    | true => exact listed_step h.1.good.ok (h.2 hu) hs ha hup
    | false =>
      cases hs with
      | openRest hp hu' hm hn => cases ha
      | ixDown => simp [stop] at hup
      | crash => simp [stop] at hup
      | _ => exact absurd (show s.up = true from hup) (by rw [hu]; decide)
  idle s cs h hu hcs := by
    refine ⟨(kept_steady d m).idle s cs h.1 hu hcs, fun _ => ?_⟩
    have hl := h.2 hu
    have hcur : ∀ cl ∈ cs, ∀ c, cl.cur = some c → cl ∈ s.clients := by
      intro cl hcl c hc
      rcases hcs cl hcl with h | ⟨h, -⟩
      · exact h
      · rw [h] at hc; cases hc
    exact ⟨hl.lt, hl.idx, hl.set, hl.mem, fun cl hcl op e => hl.idxNew cl (hcur cl hcl _ e) op e, fun cl hcl op r' key ts e => hl.postNew cl (hcur cl hcl _ e) op r' key ts e⟩

theorem settled_of {f t d : String} {r : Ref String} {sr : Ref (String × String)} {m : GoMap String Field} {s : CDisk} (h : KeptListed f t d r sr m s ∧ s.up = true) : Settled f t d r sr m s :=
  ⟨good_of ⟨h.1.1.good, h.2⟩, h.1.1.gv, h.1.1.todo, h.1.2 h.2, h.1.1.ro⟩

/-- when no process runs, what the file of `d` holds is kept. -/
theorem kept_down {s : Server F} (h : Sound s) (hu : s.disk.up = false) (gv : GoValues s.disk.hist) {d : String} {m : GoMap String Field} (hfile : (s.disk.load d).map (fun o => o.getD []) = some m) : Held (Kept d m) s := by
  obtain ⟨h0, A, hp, -⟩ := h.held
  have hr := h0 hu
  have hoff := h.ok.off hu
  have hA : A = [] := (hp.ok.off hu).answers
  have ec : s.disk.clients ++ readers s.reqs = [] := by rw [hr, hoff.clients]; rfl
  refine ⟨h0, A, ?_, fun r hm => (by rw [hr] at hm; cases hm)⟩
  refine ⟨hp, gv, ?_, ?_⟩
  · intro cl hcl
    rw [show (s.disk.re (s.disk.clients ++ readers s.reqs) A).clients = [] from ec] at hcl; cases hcl
  · refine ⟨by show s.disk.fl.buf.get? d = none; rw [hoff.fl.1]; rfl, hfile, fun r hv => ?_, ?_, ?_, ?_, ?_⟩
    · have hv : s.disk.cache.val d = some r := hv
      rw [hoff.cache, show LRU.val _ _ = none from LRU.val_new 0 d] at hv; cases hv
    · intro cl hcl; rw [show (s.disk.re (s.disk.clients ++ readers s.reqs) A).clients = [] from ec] at hcl; cases hcl
    · intro cl hcl; rw [show (s.disk.re (s.disk.clients ++ readers s.reqs) A).clients = [] from ec] at hcl; cases hcl
    · intro cl hcl; rw [show (s.disk.re (s.disk.clients ++ readers s.reqs) A).clients = [] from ec] at hcl; cases hcl
    · intro x hx; rw [show (s.disk.re (s.disk.clients ++ readers s.reqs) A).answers = [] from hA] at hx; cases hx

/-- a step of a running server opens no store. -/
theorem up_noOpen {allow : CDisk.Act → Prop} {cpus : Nat} {s s' : Server F} (hu : s.disk.up = true) (hs : Step allow cpus s s') : Step (fun a => noOpen a = true) cpus s s' := by
  cases hs with
  | store a d ha hx => exact .store s a d (noOpen_up (exec_step hx) hu) hx
  | arrive query hu => exact .arrive s query hu
  | req i r r' d hi hm => exact .req s i r r' d hi hm

theorem readers_read {s : Server F} {P : CDisk → Prop} (_ : Held P s) {cl : DClient} (h : cl ∈ readers s.reqs) (op : StoreOp) (loc : WLoc) : cl.cur ≠ some (.write op loc) := by
  obtain ⟨r, -, q, x, -, hc⟩ := mem_readers.1 h
  cases x with
  | phase2 st fan =>
    obtain ⟨g, -, rfl⟩ := List.mem_map.1 hc
    cases g <;> simp [DBatchG.toClient]
  | _ => cases hc

/-- what the request knows of `d`. -/
structure Finds (f t d : String) (rf : Ref String) (sr : Ref (String × String)) (m : GoMap String Field) (old : Field) (query : List (Query F)) (i : Nat) (s : Server F) : Prop where
  held : Held (KeptListed f t d rf sr m) s
  wf : Threads (fun _ _ x => DoneWF x) s
  req : ∃ r, s.reqs[i]? = some r ∧ r.query = query ∧ (∀ q x, (q, DQ.running x) ∈ r.threads → q.fieldName = f → t ∈ q.terms → Will t d rf sr x) ∧
    DReq.Collects (fun q _ docs => q.fieldName = f → t ∈ q.terms → docs.get? d = some old) r

theorem finds_step {f t d : String} {rf : Ref String} {sr : Ref (String × String)} {m : GoMap String Field} {old : Field} (hm : m.get? f = some old) {query : List (Query F)} {i : Nat} {allow : CDisk.Act → Prop} {cpus : Nat}
    {s s' : Server F} (h : Finds f t d rf sr m old query i s) (hs : UpStep allow cpus s s') : Finds f t d rf sr m old query i s' := by
  obtain ⟨hs, hup⟩ := hs
  obtain ⟨r, hr, hq, hw, hc⟩ := h.req
  have hmem := List.mem_of_getElem? hr
  have hu := h.held.up hmem
  have hs' := up_noOpen hu hs
  refine ⟨held_step (keptListed_steady f t d rf sr m) (fun _ h => h) h.held hs', ?_, ?_⟩
  · refine threads_step h.wf hs (fun _ _ => trivial) (fun _ _ _ _ _ _ _ h => h) fun d r q x x' hr hx hm h => ⟨?_, fun _ _ h => h⟩
    cases hm with
    | finish _ st fan hf => exact collect_wf _
    | _ => trivial
  · cases hs with
    | store a e ha hx => exact ⟨r, by simpa [show e.up = true from hup] using hr, hq, hw, hc⟩
    | arrive query' hu' => exact ⟨r, by rw [List.getElem?_append_left (List.getElem?_eq_some_iff.1 hr).1]; exact hr, hq, hw, hc⟩
    | req k r0 r' e hk hmv =>
      by_cases hki : k = i
      · subst hki
        rw [hr] at hk
        cases hk
        refine ⟨r', by show (s.reqs.set k r')[k]? = _; rw [List.getElem?_set, if_pos rfl, if_pos (List.getElem?_eq_some_iff.1 hr).1], (DReq.query_move hmv).trans hq, ?_, ?_⟩
        · cases hmv with
          | inner _ _ j q x x' ht hmv =>
            intro q0 x0 hx0 hf ht0
            rcases LFan.mem_set' hx0 with e0 | hx0
            · cases e0
              have htm := List.mem_of_getElem? ht
              obtain ⟨-, A, hp, -⟩ := h.held.sim (keptListed_steady f t d rf sr m) hmem htm
              subst hf
              exact will_move ht0 hm (settled_of hp) (hw _ _ htm rfl ht0) hmv
            · exact hw _ _ hx0 hf ht0
          | send _ j q st docs order ht ho hc' =>
            intro q0 x0 hx0
            rcases LFan.mem_set' hx0 with e0 | hx0
            · cases e0
            · exact hw _ _ hx0
          | _ => exact hw
        · refine DReq.collects_move hc hmv fun q st docs hx => ⟨fun hf ht0 => ?_, h.wf r hmem q _ hx⟩
          obtain ⟨fl, he⟩ := hw _ _ hx hf ht0
          obtain ⟨-, A, hp, hread⟩ := h.held.sim (keptListed_steady f t d rf sr m) hmem hx
          have hp := settled_of hp
          obtain ⟨ids, out, h5, h6⟩ := hread d fl he
          have h7 := GoMap.get?_of_mem (hp.good.out.ans _ h5) h6
          have h8 := hp.ro.ans _ h5 ((hp.good.docs hp.gv).ans _ h5 d fl h7).1
          rw [hf] at h8
          rw [show GoMap.get? out d = m.get? f from h8, hm] at h7
          rw [he, h7]
      · exact ⟨r, by show (s.reqs.set k r')[i]? = _; rw [List.getElem?_set, if_neg hki]; exact hr, hq, hw, hc⟩

end Server

/-- **C102 A GET of a running server finds what is stored, whatever else goes on.** At a moment when no process ran, the file of document `d` held the field `old`. Since then nobody saved `d`, but any number of clients saved and
read other documents, any number of searches ran, and the process ended and started any number of times. When the request arrives, `d` is listed for the term in the field, and no call that saves
this field is under way. Then, whatever happens from then on until the search returns (other searches and saves of the same field too), every query of the field with the term gives `d` with the field `old`, and so `d` is in the answer. -/
theorem c102_server_search_finds {F : Type} [GoFloat F] {allow : CDisk.Act → Prop} {cpus : Nat} {s₁ s₂ s : Server F} {d f t : String} {m : GoMap String Field} {old : Field}
    (h1 : Reaches (Server.Step allow cpus) ({} : Server F) s₁) (hd : s₁.disk.up = false) (gv : GoValues s₁.disk.hist) (hfile : (s₁.disk.load d).map (fun o => o.getD []) = some m) (stored : m.get? f = some old)
    (h2 : Reaches (Server.Step (Server.Spares d) cpus) s₁ s₂) (hu : s₂.disk.up = true) (listed : GoSet.contains (s₂.disk.getDocuments f t).1 d = true)
    (quiet : ∀ cl ∈ s₂.disk.clients, ∀ op loc, cl.cur = some (.write op loc) → op.field.name ≠ f) {query : List (Query F)}
    (h3 : Reaches (Server.UpStep (Server.Spares d) cpus) { s₂ with reqs := s₂.reqs ++ [DReq.start query] } s) {r : DReq F} (hr : s.reqs[s₂.reqs.length]? = some r) {l : Scores F} (hl : r.result = some l) :
    ∃ answers : List (Answer F), (answers.map Answer.query).Perm query ∧ Merges answers l ∧ ∀ a ∈ answers, a.query.fieldName = f → t ∈ a.query.terms → a.docs.get? d = some old := by
  have hk : Server.Held (Server.Kept d m) s₂ := h2.invariant (Server.kept_down (Server.sound_reach h1) hd gv hfile) fun _ _ => Server.held_step (Server.kept_steady d m) Server.spares_noOpen
  have hs2 : Server.Sound s₂ := h2.invariant (Server.sound_reach h1) fun _ _ => Server.sound_step
  have ha2 : Conc.Alloc s₂.disk.mem := by
    have step : ∀ {allow : CDisk.Act → Prop} {s s' : Server F}, Conc.Alloc s.disk.mem → Server.Step allow cpus s s' → Conc.Alloc s'.disk.mem := by
      intro allow s s' h hs
      cases hs with
      | store a d ha hx => exact CDisk.alloc_step h (CDisk.exec_step hx)
      | arrive query hu => exact h
      | req i r r' d hi hm =>
        cases hm with
        | inner _ _ j q x x' ht hm => exact DLive.alloc_move h hm
        | _ => exact h
    exact h2.invariant (h1.invariant (P := fun s => Conc.Alloc s.disk.mem) (CDisk.alloc_run (as := []) rfl) fun _ _ => step) fun _ _ => step
  obtain ⟨sr, e1, e2⟩ := (CMem.view_contains _ _ _ _).1 listed
  obtain ⟨rf, e3, e4⟩ := Option.bind_eq_some_iff.1 e1
  have hrt : rf.tag = f := hs2.ok.tags.idx _ _ e3
  have hlist : Server.Held (Server.KeptListed f t d rf sr m) s₂ := by
    have hk' := hk
    obtain ⟨h0, A, hp, hrd⟩ := hk
    refine ⟨h0, A, ⟨hp, fun _ => ⟨ha2 _ _ _ e4, e3, e4, e2, fun cl hcl op e => ?_, fun cl hcl op r' key ts e => ?_⟩⟩, hrd⟩
    · rcases List.mem_append.1 hcl with hcl | hcl
      · exact quiet cl hcl op _ e
      · exact absurd e (Server.readers_read hk' hcl _ _)
    · rcases List.mem_append.1 hcl with hcl | hcl
      · rintro ⟨rfl, rfl⟩
        exact quiet cl hcl op _ e ((hs2.ok.cur cl hcl _ e).2.1.1.symm.trans hrt)
      · exact absurd e (Server.readers_read hk' hcl _ _)
  have hstart : Server.Finds f t d rf sr m old query s₂.reqs.length { s₂ with reqs := s₂.reqs ++ [DReq.start query] } := by
    have harr : Server.Step (fun a => CDisk.noOpen a = true) cpus s₂ { s₂ with reqs := s₂.reqs ++ [DReq.start query] } := .arrive s₂ query hu
    refine ⟨Server.held_step (Server.keptListed_steady f t d rf sr m) (fun _ h => h) hlist harr, (Server.sound_step hs2 harr).wf, DReq.start query, ?_, ?_, ?_, DReq.collects_start _ query⟩
    · simp
    · show (query.map fun q => (q, DQ.running (.first .readLen))).map Prod.fst = query
      rw [List.map_map]
      exact List.map_id' query
    · intro q x hx
      obtain ⟨q', -, e⟩ := List.mem_map.1 hx
      cases e
      exact fun _ _ => trivial
  have hf := h3.invariant hstart fun _ _ => Server.finds_step stored
  obtain ⟨r', hr', hq, -, hc⟩ := hf.req
  rw [hr] at hr'
  cases hr'
  obtain ⟨as, a1, a2, a3, -⟩ := DReq.collects_result hc hl
  exact ⟨as, hq ▸ a1, a3, a2⟩

/-- a document in an answer is in what the answers are merged to. -/
theorem Merges.mem {F : Type} [GoFloat F] {query : List (Query F)} {f t d : String} {old : Field} {l : Scores F} {answers : List (Answer F)} (h1 : (answers.map Answer.query).Perm query) (h2 : Merges answers l)
    (h3 : ∀ a ∈ answers, a.query.fieldName = f → t ∈ a.query.terms → a.docs.get? d = some old) {q : Query F} (hq : q ∈ query) (hf : q.fieldName = f) (ht : t ∈ q.terms) : d ∈ l.map Prod.fst := by
  obtain ⟨a, ha, rfl⟩ := List.mem_map.1 (h1.mem_iff.2 hq)
  have hd := h3 a ha hf ht
  have hs : ∃ x, a.score d = some x := by
    unfold Answer.score
    rw [hd]; exact ⟨_, rfl⟩
  obtain ⟨x, hs⟩ := hs
  exact List.mem_map.2 ⟨(d, _), (h2.2 d _).2 ⟨List.ne_nil_of_mem (List.mem_filterMap.2 ⟨a, ha, hs⟩), rfl⟩, rfl⟩

/-- **C102, for GET /nir.** The same for the handler: the words of the query are preprocessed to terms, one of which is `t`, and the field is "title" or "text". What the search returns has `d` in it; so the handler
answers with the first ten of the ranking if ten documents were found, and otherwise it panics. -/
theorem c102_get {F : Type} [GoFloat F] {allow : CDisk.Act → Prop} {cpus : Nat} {s₁ s₂ s : Server F} {d f t : String} {m : GoMap String Field} {old : Field}
    (h1 : Reaches (Server.Step allow cpus) ({} : Server F) s₁) (hd : s₁.disk.up = false) (gv : GoValues s₁.disk.hist) (hfile : (s₁.disk.load d).map (fun o => o.getD []) = some m) (stored : m.get? f = some old)
    (h2 : Reaches (Server.Step (Server.Spares d) cpus) s₁ s₂) (hu : s₂.disk.up = true) (listed : GoSet.contains (s₂.disk.getDocuments f t).1 d = true)
    (quiet : ∀ cl ∈ s₂.disk.clients, ∀ op loc, cl.cur = some (.write op loc) → op.field.name ≠ f) {env : TextEnv} {text : String} {terms : List String} (hp : Text.preprocessing env text = some terms) (ht : t ∈ terms)
    (hf : f = "title" ∨ f = "text")
    (h3 : Reaches (Server.UpStep (Server.Spares d) cpus) { s₂ with reqs := s₂.reqs ++ [DReq.start (Http.queries terms)] } s) {r : DReq F} (hr : s.reqs[s₂.reqs.length]? = some r) {l : Scores F} (hl : r.result = some l) :
    d ∈ l.map Prod.fst ∧ (Http.respond l = none ∧ l.length < 10 ∨ ∃ resp, Http.respond l = some resp ∧ resp.queryResults = l.take 10 ∧ resp.total = 10) := by
  obtain ⟨as, a1, a2, a3⟩ := c102_server_search_finds h1 hd gv hfile stored h2 hu listed quiet h3 hr hl
  have hin : d ∈ l.map Prod.fst := by
    rcases hf with rfl | rfl
    · exact Merges.mem a1 a2 a3 (q := ⟨"title", GoFloat.lit 1, terms⟩) (by simp [Http.queries]) rfl ht
    · exact Merges.mem a1 a2 a3 (q := ⟨"text", GoFloat.lit 1, terms⟩) (by simp [Http.queries]) rfl ht
  refine ⟨hin, ?_⟩
  have hpos : 1 ≤ l.length := by
    obtain ⟨e, he, -⟩ := List.mem_map.1 hin
    exact List.length_pos_of_mem he
  by_cases h10 : l.length < 10
  · exact .inl ⟨(c69_any_number_of_hits_refuted l).2 ⟨hpos, by omega⟩, h10⟩
  · obtain ⟨resp, e1, e2, e3, -⟩ := c69_none_or_many_partial l (.inr (by omega))
    exact .inr ⟨resp, e1, e2, by omega⟩

end Goir
