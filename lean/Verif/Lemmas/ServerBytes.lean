import Verif.Model.ServerBytes
import Verif.Lemmas.DiskBytesRestart
import Verif.Props.HttpLive
/-!
# The server with bytes follows the server with objects
-/
namespace Goir
open GoMap Spec

namespace LSearch

theorem act_eq {m m' : CMem} (h : MemEq m m') (f : String) : TermG.Act m' f = TermG.Act m f := by
  obtain ⟨m1, m2, m3, m4, m5, m6, m7, m8, m9, m10⟩ := m
  obtain ⟨n1, n2, n3, n4, n5, n6, n7, n8, n9, n10⟩ := m'
  obtain ⟨h1, h2, h3, h4, h5, h6, h7, h8, h9, h10⟩ := h
  simp only at h1 h2 h3 h4 h5 h6 h7 h8 h9 h10
  subst h1 h2 h5 h6 h7 h9 h10
  funext g x g'
  refine propext ⟨fun h => ?_, fun h => ?_⟩ <;> cases h <;> constructor <;> assumption

/-- what a search reads before it reads documents is the same. -/
theorem step_eq {m m' : CMem} (h : MemEq m m') {terms : List String} {f : String} {cpus : Nat} {q q' : LSearch} (he : q'.early = true) (hs : Step m terms f cpus q q') : Step m' terms f cpus q q' := by
  cases hs with
  | readLen =>
    have e : m.fieldLength.getD f 0 = m'.fieldLength.getD f 0 := by simp [GoMap.getD, h.fieldLength]
    rw [e]; exact .readLen
  | readSize st =>
    have e : m.fieldSize.getD f 0 = m'.fieldSize.getD f 0 := by simp [GoMap.getD, h.fieldSize]
    rw [e]; exact .readSize st
  | nftFound st t ts r hr => exact .nftFound st t ts r (by rw [h.numberFieldTerm]; exact hr)
  | nftUnknown st t ts hr => exact .nftUnknown st t ts (by rw [h.numberFieldTerm]; exact hr)
  | readTerm st r t ts => rw [← h.nftCells]; exact .readTerm st r t ts
  | begin1 st => exact .begin1 st
  | p1 st s s' hx => exact .p1 st s s' (by rw [act_eq h]; exact hx)
  | begin2 => cases he
  | p2 => cases he
  | finish => cases he

end LSearch

section
variable {root : Path} {D : String → Prop} {s : BDisk} {a : CDisk}

/-- a step of GetFields. -/
theorem rexec_sim (h : BRel root D s a) (hok : a.up = true → a.ix.proc = .up) (hu : a.up = true) (hD : Ids D) {f : String} {loc : RLoc} (hid : ∀ id todo out, loc = .load id todo out → D id) {s' : BDisk}
    {x : Option (RLoc ⊕ GoMap String Field)} (he : s.rexec root f loc = some (s', x)) :
    match x with
    | some y => ∃ a', a.rexec f loc = some (a', y) ∧ BRel root D s' a'
    | none => ∃ a', a.exec .crash = some a' ∧ BRel root D s' a' ∧ s'.d.up = false ∧ ∃ id todo out, loc = .load id todo out ∧ a.load id = none := by
  have base : ∀ {m m' : CMem} (c : LRU (Ref String)), MemEq m m' → BRel root D { s with d := { s.d with mem := m, cache := c } } { a with mem := m', cache := c } := by
    intro m m' c hm
    have := h.core hm c s.d.clients s.d.begun s.d.returned s.d.answers
    rw [← h.clients, ← h.begun, ← h.returned, ← h.answers] at this
    simpa only [h.clients, h.begun, h.returned, h.answers] using this
  cases loc with
  | get todo out =>
    cases todo with
    | nil => cases he; exact ⟨_, rfl, h⟩
    | cons id todo =>
      simp only [BDisk.rexec, CDisk.rexec] at he
      cases hg : (s.d.cache.get id).2 with
      | some r =>
        rw [show s.d.cache.get id = ((s.d.cache.get id).1, some r) from Prod.ext rfl hg] at he
        cases he
        refine ⟨_, ?_, base _ h.mem⟩
        simp only [CDisk.rexec]
        rw [h.cache, show s.d.cache.get id = ((s.d.cache.get id).1, some r) from Prod.ext rfl hg]
      | none =>
        rw [show s.d.cache.get id = ((s.d.cache.get id).1, none) from Prod.ext rfl hg] at he
        cases he
        refine ⟨_, ?_, base _ h.mem⟩
        simp only [CDisk.rexec]
        rw [h.cache, show s.d.cache.get id = ((s.d.cache.get id).1, none) from Prod.ext rfl hg]
  | field id r todo out =>
    cases he
    refine ⟨_, ?_, h⟩
    simp only [CDisk.rexec, h.mem.docCells]
  | put id r todo out =>
    simp only [BDisk.rexec, CDisk.rexec, Option.map_eq_some_iff] at he
    obtain ⟨y, ⟨c, hc, rfl⟩, e⟩ := he
    cases e
    refine ⟨_, ?_, base c h.mem⟩
    simp only [CDisk.rexec]
    rw [h.cache, hc]; rfl
  | load id todo out =>
    have hid : D id := hid id todo out rfl
    have hr := (h.files.slot (.doc id) hid).cur
    have e0 : join (BDisk.docDir root) id = (Slot.doc id).dir root ++ [(Slot.doc id).name] := by
      unfold BDisk.docDir
      rw [join_plain (hD.plain id hid), join_plain (by decide), join_plain (by decide)]
      simp [Slot.dir, Slot.name]
    have kill : ∃ a', a.exec .crash = some a' ∧ BRel root D s.kill a' ∧ s.kill.d.up = false :=
      ⟨_, crash_exec (by rw [hok hu]; exact fun e => by cases e), kill_rel h.files h.earlier h.begun h.ihist h.uuids, rfl⟩
    simp only [BDisk.rexec] at he
    unfold BDisk.loadDoc FS.readFile at he
    rw [e0] at he
    have hA : slots a (.doc id) = a.fl.file id := rfl
    rw [hA] at hr
    match hcur : (a.fl.file id).cur, hnode : s.fs.get? ((Slot.doc id).dir root ++ [(Slot.doc id).name]), hr with
    | none, none, _ =>
      rw [hnode] at he
      cases he
      exact ⟨_, by simp [CDisk.rexec, CDisk.load, hcur], h⟩
    | some .torn, some (.file bs), hr =>
      have hr : Gzip.decompressData bs = none := hr
      rw [hnode] at he
      simp only [BDisk.decodeFields, hr, Option.bind_none, Option.map_none] at he
      cases he
      obtain ⟨a', k1, k2, k3⟩ := kill
      exact ⟨a', k1, k2, k3, id, todo, out, rfl, by simp [CDisk.load, hcur]⟩
    | some (.full b), some (.file bs), hr =>
      obtain ⟨raw, r1, r2⟩ := hr
      have r2 : FBB.deserializeFieldMap raw = deserializeFieldMap b := r2
      rw [hnode] at he
      simp only [BDisk.decodeFields, r1, Option.bind_some, r2] at he
      cases hb : deserializeFieldMap b with
      | none =>
        rw [hb] at he
        cases he
        obtain ⟨a', k1, k2, k3⟩ := kill
        exact ⟨a', k1, k2, k3, id, todo, out, rfl, by simp [CDisk.load, hcur, hb]⟩
      | some fd =>
        rw [hb] at he
        cases he
        refine ⟨{ a with mem := { a.mem with docCells := Ref.upd a.mem.docCells ⟨id, a.mem.next⟩ fd, next := a.mem.next + 1 } }, ?_, ?_⟩
        · simp [CDisk.rexec, CDisk.load, hcur, hb, h.mem.next]
        · have := base (m := { s.d.mem with docCells := Ref.upd s.d.mem.docCells ⟨id, s.d.mem.next⟩ fd, next := s.d.mem.next + 1 })
            (m' := { a.mem with docCells := Ref.upd a.mem.docCells ⟨id, a.mem.next⟩ fd, next := a.mem.next + 1 }) s.d.cache
            ⟨h.mem.fieldDocument, by simp only; rw [h.mem.docCells, h.mem.next], h.mem.fieldSize, h.mem.fieldLength, h.mem.index, h.mem.idxCells, h.mem.setCells, h.mem.numberFieldTerm, h.mem.nftCells, by simp only; rw [h.mem.next]⟩
          rw [← h.cache] at this
          simpa only [h.cache] using this

end

namespace CDisk

/-- GetFields changes only the cache and the maps that it has loaded. -/
theorem rexec_frame {s s' : CDisk} {name : String} {loc : RLoc} {x : RLoc ⊕ GoMap String Field} (h : s.rexec name loc = some (s', x)) : ∃ m c, s' = { s with mem := m, cache := c } := by
  cases loc with
  | get todo out =>
    cases todo with
    | nil => cases h; exact ⟨_, _, rfl⟩
    | cons id todo =>
      simp only [rexec] at h
      split at h <;> (cases h; exact ⟨_, _, rfl⟩)
  | field id r todo out => cases h; exact ⟨_, _, rfl⟩
  | load id todo out =>
    simp only [rexec] at h
    split at h
    · cases h
    · cases h; exact ⟨_, _, rfl⟩
    · cases h; exact ⟨_, _, rfl⟩
  | put id r todo out =>
    simp only [rexec, Option.map_eq_some_iff] at h
    obtain ⟨c, -, e⟩ := h
    cases e; exact ⟨_, _, rfl⟩

theorem move_frame {terms : List String} {f : String} {cpus : Nat} {d d' : CDisk} {x x' : DSearch} (h : DLive.Move terms f cpus ⟨d, x⟩ ⟨d', x'⟩) : ∃ m c, d' = { d with mem := m, cache := c } := by
  cases h with
  | fetch _ _ st fan i ids loc loc' hg hx => exact rexec_frame hx
  | fetched _ _ st fan i ids loc out rem hg hx hp => exact rexec_frame hx
  | _ => exact ⟨_, _, rfl⟩

theorem mem_writes {p : List DOp} {op : StoreOp} (h : op ∈ writes p) : DOp.write op ∈ p := by
  induction p with
  | nil => cases h
  | cons o p ih =>
    cases o with
    | write op' =>
      rcases List.mem_cons.1 h with rfl | h
      · exact List.mem_cons_self
      · exact List.mem_cons_of_mem _ (ih h)
    | getFields ids name => exact List.mem_cons_of_mem _ (ih h)

end CDisk

namespace BServer
open CDisk
variable {F : Type} [GoFloat F]

/-- the two servers agree. -/
structure SRel (root : Path) (D : String → Prop) (b : BServer F) (a : Server F) : Prop where
  disk : BRel root D b.disk a.disk
  reqs : a.reqs = b.reqs

/-- every process that is started has clients whose document ids satisfy `D`, and fields and ids that can be file names. -/
def Tame (D : String → Prop) (allow : Act → Prop) : Prop := ∀ n progs, allow (.openRest n progs) → ∀ p ∈ progs, ∀ o ∈ p, OpNames D o ∧ ∀ op, o = .write op → D op.doc

/-- what is known of every reachable state of the server with objects. -/
structure SInv (D : String → Prop) (a : Server F) : Prop where
  sound : Server.Sound a
  inv : AInv D a.disk
  given : Given (fun op => D op.doc) a.disk

theorem SInv.init (D : String → Prop) : SInv D ({} : Server F) := ⟨Server.sound_init, AInv.init D, (fun _ h => by cases h), (fun _ h => by cases h)⟩

theorem SInv.gv {D : String → Prop} {a : Server F} (h : SInv D a) : GoValues a.disk.hist := fun op hop => (h.inv.names.ops op hop).2.2

theorem SInv.step {D : String → Prop} {allow : Act → Prop} (ht : Tame D allow) {cpus : Nat} {a a' : Server F} (h : SInv D a) (hs : Server.Step allow cpus a a') : SInv D a' := by
  have hs' := Server.sound_step h.sound hs
  have hg : Given (fun op => D op.doc) a'.disk := by
    refine Server.given_server h.given (cpus := cpus) ?_
    have w : ∀ act, allow act → ∀ n progs, act = .openRest n progs → ∀ op ∈ progs.flatMap writes, D op.doc := by
      rintro act ha n progs rfl op hop
      obtain ⟨p, hp, ho⟩ := List.mem_flatMap.1 hop
      exact (ht n progs ha p hp _ (mem_writes ho)).2 op rfl
    cases hs with
    | store act d ha hx => exact .store a act d (w act ha) hx
    | arrive query hu => exact .arrive a query hu
    | req i r r' d hi hm => exact .req a i r r' d hi hm
  refine ⟨hs', ?_, hg⟩
  cases hs with
  | store act d ha hx => exact h.inv.step hx fun n progs e p hp o ho => (ht n progs (e ▸ ha) p hp o ho).1
  | arrive query hu => exact h.inv
  | req i r r' d hi hm =>
    cases hm with
    | inner _ _ j q x x' htj hmv =>
      obtain ⟨m, c, rfl⟩ := move_frame hmv
      have gv : GoValues a.disk.hist := h.gv
      obtain ⟨-, A, hp, -⟩ := hs'.held
      have dk := hp.docs gv
      exact ⟨hs'.ok, ⟨h.inv.flush.fm, h.inv.flush.fn, h.inv.flush.wn, h.inv.flush.sm, h.inv.flush.sn⟩,
        ⟨dk.cell, h.inv.docs.fin, h.inv.docs.file, h.inv.docs.out, h.inv.docs.ans⟩,
        ⟨h.inv.names.ops, h.inv.names.todo, h.inv.names.rd, h.inv.names.mx, h.inv.names.nf, h.inv.names.fl, h.inv.names.chan, h.inv.names.ibuf, h.inv.names.wr⟩⟩
    | _ => exact h.inv

theorem SInv.reach {D : String → Prop} {allow : Act → Prop} (ht : Tame D allow) {cpus : Nat} {a a' : Server F} (h : SInv D a) (hs : Reaches (Server.Step allow cpus) a a') : SInv D a' :=
  hs.invariant h fun _ _ ih => ih.step ht

/-- the documents that a search asks for have ids that satisfy `D`. -/
theorem SInv.asks {D : String → Prop} {a : Server F} (h : SInv D a) {r : DReq F} (hr : r ∈ a.reqs) {q : Query F} {st : LStats} {fan : LFan DBatchG (String × Field)} (hx : (q, .running (.phase2 st fan)) ∈ r.threads)
    {i : Nat} {ids : List String} {loc : RLoc} (hg : fan.gs[i]? = some (.reading ids loc)) : ∀ id todo out, loc = .load id todo out → D id := by
  rintro id todo out rfl
  have hm := List.mem_of_getElem? hg
  have h1 := ((h.sound.look h.gv r hr q _ hx).1 : DLive.Hits _ _ _ (.phase2 st fan)).1 _ hm
  obtain ⟨-, A, hp, -⟩ := h.sound.held
  have hc : RLocOk ids (.load id todo out) := hp.ok.cur { cur := some (.read ids q.fieldName (.load id todo out)) }
    (List.mem_append_right _ (Server.mem_readers.2 ⟨r, hr, q, _, hx, List.mem_map.2 ⟨_, hm, rfl⟩⟩)) _ rfl
  obtain ⟨t, -, op, hop, h2, -⟩ := h1 id hc.1
  have := h.given.1 op hop
  exact h2 ▸ this

/-- a step of a search. -/
theorem move_sim {root : Path} {D : String → Prop} (hD : Ids D) {cpus : Nat} {b : BServer F} {a : Server F} (h : SRel root D b a) (hi : SInv D a) {r : DReq F} (hr : r ∈ a.reqs) {q : Query F} {x : DSearch}
    (ht : (q, .running x) ∈ r.threads) {d : BDisk} {x' : Option DSearch} (hm : BMove root q.terms q.fieldName cpus b.disk x d x') :
    match x' with
    | some y => ∃ d', DLive.Move q.terms q.fieldName cpus ⟨a.disk, x⟩ ⟨d', y⟩ ∧ BRel root D d d'
    | none => ∃ d', a.disk.exec .crash = some d' ∧ BRel root D d d' ∧ d.d.up = false ∧ ∃ id, a.disk.load id = none := by
  have hu := hi.sound.held.up hr
  cases hm with
  | first q0 q1 hs he => exact ⟨_, .first _ _ _ (LSearch.step_eq h.disk.mem he hs) he, h.disk⟩
  | begin2 st fan hf => exact ⟨_, .begin2 _ st fan hf, h.disk⟩
  | p2 st fan fan' hs => exact ⟨_, .p2 _ st fan fan' hs, h.disk⟩
  | fetch _ st fan i ids loc loc' hg hs =>
    obtain ⟨d', h1, h2⟩ := rexec_sim h.disk hi.sound.ok.proc hu hD (hi.asks hr ht hg) hs
    exact ⟨d', .fetch _ _ st fan i ids loc loc' hg h1, h2⟩
  | fetched _ st fan i ids loc out rem hg hs hp =>
    obtain ⟨d', h1, h2⟩ := rexec_sim h.disk hi.sound.ok.proc hu hD (hi.asks hr ht hg) hs
    exact ⟨d', .fetched _ _ st fan i ids loc out rem hg h1 hp, h2⟩
  | panics _ st fan i ids loc hg hs =>
    obtain ⟨d', h1, h2, h3, id, -, -, -, h4⟩ := rexec_sim h.disk hi.sound.ok.proc hu hD (hi.asks hr ht hg) hs
    exact ⟨d', h1, h2, h3, id, h4⟩
  | finish st fan hf => exact ⟨_, .finish _ st fan hf, h.disk⟩

/-- a step of a request. -/
theorem reqMove_sim {root : Path} {D : String → Prop} (hD : Ids D) {cpus : Nat} {b : BServer F} {a : Server F} (h : SRel root D b a) (hi : SInv D a) {r : DReq F} (hr : r ∈ a.reqs) {d : BDisk} {r' : Option (DReq F)}
    (hm : BReq.Move root cpus b.disk r d r') :
    match r' with
    | some y => ∃ d', DReq.Move cpus a.disk r d' y ∧ BRel root D d d'
    | none => ∃ d', a.disk.exec .crash = some d' ∧ BRel root D d d' ∧ d.d.up = false ∧ ∃ id, a.disk.load id = none := by
  cases hm with
  | inner _ _ i q x x' ht hx =>
    obtain ⟨d', h1, h2⟩ := move_sim hD h hi hr (List.mem_of_getElem? ht) hx
    exact ⟨d', .inner _ _ _ i q x x' ht h1, h2⟩
  | panics _ _ i q x ht hx => exact move_sim hD h hi hr (List.mem_of_getElem? ht) hx
  | send _ i q st docs order ht ho hc => exact ⟨_, .send _ _ i q st docs order ht ho hc, h.disk⟩
  | close _ h1 hc => exact ⟨_, .close _ _ h1 hc, h.disk⟩
  | recv _ l q hq => exact ⟨_, .recv _ _ l q hq, h.disk⟩
  | return_ _ order l h1 h2 ho hl => exact ⟨_, .return_ _ _ order l h1 h2 ho hl, h.disk⟩

/-! ### runs of the store -/

theorem down_stays {s s' : CDisk} {a : Act} (hs : s.exec a = some s') (hn : noOpen a = true) (hu : s'.up = true) : s.up = true := by
  cases hd : s.up with
  | true => rfl
  | false =>
    exfalso
    have hs := exec_step hs
    cases hs with
    | openRest hp hu hm hn' => cases hn
    | ixDown hb hu' he hp => cases hu
    | crash he => cases hu
    | _ => rw [show s.up = true from hu] at hd; cases hd

/-- a run of the store that leaves the process up, with the searches waiting. -/
theorem run_up {allow : Act → Prop} (ha : ∀ a, noOpen a = true → allow a) {cpus : Nat} {a : Server F} {bs : List Act} (hb : ∀ b ∈ bs, noOpen b = true) {d : CDisk} (hr : a.disk.run bs = some d) (hu : d.up = true) :
    a.disk.up = true ∧ Reaches (Server.UpStep allow cpus) a { a with disk := d } := by
  induction bs generalizing a with
  | nil => cases hr; exact ⟨hu, .refl _⟩
  | cons b bs ih =>
    obtain ⟨t, h1, h2⟩ := CDisk.run_cons.1 hr
    obtain ⟨h3, h4⟩ := ih (a := { a with disk := t }) (fun b hb' => hb b (List.mem_cons_of_mem _ hb')) h2
    have hno := hb b List.mem_cons_self
    refine ⟨down_stays h1 hno h3, (Reaches.single ⟨?_, h3⟩).trans h4⟩
    have := Server.Step.store (cpus := cpus) a b t (ha b hno) h1
    rw [if_pos (show t.up = true from h3)] at this
    exact this

/-- a run of the store, with the searches waiting until the process ends. -/
theorem run_any {allow : Act → Prop} {cpus : Nat} {a : Server F} {bs : List Act} (hb : ∀ b ∈ bs, allow b) {d : CDisk} (hr : a.disk.run bs = some d) :
    ∃ reqs, Reaches (Server.Step allow cpus) a { disk := d, reqs := reqs } ∧ (a.reqs = [] → reqs = []) := by
  induction bs generalizing a with
  | nil => cases hr; exact ⟨a.reqs, .refl _, fun h => h⟩
  | cons b bs ih =>
    obtain ⟨t, h1, h2⟩ := CDisk.run_cons.1 hr
    obtain ⟨reqs, h3, h4⟩ := ih (a := { disk := t, reqs := if t.up then a.reqs else [] }) (fun b hb' => hb b (List.mem_cons_of_mem _ hb')) h2
    refine ⟨reqs, (Reaches.single (Server.Step.store (cpus := cpus) a b t (hb b List.mem_cons_self) h1)).trans h3, fun h0 => h4 ?_⟩
    simp [h0]

theorem noOpen_of {a : Act} (h : isOpen a = false) : noOpen a = true := by cases a <;> first | rfl | cases h

theorem act_of {bs : List Act} {act b : Act} (h : bs.filter isOpen = [act].filter isOpen) (hb : b ∈ bs) : noOpen b = true ∨ b = act := by
  cases ho : isOpen b with
  | false => exact .inl (noOpen_of ho)
  | true =>
    have : b ∈ [act].filter isOpen := by rw [← h]; exact List.mem_filter.2 ⟨hb, ho⟩
    exact .inr (List.mem_singleton.1 (List.mem_filter.1 this).1)

section
variable {root : Path} {D : String → Prop} {z : Bytes → Bytes} {allow : Act → Prop} {cpus : Nat}

/-- every step of the server with bytes is some steps of the server with objects. -/
theorem step_sim (hD : Ids D) (hz : ∀ d, Spec.Gz.Written d (z d)) (ht : Tame D allow) (ha : ∀ a, noOpen a = true → allow a) {b b' : BServer F} {a : Server F} (h : SRel root D b a) (hi : SInv D a)
    (hs : Step z root allow cpus b b') : ∃ a', Reaches (Server.Step allow cpus) a a' ∧ SRel root D b' a' ∧ (b.disk.d.up = true → b'.disk.d.up = true → Reaches (Server.UpStep allow cpus) a a') := by
  cases hs with
  | store act d hact hx =>
    obtain ⟨bs, d', h1, h2, h3⟩ := sim_step h.disk hi.inv hD hz hx
    have hall : ∀ x ∈ bs, allow x := fun x hx => (act_of h3 hx).elim (ha x) fun e => e ▸ hact
    have opn : isOpen act = true → b.disk.d.up = false := by
      intro ho
      cases act with
      | openRest n progs =>
        simp only [BDisk.exec] at hx
        split at hx
        · rename_i hc; simpa using hc.2
        · cases hx
      | _ => cases ho
    have hup : d'.up = d.d.up := h2.up
    cases hd : d.d.up with
    | false =>
      obtain ⟨reqs, r1, -⟩ := run_any (cpus := cpus) hall h1
      refine ⟨_, r1, ⟨h2, ?_⟩, fun _ h => (by simp at h)⟩
      have := (hi.reach ht r1).sound.held.1 (by show d'.up = false; rw [hup, hd])
      simpa using this
    | true =>
      cases ho : isOpen act with
      | true =>
        have hb0 := opn ho
        obtain ⟨reqs, r1, r2⟩ := run_any (cpus := cpus) hall h1
        have e0 : a.reqs = [] := hi.sound.held.1 (by rw [h.disk.up]; exact hb0)
        refine ⟨_, r1, ⟨h2, ?_⟩, fun h => (by rw [hb0] at h; cases h)⟩
        show reqs = _
        rw [r2 e0, if_pos rfl, ← h.reqs, e0]
      | false =>
        have hno : ∀ x ∈ bs, noOpen x = true := fun x hx => (act_of h3 hx).elim id fun e => e ▸ noOpen_of ho
        obtain ⟨-, r1⟩ := run_up (cpus := cpus) ha hno h1 (by rw [hup, hd])
        refine ⟨_, r1.invariant (P := fun x => Reaches (Server.Step allow cpus) a x) (.refl _) fun x y ih hs => ih.tail hs.1, ⟨h2, ?_⟩, fun _ _ => r1⟩
        simpa using h.reqs
  | arrive query hu =>
    have hu' : a.disk.up = true := by rw [h.disk.up]; exact hu
    have st : Server.Step allow cpus a { a with reqs := a.reqs ++ [DReq.start query] } := .arrive a query hu'
    exact ⟨_, Reaches.single st, ⟨h.disk, by simp only; rw [h.reqs]⟩, fun _ _ => Reaches.single ⟨st, hu'⟩⟩
  | req i r r' d hr hm =>
    have hr' : a.reqs[i]? = some r := by rw [h.reqs]; exact hr
    obtain ⟨d', h1, h2⟩ := reqMove_sim hD h hi (List.mem_of_getElem? hr') hm
    have st : Server.Step allow cpus a { disk := d', reqs := a.reqs.set i r' } := .req a i r r' d' hr' h1
    exact ⟨_, Reaches.single st, ⟨h2, by simp only; rw [h.reqs]⟩, fun _ hu => Reaches.single ⟨st, by show d'.up = true; rw [h2.up]; exact hu⟩⟩
  | panics i r d hr hm =>
    have hr' : a.reqs[i]? = some r := by rw [h.reqs]; exact hr
    obtain ⟨d', h1, h2, h3, -⟩ := reqMove_sim hD h hi (List.mem_of_getElem? hr') hm
    have st := Server.Step.store (cpus := cpus) a .crash d' (ha .crash rfl) h1
    have e : d'.up = false := h2.up.trans h3
    refine ⟨_, Reaches.single st, ⟨h2, ?_⟩, fun _ hu => ?_⟩
    · simp [e]
    · rw [show d.d.up = true from hu] at h3; cases h3

theorem reach_sim (hD : Ids D) (hz : ∀ d, Spec.Gz.Written d (z d)) (ht : Tame D allow) (ha : ∀ a, noOpen a = true → allow a) {b b' : BServer F} {a : Server F} (h : SRel root D b a) (hi : SInv D a)
    (hs : Reaches (Step z root allow cpus) b b') : ∃ a', Reaches (Server.Step allow cpus) a a' ∧ SRel root D b' a' := by
  refine hs.invariant (P := fun x => ∃ a', Reaches (Server.Step allow cpus) a a' ∧ SRel root D x a') ⟨a, .refl _, h⟩ ?_
  rintro x y ⟨a1, h1, h2⟩ hxy
  obtain ⟨a2, h3, h4, -⟩ := step_sim hD hz ht ha h2 (hi.reach ht h1) hxy
  exact ⟨a2, h1.trans h3, h4⟩

theorem reach_up (hD : Ids D) (hz : ∀ d, Spec.Gz.Written d (z d)) (ht : Tame D allow) (ha : ∀ a, noOpen a = true → allow a) {b b' : BServer F} {a : Server F} (h : SRel root D b a) (hi : SInv D a)
    (hu : b.disk.d.up = true) (hs : Reaches (UpStep z root allow cpus) b b') : b'.disk.d.up = true ∧ ∃ a', Reaches (Server.UpStep allow cpus) a a' ∧ SRel root D b' a' := by
  refine hs.invariant (P := fun x => x.disk.d.up = true ∧ ∃ a', Reaches (Server.UpStep allow cpus) a a' ∧ SRel root D x a') ⟨hu, a, .refl _, h⟩ ?_
  rintro x y ⟨hx, a1, h1, h2⟩ ⟨hxy, hy⟩
  have h1' : Reaches (Server.Step allow cpus) a a1 := h1.invariant (P := fun x => Reaches (Server.Step allow cpus) a x) (.refl _) fun x y ih hs => ih.tail hs.1
  obtain ⟨a2, h3, h4, h5⟩ := step_sim hD hz ht ha h2 (hi.reach ht h1') hxy
  exact ⟨hy, a2, h1.trans (h5 hx hy), h4⟩

end
end BServer
end Goir
