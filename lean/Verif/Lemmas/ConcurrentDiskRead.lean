import Verif.Lemmas.ConcurrentDiskDocs
/-!
# Several clients on one Disk store: a document that nobody saves

Its file does not change, and whoever reads it gets what the file holds.
-/
namespace Goir
open GoMap Spec

namespace CDisk
open Flusher Conc

/-- what has been found for `d` so far is right. -/
def Right (d : String) (m : GoMap String Field) (name : String) (out : GoMap String Field) : Prop := out.get? d = m.get? name

/-- inside GetFields, with `m` the fields of document `d`. -/
def ROPos (d : String) (m : GoMap String Field) (cells : Ref String → GoMap String Field) (ids : List String) (name : String) : RLoc → Prop
  | .get todo out => (out.get? d = none ∨ Right d m name out) ∧ (d ∈ ids → d ∉ todo → Right d m name out)
  | .field id r todo out => (out.get? d = none ∨ Right d m name out) ∧ (id = d → cells r = m) ∧ (d ∈ ids → id ≠ d → d ∉ todo → Right d m name out)
  | .load id todo out => (out.get? d = none ∨ Right d m name out) ∧ (d ∈ ids → id ≠ d → d ∉ todo → Right d m name out)
  | .put id r todo out => (out.get? d = none ∨ Right d m name out) ∧ (id = d → cells r = m ∧ Right d m name out) ∧ (d ∈ ids → id ≠ d → d ∉ todo → Right d m name out)

/-- nobody saves document `d`, whose fields are `m`. -/
structure ReadOnly (d : String) (m : GoMap String Field) (s : CDisk) : Prop where
  buf : s.fl.buf.get? d = none
  file : (s.load d).map (fun o => o.getD []) = some m
  val : ∀ r, s.cache.val d = some r → s.mem.docCells r = m
  todo : ∀ cl ∈ s.clients, ∀ op ∈ writes cl.todo, onDoc d op = false
  cur : ∀ cl ∈ s.clients, ∀ op loc, cl.cur = some (.write op loc) → onDoc d op = false
  pos : ∀ cl ∈ s.clients, ∀ ids name loc, cl.cur = some (.read ids name loc) → ROPos d m s.mem.docCells ids name loc
  ans : ∀ x ∈ s.answers, d ∈ x.1 → Right d m x.2.1 x.2.2

theorem ROPos.frame {d : String} {m : GoMap String Field} {cells cells' : Ref String → GoMap String Field} {ids : List String} {name : String} {loc : RLoc} (hl : RLocOk ids loc)
    (hc : ∀ r, r.tag = d → cells r = m → cells' r = m) (h : ROPos d m cells ids name loc) : ROPos d m cells' ids name loc := by
  cases loc with
  | field id r todo out => exact ⟨h.1, fun e => hc r (by rw [hl.1, e]) (h.2.1 e), h.2.2⟩
  | put id r todo out => exact ⟨h.1, fun e => ⟨hc r (by rw [hl.1, e]) (h.2.1 e).1, (h.2.1 e).2⟩, h.2.2⟩
  | _ => exact h

theorem right_found {d : String} {m : GoMap String Field} {name : String} {out : GoMap String Field} (h : out.get? d = none ∨ Right d m name out) : Right d m name (found out d (m.get? name)) := by
  unfold Right at *
  cases e : GoMap.get? m name with
  | none => rw [e] at h; rcases h with h | h <;> exact h
  | some f => exact GoMap.get?_set_self _ _ _

theorem val_put {l c : LRU (Ref String)} (hk : l.Ok) {k : String} {r : Ref String} (he : l.put k r = some c) {j : String} {x : Ref String} (h : c.val j = some x) :
    (j = k ∧ x = r) ∨ l.val j = some x := by
  obtain ⟨-, -, h2, ho⟩ := LRU.put_spec hk he
  by_cases e : j = k
  · subst e; rw [h2] at h; cases h; exact .inl ⟨rfl, rfl⟩
  · rcases ho with ho | ⟨-, -, y, w, -, -, hy, ho⟩
    · rw [ho j e] at h; exact .inr h
    · by_cases e' : j = y
      · subst e'; rw [hy] at h; cases h
      · rw [ho j e e'] at h; exact .inr h

theorem load_eq {s s' : CDisk} {d : String} (h : s'.fl.cur d = s.fl.cur d) : s'.load d = s.load d := by
  unfold load; rw [show (s'.fl.file d).cur = _ from h]; rfl

/-- an opening, if it is one, starts clients that do not save `d`. -/
def NoSave (d : String) : Act → Prop
  | .openRest _ progs => ∀ op ∈ progs.flatMap writes, onDoc d op = false
  | _ => True

theorem readOnly_step {d : String} {m : GoMap String Field} {s s' : CDisk} {a : Act} (hk : Ok s) (hdoc : DocsOk s) (hs : Step s a s') (hno : NoSave d a) (h : ReadOnly d m s) : ReadOnly d m s' := by
  have okc : ∀ {i : Nat} {cl : DClient} {x : DCur}, s.clients[i]? = some cl → cl.cur = some x → CurOk s.begun x := fun hi hc => hk.cur _ (List.mem_of_getElem? hi) _ hc
  have move : ∀ {i : Nat} {cl cl' : DClient}, s.clients[i]? = some cl → s'.clients = s.clients.set i cl' → (∀ op ∈ writes cl'.todo, op ∈ writes cl.todo) →
      (∀ op loc, cl'.cur = some (.write op loc) → onDoc d op = false) → (∀ ids name loc, cl'.cur = some (.read ids name loc) → ROPos d m s'.mem.docCells ids name loc) →
      s'.fl.buf.get? d = none → s'.fl.cur d = s.fl.cur d → (∀ r, s'.cache.val d = some r → s'.mem.docCells r = m) →
      (∀ r, r.tag = d → s.mem.docCells r = m → s'.mem.docCells r = m) → (∀ x ∈ s'.answers, d ∈ x.1 → Right d m x.2.1 x.2.2) → ReadOnly d m s' := by
    intro i cl cl' hi e h1 h2 h3 h4 h5 h6 h7 h8
    refine ⟨h4, by rw [load_eq h5]; exact h.file, h6, fun x hx op hop => ?_, fun x hx op loc hop => ?_, fun x hx ids name loc hr => ?_, h8⟩
    · rw [e] at hx
      rcases List.mem_or_eq_of_mem_set hx with hx | rfl
      · exact h.todo x hx op hop
      · exact h.todo cl (List.mem_of_getElem? hi) op (h1 op hop)
    · rw [e] at hx
      rcases List.mem_or_eq_of_mem_set hx with hx | rfl
      · exact h.cur x hx op loc hop
      · exact h2 op loc hop
    · rw [e] at hx
      rcases List.mem_or_eq_of_mem_set hx with hx | rfl
      · exact (h.pos x hx ids name loc hr).frame (hk.cur x hx _ hr) h7
      · exact h3 ids name loc hr
  have back : s'.clients = s.clients → s'.cache = s.cache → s'.mem.docCells = s.mem.docCells → s'.answers = s.answers → s'.fl.buf.get? d = none → s'.fl.cur d = s.fl.cur d → ReadOnly d m s' := by
    intro e1 e2 e3 e4 e5 e6
    refine ⟨e5, by rw [load_eq e6]; exact h.file, by rw [e2, e3]; exact h.val, by rw [e1]; exact h.todo, by rw [e1]; exact h.cur, by rw [e1, e3]; exact h.pos, by rw [e4]; exact h.ans⟩
  -- steps of a write
  have write : ∀ {i : Nat} {cl : DClient} {op : StoreOp} {loc : WLoc} {x : Option DCur}, s.clients[i]? = some cl → cl.cur = some (.write op loc) →
      s'.clients = s.clients.set i { cl with cur := x } → (x = none ∨ ∃ loc', x = some (.write op loc')) → s'.fl.buf.get? d = none → s'.fl.cur d = s.fl.cur d →
      (∀ r, s'.cache.val d = some r → s'.mem.docCells r = m) → (∀ r, r.tag = d → s.mem.docCells r = m → s'.mem.docCells r = m) → s'.answers = s.answers → ReadOnly d m s' := by
    intro i cl op loc x hi hc e hx h4 h5 h6 h7 h8
    refine move hi e (fun _ => id) ?_ ?_ h4 h5 h6 h7 (by rw [h8]; exact h.ans)
    · rintro op' loc' e'
      rcases hx with rfl | ⟨loc'', rfl⟩
      · cases e'
      · cases e'; exact h.cur cl (List.mem_of_getElem? hi) _ _ hc
    · rintro ids name loc' e'
      rcases hx with rfl | ⟨loc'', rfl⟩ <;> cases e'
  have notD : ∀ {i : Nat} {cl : DClient} {op : StoreOp} {loc : WLoc}, s.clients[i]? = some cl → cl.cur = some (.write op loc) → op.isSave = true → op.doc ≠ d := by
    intro i cl op loc hi hc hsv e
    have := h.cur cl (List.mem_of_getElem? hi) _ _ hc
    simp [onDoc, hsv, e] at this
  have getV : ∀ k j, (s.cache.get k).1.val j = s.cache.val j := fun k => (LRU.get_spec hk.lok k).2.1
  cases hs with
  | @beginWrite i k cl op rest hu hi hc ht =>
    have hop : op ∈ writes cl.todo := by rw [ht]; exact List.mem_cons_self
    refine move hi rfl (fun op' ho => by rw [ht]; exact List.mem_cons_of_mem _ ho) (fun op' loc e => ?_) (fun _ _ _ e => by cases e) h.buf rfl h.val (fun _ _ => id) h.ans
    cases e; exact h.todo cl (List.mem_of_getElem? hi) op hop
  | beginRead hu hi hc ht =>
    refine move hi rfl (fun op' ho => by rw [ht]; exact ho) (fun _ _ e => by cases e) (fun ids name loc e => ?_) h.buf rfl h.val (fun _ _ => id) h.ans
    cases e; exact ⟨.inl rfl, fun h1 h2 => absurd h1 h2⟩
  | acc hu hi hc he hn =>
    have e := doc_exec (okc hi hc).2.2 he
    exact write hi hc rfl (.inr ⟨_, rfl⟩) h.buf rfl (fun r hr => by rw [show CMem.docCells _ = _ from e]; exact h.val r hr) (fun r _ hr => by rw [show CMem.docCells _ = _ from e]; exact hr) rfl
  | accReturn hu hi hc he hn =>
    have e := doc_exec (okc hi hc).2.2 he
    exact write hi hc rfl (.inl rfl) h.buf rfl (fun r hr => by rw [show CMem.docCells _ = _ from e]; exact h.val r hr) (fun r _ hr => by rw [show CMem.docCells _ = _ from e]; exact hr) rfl
  | msgLen hu hi hc => exact write hi hc rfl (.inr ⟨_, rfl⟩) h.buf rfl h.val (fun _ _ => id) rfl
  | msgSize hu hi hc => exact write hi hc rfl (.inr ⟨_, rfl⟩) h.buf rfl h.val (fun _ _ => id) rfl
  | sendI hu hi hc he => exact write hi hc rfl (.inr ⟨_, rfl⟩) h.buf rfl h.val (fun _ _ => id) rfl
  | msgN hu hi hc => exact write hi hc rfl (.inr ⟨_, rfl⟩) h.buf rfl h.val (fun _ _ => id) rfl
  | recvM hi hc he => exact write hi hc rfl (.inr ⟨_, rfl⟩) h.buf rfl h.val (fun _ _ => id) rfl
  | recvN hi hc he => exact write hi hc rfl (.inr ⟨_, rfl⟩) h.buf rfl h.val (fun _ _ => id) rfl
  | docHit hu hi hc hr => exact write hi hc rfl (.inr ⟨_, rfl⟩) h.buf rfl (fun r hr => h.val r ((getV _ d).symm.trans hr)) (fun _ _ => id) rfl
  | @docMiss i k cl op hu hi hc hr =>
    have hne := notD hi hc (okc hi hc).2
    have keep : ∀ r : Ref String, r.tag = d → s.mem.docCells r = m → Ref.upd s.mem.docCells ⟨op.doc, s.mem.next⟩ [] r = m := fun r ht hr => (Ref.upd_tag _ _ (by rw [ht]; exact Ne.symm hne)).trans hr
    refine write hi hc rfl (.inr ⟨_, rfl⟩) h.buf rfl (fun r hr => ?_) keep rfl
    have hr := (getV _ d).symm.trans hr
    exact keep r (hk.ctag _ _ hr) (h.val r hr)
  | @docSet i k cl op r hu hi hc =>
    obtain ⟨hsv, htag⟩ := (okc hi hc).2
    have hne := notD hi hc hsv
    have keep : ∀ r' : Ref String, r'.tag = d → s.mem.docCells r' = m → Ref.upd s.mem.docCells r ((s.mem.docCells r).set op.field.name op.field) r' = m :=
      fun r' ht hr => (Ref.upd_tag _ _ (by rw [ht, htag]; exact Ne.symm hne)).trans hr
    exact write hi hc rfl (.inr ⟨_, rfl⟩) h.buf rfl (fun r' hr => keep r' (hk.ctag _ _ hr) (h.val r' hr)) keep rfl
  | @docPut i k cl op r c' hu hi hc he =>
    have hne := notD hi hc (okc hi hc).2.1
    refine write hi hc rfl (.inr ⟨_, rfl⟩) h.buf rfl (fun r' hr => ?_) (fun _ _ => id) rfl
    rcases val_put hk.lok he hr with ⟨e, -⟩ | hr
    · exact absurd e.symm hne
    · exact h.val r' hr
  | @recvD i cl op r fl hi hc he =>
    have hne := notD hi hc (okc hi hc).2.1
    obtain ⟨-, hfl⟩ := Flusher.recv_some he
    refine write hi hc rfl (.inl rfl) ?_ ?_ h.val (fun _ _ => id) rfl
    · show fl.buf.get? d = none
      rw [hfl]; exact (GoMap.get?_set_ne _ _ hne).trans h.buf
    · show fl.cur d = _
      rw [hfl]; rfl
  | @readEnd i k cl ids name out hu hi hc =>
    refine move hi rfl (fun _ => id) (fun _ _ e => by cases e) (fun _ _ _ e => by cases e) h.buf rfl h.val (fun _ _ => id) fun x hx hd => ?_
    rcases List.mem_append.1 hx with hx | hx
    · exact h.ans x hx hd
    · rw [List.mem_singleton.1 hx] at hd ⊢
      exact (h.pos cl (List.mem_of_getElem? hi) _ _ _ hc).2 hd (by simp)
  | @readHit i k cl ids name id todo out r hu hi hc hr =>
    have hp := h.pos cl (List.mem_of_getElem? hi) _ _ _ hc
    refine move hi rfl (fun _ => _root_.id) (fun _ _ e => by cases e) (fun ids' name' loc' e => ?_) h.buf rfl (fun r hr => h.val r ((getV _ d).symm.trans hr)) (fun _ _ => _root_.id) h.ans
    cases e
    refine ⟨hp.1, fun e => h.val r (e ▸ hr), fun h1 h2 h3 => hp.2 h1 fun h4 => ?_⟩
    rcases List.mem_cons.1 h4 with h4 | h4
    · exact h2 h4.symm
    · exact h3 h4
  | @readMiss i k cl ids name id todo out hu hi hc hr =>
    have hp := h.pos cl (List.mem_of_getElem? hi) _ _ _ hc
    refine move hi rfl (fun _ => _root_.id) (fun _ _ e => by cases e) (fun ids' name' loc' e => ?_) h.buf rfl (fun r hr => h.val r ((getV _ d).symm.trans hr)) (fun _ _ => _root_.id) h.ans
    cases e
    refine ⟨hp.1, fun h1 h2 h3 => hp.2 h1 fun h4 => ?_⟩
    rcases List.mem_cons.1 h4 with h4 | h4
    · exact h2 h4.symm
    · exact h3 h4
  | @readField i k cl ids name id todo out r hu hi hc =>
    have hp := h.pos cl (List.mem_of_getElem? hi) _ _ _ hc
    refine move hi rfl (fun _ => _root_.id) (fun _ _ e => by cases e) (fun ids' name' loc' e => ?_) h.buf rfl h.val (fun _ _ => _root_.id) h.ans
    cases e
    by_cases e : id = d
    · subst e
      have := right_found hp.1
      rw [← hp.2.1 rfl] at this
      have e2 : Right id (s.mem.docCells r) name (found out id (GoMap.get? (s.mem.docCells r) name)) := this
      rw [hp.2.1 rfl] at e2 ⊢
      exact ⟨.inr e2, fun _ _ => e2⟩
    · have e2 : (found out id (GoMap.get? (s.mem.docCells r) name)).get? d = out.get? d := found_ne _ _ e
      refine ⟨?_, fun h1 h2 => ?_⟩
      · unfold Right; rw [e2]; exact hp.1
      · unfold Right; rw [e2]; exact hp.2.2 h1 e h2
  | @readAbsent i k cl ids name id todo out hu hi hc hl =>
    have hp := h.pos cl (List.mem_of_getElem? hi) _ _ _ hc
    refine move hi rfl (fun _ => _root_.id) (fun _ _ e => by cases e) (fun ids' name' loc' e => ?_) h.buf rfl h.val (fun _ _ => _root_.id) h.ans
    cases e
    refine ⟨hp.1, fun h1 h2 => ?_⟩
    by_cases e : id = d
    · subst e
      have hf := h.file
      unfold load at hf
      rw [show (s.fl.file id).cur = none from hl] at hf
      simp only [Option.map_some, Option.getD_none, Option.some.injEq] at hf
      rcases hp.1 with h3 | h3
      · show out.get? id = _
        rw [h3, ← hf]; rfl
      · exact h3
    · exact hp.2 h1 e h2
  | @readLoad i k cl ids name id todo out b fd hu hi hc hl hb =>
    have hp := h.pos cl (List.mem_of_getElem? hi) _ _ _ hc
    by_cases e : id = d
    · subst e
      have hf := h.file
      unfold load at hf
      rw [show (s.fl.file id).cur = _ from hl] at hf
      simp only [hb, Option.map_some, Option.getD_some, Option.some.injEq] at hf
      subst hf
      have keep : ∀ r : Ref String, s.mem.docCells r = fd → Ref.upd s.mem.docCells ⟨id, s.mem.next⟩ fd r = fd := by
        intro r hr; simp only [Ref.upd]; split
        · rfl
        · exact hr
      refine move hi rfl (fun _ => _root_.id) (fun _ _ e => by cases e) (fun ids' name' loc' e => ?_) h.buf rfl (fun r hr => keep r (h.val r hr)) (fun r _ => keep r) h.ans
      cases e
      exact ⟨.inr (right_found hp.1), fun _ => ⟨Ref.upd_self _ _ _, right_found hp.1⟩, fun _ h2 => absurd rfl h2⟩
    · have keep : ∀ r : Ref String, r.tag = d → s.mem.docCells r = m → Ref.upd s.mem.docCells ⟨id, s.mem.next⟩ fd r = m := fun r ht hr => (Ref.upd_tag _ _ (by rw [ht]; exact Ne.symm e)).trans hr
      refine move hi rfl (fun _ => _root_.id) (fun _ _ e => by cases e) (fun ids' name' loc' e' => ?_) h.buf rfl (fun r hr => keep r (hk.ctag _ _ hr) (h.val r hr)) keep h.ans
      cases e'
      have e2 : (found out id (GoMap.get? fd name)).get? d = out.get? d := found_ne _ _ e
      refine ⟨?_, fun e' => absurd e' e, fun h1 h2 h3 => ?_⟩
      · unfold Right; rw [e2]; exact hp.1
      · unfold Right; rw [e2]; exact hp.2 h1 h2 h3
  | @readPut i k cl ids name id todo out r c' hu hi hc he =>
    have hp := h.pos cl (List.mem_of_getElem? hi) _ _ _ hc
    refine move hi rfl (fun _ => _root_.id) (fun _ _ e => by cases e) (fun ids' name' loc' e => ?_) h.buf rfl (fun r' hr => ?_) (fun _ _ => _root_.id) h.ans
    · cases e
      refine ⟨hp.1, fun h1 h2 => ?_⟩
      by_cases e : id = d
      · exact (hp.2.1 e).2
      · exact hp.2.2 h1 e h2
    · rcases val_put hk.lok he hr with ⟨e, rfl⟩ | hr
      · exact (hp.2.1 e.symm).1
      · exact h.val r' hr
  | ix => exact back rfl rfl rfl rfl h.buf rfl
  | ixDown =>
    exact ⟨rfl, h.file, fun r hr => (by rw [show (s.stop _).cache.val d = none from LRU.val_new 0 d] at hr; cases hr), fun _ hx => (by cases hx), fun _ hx => (by cases hx), fun _ hx => (by cases hx), fun _ hx => (by cases hx)⟩
  | crash =>
    exact ⟨rfl, h.file, fun r hr => (by rw [show (s.stop _).cache.val d = none from LRU.val_new 0 d] at hr; cases hr), fun _ hx => (by cases hx), fun _ hx => (by cases hx), fun _ hx => (by cases hx), fun _ hx => (by cases hx)⟩
  | open_ => exact back rfl rfl rfl rfl h.buf rfl
  | @openRest n progs size length nft hp hu hm hn =>
    refine ⟨h.buf, h.file, fun r hr => ?_, fun cl hcl op hop => ?_, fun cl hcl op loc e => ?_, fun cl hcl ids name loc e => ?_, h.ans⟩
    · rw [show LRU.val _ _ = none from LRU.val_new _ d] at hr; cases hr
    · obtain ⟨p, hp, rfl⟩ := List.mem_map.1 hcl
      exact hno op (List.mem_flatMap.2 ⟨p, hp, hop⟩)
    · obtain ⟨p, hp, rfl⟩ := List.mem_map.1 hcl; cases e
    · obtain ⟨p, hp, rfl⟩ := List.mem_map.1 hcl; cases e
  | tickM => exact back rfl rfl rfl rfl h.buf rfl
  | stepM => exact back rfl rfl rfl rfl h.buf rfl
  | tickN => exact back rfl rfl rfl rfl h.buf rfl
  | stepN => exact back rfl rfl rfl rfl h.buf rfl
  | @tickD order fl hu he =>
    have e := (Flusher.tick_some he).2.2
    refine back rfl rfl rfl rfl ?_ ?_
    · rw [show CDisk.fl _ = fl from rfl, e]; exact h.buf
    · rw [show CDisk.fl _ = fl from rfl, e]; rfl
  | @stepD fl he =>
    obtain ⟨h1, h2⟩ := step_spec_rel hdoc.fin (fun k r b hr hb => by
      obtain ⟨b', e1, e2, e3⟩ := (hdoc.cell r).ser
      rw [e1] at hb; cases hb
      exact ⟨_, e2, hk.btag k r hr ▸ e3⟩) he
    have ne : ∀ {k v}, s.fl.buf.get? k = some v → d ≠ k := fun hv e => by rw [← e, h.buf] at hv; cases hv
    cases h2 with
    | same hb hcur => exact back rfl rfl rfl rfl ((congrArg (fun b => GoMap.get? b d) hb).trans h.buf) (hcur d)
    | away k v hv hb hkn hcur hp => exact back rfl rfl rfl rfl ((congrArg (fun b => GoMap.get? b d) hb).trans h.buf) (hcur d (ne hv))
    | install k v b hv hs hb hki hcur => exact back rfl rfl rfl rfl ((congrArg (fun b => GoMap.get? b d) hb).trans h.buf) (hcur d (ne hv))
    | forget k v b hv hs hki hb hcur =>
      refine back rfl rfl rfl rfl ?_ (hcur d)
      rw [show CDisk.fl _ = fl from rfl, hb, GoMap.get?_del, if_neg (Ne.symm (ne hv))]; exact h.buf

end CDisk
end Goir
