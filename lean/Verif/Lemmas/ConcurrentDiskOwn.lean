import Verif.Props.ConcurrentDisk
/-!
# Several clients on one Disk store: the fields that one client writes

If only one client saves a field in the current process, what the others do does not disturb it.
-/
namespace Goir
open GoMap Spec

namespace CDisk
open Flusher CtState Conc

/-- the metrics writer has the same about field `f`. -/
def SameM (f : String) (mx mx' : Flusher (Int × Int)) : Prop := mx'.buf.get? f = mx.buf.get? f ∧ mx'.cur f = mx.cur f

theorem SameM.rfl {f : String} {mx : Flusher (Int × Int)} : SameM f mx mx := ⟨_root_.rfl, _root_.rfl⟩

/-- what is proved about a part of the store that belongs to field `f`: `full L` when the calls `L` on the field have been made, `at_ L op` inside the call `op` that follows. -/
structure DPart (f : String) (full : List StoreOp → CMem → Flusher (Int × Int) → Prop) (at_ : List StoreOp → StoreOp → CMem → Flusher (Int × Int) → WLoc → Prop) : Prop where
  full_same : ∀ {L m m' mx mx'}, m.Tags → SameField f m m' → SameM f mx mx' → full L m mx → full L m' mx'
  at_same : ∀ {L op m m' mx mx' loc}, op.field.name = f → m.Tags → WLocOk op loc → SameField f m m' → SameM f mx mx' → at_ L op m mx loc → at_ L op m' mx' loc
  full_step : ∀ {L m mx mx'}, Change serM mx mx' → full L m mx → full L m mx'
  at_step : ∀ {L op m mx mx' loc}, Change serM mx mx' → at_ L op m mx loc → at_ L op m mx' loc
  start : ∀ {L op m mx}, op.field.name = f → full L m mx → at_ L op m mx (start op)
  acc : ∀ {L op m m' mx k l o loc'}, op.field.name = f → op.field.tf.WF → m.Tags → WLocOk op (.acc l) → at_ L op m mx (.acc l) → CMem.exec m op k l = some (m', o) → cont l o = some loc' → at_ L op m' mx loc'
  accReturn : ∀ {L op m m' mx k l o}, op.field.name = f → op.field.tf.WF → m.Tags → WLocOk op (.acc l) → at_ L op m mx (.acc l) → CMem.exec m op k l = some (m', o) → cont l o = none → full (L ++ [op]) m' mx
  msgLen : ∀ {L op m mx}, op.field.name = f → at_ L op m mx .msgLen → at_ L op m mx (.msgSize (m.fieldLength.getD f 0))
  msgSize : ∀ {L op m mx len}, op.field.name = f → at_ L op m mx (.msgSize len) → at_ L op m mx (.sendM (m.fieldSize.getD f 0) len)
  recvM : ∀ {L op m mx mx' size len}, op.field.name = f → (mx.recv f fun _ => (size, len)) = some mx' → at_ L op m mx (.sendM size len) → at_ L op m mx' (.acc .idxLook)
  sendI : ∀ {L op m mx r key ts}, op.field.name = f → at_ L op m mx (.sendI r key ts) → at_ L op m mx (.acc (.post r ts))
  msgN : ∀ {L op m mx r key n ts}, op.field.name = f → at_ L op m mx (.msgN r key ts) → at_ L op m mx (.sendN r key n ts)
  recvN : ∀ {L op m mx r key n ts}, op.field.name = f → at_ L op m mx (.sendN r key n ts) → at_ L op m mx (.acc (.term r ts))
  docGet : ∀ {L op m mx r}, op.field.name = f → at_ L op m mx .docGet → at_ L op m mx (.docSet r)
  docSet : ∀ {L op m mx r}, op.field.name = f → at_ L op m mx (.docSet r) → at_ L op m mx (.docPut r)
  docPut : ∀ {L op m mx r}, op.field.name = f → at_ L op m mx (.docPut r) → at_ L op m mx (.sendD r)
  recvD : ∀ {L op m mx r}, op.field.name = f → op.isSave = true → at_ L op m mx (.sendD r) → full (L ++ [op]) m mx

/-- in the programs of the clients, only client `c` saves or updates field `f`. -/
def OneWriter (c : Nat) (f : String) (progs : List (List DOp)) : Prop := ∀ j p, progs[j]? = some p → j ≠ c → ∀ op ∈ writes p, op.field.name ≠ f

/-- it is not an opening. -/
def noOpen : Act → Bool
  | .openRest .. => false
  | _ => true

/-- the state of affairs while only client `c` writes field `f`. -/
structure Own (c : Nat) (f : String) (full : List StoreOp → CMem → Flusher (Int × Int) → Prop) (at_ : List StoreOp → StoreOp → CMem → Flusher (Int × Int) → WLoc → Prop) (s : CDisk) : Prop where
  wf : ∀ cl ∈ s.clients, (∀ op ∈ writes cl.todo, op.field.tf.WF) ∧ ∀ op loc, cl.cur = some (.write op loc) → op.field.tf.WF
  others : ∀ j cl, s.clients[j]? = some cl → j ≠ c → (∀ op ∈ writes cl.todo, op.field.name ≠ f) ∧ ∀ op loc, cl.cur = some (.write op loc) → op.field.name ≠ f
  inside : ∀ cl op loc, s.clients[c]? = some cl → cl.cur = some (.write op loc) → op.field.name = f →
    s.begun.filter (onField f) = s.returned.filter (onField f) ++ [op] ∧ at_ (s.returned.filter (onField f)) op s.mem s.mx loc
  outside : ∀ cl, s.clients[c]? = some cl → (∀ op loc, cl.cur = some (.write op loc) → op.field.name ≠ f) →
    s.returned.filter (onField f) = s.begun.filter (onField f) ∧ full (s.begun.filter (onField f)) s.mem s.mx

theorem filter_snoc_ne {f : String} {l : List StoreOp} {op : StoreOp} (h : op.field.name ≠ f) : (l ++ [op]).filter (onField f) = l.filter (onField f) := by
  simp [List.filter_append, onField, h]

theorem filter_snoc_eq {f : String} {l : List StoreOp} {op : StoreOp} (h : op.field.name = f) : (l ++ [op]).filter (onField f) = l.filter (onField f) ++ [op] := by
  simp [List.filter_append, onField, h]

theorem own_step {c : Nat} {f : String} {full : List StoreOp → CMem → Flusher (Int × Int) → Prop} {at_ : List StoreOp → StoreOp → CMem → Flusher (Int × Int) → WLoc → Prop}
    (hp : DPart f full at_) {s s' : CDisk} {a : Act} (hk : Ok s) (hf : FlushOk s) (hs : Step s a s') (hno : noOpen a = true) (hup : s'.up = true) (h : Own c f full at_ s) : Own c f full at_ s' := by
  have okc : ∀ {i : Nat} {cl : DClient} {op : StoreOp} {loc : WLoc}, s.clients[i]? = some cl → cl.cur = some (.write op loc) → WLocOk op loc :=
    fun hi hc => (hk.cur _ (List.mem_of_getElem? hi) _ hc).2
  -- what one client's step has to do
  have move : ∀ {i : Nat} {cl cl' : DClient}, s.clients[i]? = some cl → s'.clients = s.clients.set i cl' →
      ((∀ op ∈ writes cl'.todo, op.field.tf.WF) ∧ ∀ op loc, cl'.cur = some (.write op loc) → op.field.tf.WF) →
      (i ≠ c → (∀ op ∈ writes cl'.todo, op.field.name ≠ f) ∧ (∀ op loc, cl'.cur = some (.write op loc) → op.field.name ≠ f) ∧ SameField f s.mem s'.mem ∧ SameM f s.mx s'.mx ∧
        s'.begun.filter (onField f) = s.begun.filter (onField f) ∧ s'.returned.filter (onField f) = s.returned.filter (onField f)) →
      (i = c → (∀ op loc, cl'.cur = some (.write op loc) → op.field.name = f → s'.begun.filter (onField f) = s'.returned.filter (onField f) ++ [op] ∧ at_ (s'.returned.filter (onField f)) op s'.mem s'.mx loc) ∧
        ((∀ op loc, cl'.cur = some (.write op loc) → op.field.name ≠ f) → s'.returned.filter (onField f) = s'.begun.filter (onField f) ∧ full (s'.begun.filter (onField f)) s'.mem s'.mx)) →
      Own c f full at_ s' := by
    intro i cl cl' hi e h1 h2 h3
    have hlt : i < s.clients.length := (List.getElem?_eq_some_iff.1 hi).1
    have at' : ∀ {j : Nat} {x : DClient}, s'.clients[j]? = some x → (j = i ∧ x = cl') ∨ (j ≠ i ∧ s.clients[j]? = some x) := by
      intro j x hj
      rw [e] at hj
      by_cases hij : i = j
      · subst hij
        simp only [List.getElem?_set, if_true, hlt] at hj
        cases hj; exact .inl ⟨rfl, rfl⟩
      · rw [List.getElem?_set_ne hij] at hj
        exact .inr ⟨Ne.symm hij, hj⟩
    refine ⟨?_, ?_, ?_, ?_⟩
    · intro x hx
      rw [e] at hx
      rcases List.mem_or_eq_of_mem_set hx with hx | rfl
      · exact h.wf x hx
      · exact h1
    · intro j x hj hjc
      rcases at' hj with ⟨rfl, rfl⟩ | ⟨-, hj⟩
      · exact ⟨(h2 hjc).1, (h2 hjc).2.1⟩
      · exact h.others j x hj hjc
    · intro x op loc hj hc ho
      rcases at' hj with ⟨rfl, rfl⟩ | ⟨hji, hj⟩
      · exact (h3 rfl).1 op loc hc ho
      · obtain ⟨-, -, g1, g2, g3, g4⟩ := h2 (Ne.symm hji)
        obtain ⟨k1, k2⟩ := h.inside x op loc hj hc ho
        rw [g3, g4]
        exact ⟨k1, hp.at_same ho hk.tags (okc hj hc) g1 g2 k2⟩
    · intro x hj hc
      rcases at' hj with ⟨rfl, rfl⟩ | ⟨hji, hj⟩
      · exact (h3 rfl).2 hc
      · obtain ⟨-, -, g1, g2, g3, g4⟩ := h2 (Ne.symm hji)
        obtain ⟨k1, k2⟩ := h.outside x hj hc
        rw [g3, g4]
        exact ⟨k1, hp.full_same hk.tags g1 g2 k2⟩
  -- a step inside a write
  have within : ∀ {i : Nat} {cl : DClient} {op : StoreOp} {loc loc' : WLoc}, s.clients[i]? = some cl → cl.cur = some (.write op loc) →
      s'.clients = s.clients.set i { cl with cur := some (.write op loc') } → s'.begun = s.begun → s'.returned = s.returned →
      (op.field.name ≠ f → SameField f s.mem s'.mem ∧ SameM f s.mx s'.mx) →
      (op.field.name = f → ∀ L, at_ L op s.mem s.mx loc → at_ L op s'.mem s'.mx loc') → Own c f full at_ s' := by
    intro i cl op loc loc' hi hc e1 e2 e3 h1 h2
    have hw := h.wf _ (List.mem_of_getElem? hi)
    refine move hi e1 ⟨hw.1, fun o l e => ?_⟩ (fun hic => ?_) (fun hic => ?_)
    · cases e; exact hw.2 _ _ hc
    · have ho := h.others i cl hi hic
      have hne := ho.2 op loc hc
      exact ⟨ho.1, fun o l e => (by cases e; exact hne), (h1 hne).1, (h1 hne).2, by rw [e2], by rw [e3]⟩
    · subst hic
      rw [e2, e3]
      refine ⟨fun o l e ho => ?_, fun hne => ?_⟩
      · cases e
        obtain ⟨k1, k2⟩ := h.inside cl op loc hi hc ho
        exact ⟨k1, h2 ho _ k2⟩
      · have hne := hne op loc' rfl
        obtain ⟨k1, k2⟩ := h.outside cl hi (fun o l e => by rw [hc] at e; cases e; exact hne)
        exact ⟨k1, hp.full_same hk.tags (h1 hne).1 (h1 hne).2 k2⟩
  -- a write returns
  have ret : ∀ {i : Nat} {cl : DClient} {op : StoreOp} {loc : WLoc}, s.clients[i]? = some cl → cl.cur = some (.write op loc) →
      s'.clients = s.clients.set i { cl with cur := none } → s'.begun = s.begun → s'.returned = s.returned ++ [op] →
      (op.field.name ≠ f → SameField f s.mem s'.mem ∧ SameM f s.mx s'.mx) →
      (op.field.name = f → ∀ L, at_ L op s.mem s.mx loc → full (L ++ [op]) s'.mem s'.mx) → Own c f full at_ s' := by
    intro i cl op loc hi hc e1 e2 e3 h1 h2
    have hw := h.wf _ (List.mem_of_getElem? hi)
    refine move hi e1 ⟨hw.1, fun o l e => by cases e⟩ (fun hic => ?_) (fun hic => ?_)
    · have ho := h.others i cl hi hic
      have hne := ho.2 op loc hc
      exact ⟨ho.1, fun o l e => (by cases e), (h1 hne).1, (h1 hne).2, by rw [e2], by rw [e3, filter_snoc_ne hne]⟩
    · subst hic
      rw [e2, e3]
      refine ⟨fun o l e ho => (by cases e), fun _ => ?_⟩
      by_cases hne : op.field.name = f
      · obtain ⟨k1, k2⟩ := h.inside cl op loc hi hc hne
        rw [filter_snoc_eq hne, k1]
        exact ⟨rfl, h2 hne _ k2⟩
      · obtain ⟨k1, k2⟩ := h.outside cl hi (fun o l e => by rw [hc] at e; cases e; exact hne)
        rw [filter_snoc_ne hne]
        exact ⟨k1, hp.full_same hk.tags (h1 hne).1 (h1 hne).2 k2⟩
  -- a reader moves
  have reader : ∀ {i : Nat} {cl cl' : DClient}, s.clients[i]? = some cl → (∀ op loc, cl.cur ≠ some (.write op loc)) → (∀ op loc, cl'.cur ≠ some (.write op loc)) →
      (∀ op ∈ writes cl'.todo, op ∈ writes cl.todo) → s'.clients = s.clients.set i cl' → s'.begun = s.begun → s'.returned = s.returned → SameField f s.mem s'.mem → SameM f s.mx s'.mx → Own c f full at_ s' := by
    intro i cl cl' hi hc hc' hw e1 e2 e3 h1 h2
    refine move hi e1 ⟨fun o ho => (h.wf _ (List.mem_of_getElem? hi)).1 o (hw o ho), fun o l e => absurd e (hc' o l)⟩ (fun hic => ?_) (fun hic => ?_)
    · exact ⟨fun o ho => (h.others i cl hi hic).1 o (hw o ho), fun o l e => absurd e (hc' o l), h1, h2, by rw [e2], by rw [e3]⟩
    · subst hic
      rw [e2, e3]
      obtain ⟨k1, k2⟩ := h.outside cl hi (fun o l e => absurd e (hc o l))
      exact ⟨fun o l e => absurd e (hc' o l), fun _ => ⟨k1, hp.full_same hk.tags h1 h2 k2⟩⟩
  -- the background
  have back : s'.clients = s.clients → s'.begun = s.begun → s'.returned = s.returned → s'.mem = s.mem → (SameM f s.mx s'.mx ∨ Change serM s.mx s'.mx) → Own c f full at_ s' := by
    intro e1 e2 e3 e4 e5
    refine ⟨by rw [e1]; exact h.wf, by rw [e1]; exact h.others, ?_, ?_⟩
    · rw [e1, e2, e3, e4]
      intro cl op loc hi hc ho
      obtain ⟨k1, k2⟩ := h.inside cl op loc hi hc ho
      rcases e5 with e5 | e5
      · exact ⟨k1, hp.at_same ho hk.tags (okc hi hc) SameField.same e5 k2⟩
      · exact ⟨k1, hp.at_step e5 k2⟩
    · rw [e1, e2, e3, e4]
      intro cl hi hc
      obtain ⟨k1, k2⟩ := h.outside cl hi hc
      rcases e5 with e5 | e5
      · exact ⟨k1, hp.full_same hk.tags SameField.same e5 k2⟩
      · exact ⟨k1, hp.full_step e5 k2⟩
  cases hs with
  | @beginWrite i k cl op rest hu hi hc ht =>
    have hw := h.wf _ (List.mem_of_getElem? hi)
    rw [ht] at hw
    refine move hi rfl ⟨fun o ho => hw.1 o (List.mem_cons_of_mem _ ho), fun o l e => ?_⟩ (fun hic => ?_) (fun hic => ?_)
    · cases e; exact hw.1 _ List.mem_cons_self
    · have ho := (h.others i cl hi hic).1
      rw [ht] at ho
      have hne := ho _ List.mem_cons_self
      exact ⟨fun o ho' => ho o (List.mem_cons_of_mem _ ho'), fun o l e => (by cases e; exact hne), SameField.same, SameM.rfl, filter_snoc_ne hne, rfl⟩
    · subst hic
      obtain ⟨k1, k2⟩ := h.outside cl hi (fun o l e => by rw [hc] at e; cases e)
      refine ⟨fun o l e ho => ?_, fun hne => ?_⟩
      · cases e
        refine ⟨by rw [filter_snoc_eq ho, k1], hp.start ho ?_⟩
        show full (s.returned.filter (onField f)) s.mem s.mx
        rw [k1]; exact k2
      · have hne := hne op _ rfl
        rw [filter_snoc_ne hne]
        exact ⟨k1, k2⟩
  | beginRead hu hi hc ht => exact reader hi (fun _ _ e => by rw [hc] at e; cases e) (fun _ _ e => by cases e) (fun o ho => by rw [ht]; exact ho) rfl rfl rfl SameField.same SameM.rfl
  | acc hu hi hc he hn =>
    have ho := okc hi hc
    exact within hi hc rfl rfl rfl (fun hne => ⟨sameField_exec ho.1 hne he, SameM.rfl⟩) (fun e L ha => hp.acc e ((h.wf _ (List.mem_of_getElem? hi)).2 _ _ hc) hk.tags ho ha he hn)
  | accReturn hu hi hc he hn =>
    have ho := okc hi hc
    exact ret hi hc rfl rfl rfl (fun hne => ⟨sameField_exec ho.1 hne he, SameM.rfl⟩) (fun e L ha => hp.accReturn e ((h.wf _ (List.mem_of_getElem? hi)).2 _ _ hc) hk.tags ho ha he hn)
  | msgLen hu hi hc => exact within hi hc rfl rfl rfl (fun hne => ⟨SameField.same, SameM.rfl⟩) (fun e L ha => by rw [e]; exact hp.msgLen e ha)
  | msgSize hu hi hc => exact within hi hc rfl rfl rfl (fun hne => ⟨SameField.same, SameM.rfl⟩) (fun e L ha => by rw [e]; exact hp.msgSize e ha)
  | sendI hu hi hc he => exact within hi hc rfl rfl rfl (fun hne => ⟨SameField.same, SameM.rfl⟩) (fun e L ha => hp.sendI e ha)
  | msgN hu hi hc => exact within hi hc rfl rfl rfl (fun hne => ⟨SameField.same, SameM.rfl⟩) (fun e L ha => hp.msgN e ha)
  | docHit hu hi hc hr => exact within hi hc rfl rfl rfl (fun hne => ⟨SameField.same, SameM.rfl⟩) (fun e L ha => hp.docGet e ha)
  | docMiss hu hi hc hr =>
    exact within hi hc rfl rfl rfl (fun hne => ⟨{ SameField.same with }, SameM.rfl⟩)
      (fun e L ha => hp.docGet e (hp.at_same e hk.tags (okc hi hc) { SameField.same with } SameM.rfl ha))
  | docSet hu hi hc =>
    exact within hi hc rfl rfl rfl (fun hne => ⟨{ SameField.same with }, SameM.rfl⟩)
      (fun e L ha => hp.docSet e (hp.at_same e hk.tags (okc hi hc) { SameField.same with } SameM.rfl ha))
  | docPut hu hi hc he => exact within hi hc rfl rfl rfl (fun hne => ⟨SameField.same, SameM.rfl⟩) (fun e L ha => hp.docPut e ha)
  | readEnd hu hi hc => exact reader hi (fun _ _ e => by rw [hc] at e; cases e) (fun _ _ e => by cases e) (fun o ho => by exact ho) rfl rfl rfl SameField.same SameM.rfl
  | readHit hu hi hc hr => exact reader hi (fun _ _ e => by rw [hc] at e; cases e) (fun _ _ e => by cases e) (fun o ho => by exact ho) rfl rfl rfl SameField.same SameM.rfl
  | readMiss hu hi hc hr => exact reader hi (fun _ _ e => by rw [hc] at e; cases e) (fun _ _ e => by cases e) (fun o ho => by exact ho) rfl rfl rfl SameField.same SameM.rfl
  | readField hu hi hc => exact reader hi (fun _ _ e => by rw [hc] at e; cases e) (fun _ _ e => by cases e) (fun o ho => by exact ho) rfl rfl rfl SameField.same SameM.rfl
  | readAbsent hu hi hc hl => exact reader hi (fun _ _ e => by rw [hc] at e; cases e) (fun _ _ e => by cases e) (fun o ho => by exact ho) rfl rfl rfl SameField.same SameM.rfl
  | readLoad hu hi hc hl hb => exact reader hi (fun _ _ e => by rw [hc] at e; cases e) (fun _ _ e => by cases e) (fun o ho => by exact ho) rfl rfl rfl { SameField.same with } SameM.rfl
  | readPut hu hi hc he => exact reader hi (fun _ _ e => by rw [hc] at e; cases e) (fun _ _ e => by cases e) (fun o ho => by exact ho) rfl rfl rfl SameField.same SameM.rfl
  | @recvM i cl op size len mx hi hc he =>
    refine within hi hc rfl rfl rfl (fun hne => ⟨SameField.same, ?_⟩) (fun e L ha => hp.recvM e (e ▸ he) ha)
    obtain ⟨g1, g2⟩ := recv_get (f := f) he
    exact ⟨by rw [g1, if_neg hne], g2⟩
  | recvN hi hc he => exact within hi hc rfl rfl rfl (fun hne => ⟨SameField.same, SameM.rfl⟩) (fun e L ha => hp.recvN e ha)
  | recvD hi hc he => exact ret hi hc rfl rfl rfl (fun hne => ⟨SameField.same, SameM.rfl⟩) (fun e L ha => hp.recvD e (okc hi hc).1 ha)
  | ix hb hu he hpx => exact back rfl rfl rfl rfl (.inl SameM.rfl)
  | ixDown hb hu he hpx => simp [stop] at hup
  | crash he => simp [stop] at hup
  | open_ he => exact back rfl rfl rfl rfl (.inl SameM.rfl)
  | openRest => cases hno
  | tickM hu he =>
    obtain ⟨-, -, rfl⟩ := tick_some he
    exact back rfl rfl rfl rfl (.inl ⟨rfl, rfl⟩)
  | stepM he => exact back rfl rfl rfl rfl (.inr (step_spec hf.fm he).2)
  | tickN hu he => exact back rfl rfl rfl rfl (.inl SameM.rfl)
  | stepN he => exact back rfl rfl rfl rfl (.inl SameM.rfl)
  | tickD hu he => exact back rfl rfl rfl rfl (.inl SameM.rfl)
  | stepD he => exact back rfl rfl rfl rfl (.inl SameM.rfl)

/-- only an opening brings a store up. -/
theorem up_before {s s' : CDisk} {a : Act} (hs : Step s a s') (hno : noOpen a = true) (hup : s'.up = true) : s.up = true := by
  cases hs with
  | ixDown => simp [stop] at hup
  | crash => simp [stop] at hup
  | openRest => cases hno
  | _ => exact hup

theorem own_run {c : Nat} {f : String} {full : List StoreOp → CMem → Flusher (Int × Int) → Prop} {at_ : List StoreOp → StoreOp → CMem → Flusher (Int × Int) → WLoc → Prop}
    (hp : DPart f full at_) {as bs : List Act} {n : Int} {progs : List (List DOp)} {s₁ s : CDisk} (h1 : run {} (as ++ [.openRest n progs]) = some s₁) (h0 : full [] s₁.mem s₁.mx)
    (gv : GoValues (progs.flatMap writes)) (ho : OneWriter c f progs) (hb : ∀ b ∈ bs, noOpen b = true) (h : s₁.run bs = some s) (hu : s.up = true) : Own c f full at_ s := by
  induction bs using List.reverseRecOn generalizing s with
  | nil =>
    cases h
    obtain ⟨s₀, h2, h3⟩ := run_snoc.1 h1
    cases exec_step h3 with
    | @openRest _ _ size length nft hpu hu' hm hn =>
      have hoff := (ok_run h2).off hu'
      have e : ∀ {j : Nat} {cl : DClient}, (progs.map fun p => ({ todo := p } : DClient))[j]? = some cl → ∃ p, progs[j]? = some p ∧ cl = { todo := p } := by
        intro j cl hj
        rw [List.getElem?_map] at hj
        obtain ⟨p, h1, h2⟩ := Option.map_eq_some_iff.1 hj
        exact ⟨p, h1, h2.symm⟩
      refine ⟨?_, ?_, ?_, ?_⟩
      · intro cl hcl
        obtain ⟨p, hp, rfl⟩ := List.mem_map.1 hcl
        exact ⟨fun op ho => gv op (List.mem_flatMap.2 ⟨p, hp, ho⟩), fun _ _ e => by cases e⟩
      · intro j cl hj hjc
        obtain ⟨p, hp, rfl⟩ := e hj
        exact ⟨ho j p hp hjc, fun _ _ e => by cases e⟩
      · intro cl op loc hj hc
        obtain ⟨p, hp, rfl⟩ := e hj
        cases hc
      · intro cl hj hc
        have e1 : CDisk.begun { s₀ with up := true, mem := CMem.loaded s₀.ix.mem size length nft, cache := LRU.new n, clients := progs.map fun p => { todo := p } } = [] := hoff.begun
        have e2 : CDisk.returned { s₀ with up := true, mem := CMem.loaded s₀.ix.mem size length nft, cache := LRU.new n, clients := progs.map fun p => { todo := p } } = [] := hoff.returned
        rw [e1, e2]
        exact ⟨rfl, h0⟩
  | append_singleton bs b ih =>
    obtain ⟨t, h2, h3⟩ := run_snoc.1 h
    have hrun : run {} (as ++ [.openRest n progs] ++ bs) = some t := by rw [run_append, h1]; exact h2
    have hs := exec_step h3
    have hn := hb b (by simp)
    have hut := up_before hs hn hu
    exact own_step hp (ok_run hrun) (flushOk_run hrun) hs hn hu (ih (fun x hx => hb x (by simp [hx])) h2 hut)

end CDisk
end Goir
