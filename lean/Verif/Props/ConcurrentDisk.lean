import Verif.Lemmas.ConcurrentDiskCounters
import Mathlib.Data.List.Induction
/-!
# C89, C90: several clients on one Disk store — nothing is invented, and the index on disk is complete

All the theorems are about every interleaving of any number of clients, of the background goroutines, of crashes and of restarts.
-/
namespace Goir
open GoMap Spec

namespace CDisk

theorem sum_ite (h : List StoreOp) (p : StoreOp → Prop) [DecidablePred p] (w : StoreOp → Int) :
    (h.map fun op => if p op then w op else 0).sum = ((h.filter fun op => decide (p op)).map w).sum := Conc.sum_ite h p w

/-- a run that shows something: two clients, one process. -/
def openEmpty (n : Int) (progs : List (List DOp)) : List Act := [.open_, .ix .merge, .openRest n progs]

theorem Counted.size_le {s : CDisk} (h : Counted s) (hk : Ok s) (gv : GoValues s.hist) (f : String) : s.getFieldSize f ≤ saveCount s.hist f := by
  have := h.le hk (sizeGauge_good f) (fun _ _ => trivial) gv _ (.inr (.inl rfl))
  simp only [sizeGauge] at this
  rw [CDisk.sum_ite _ (fun op => op.isSave = true ∧ op.field.name = f) (fun _ => 1)] at this
  simpa [saveCount, getFieldSize, Memory.getFieldSize, CMem.view] using this

theorem Counted.length_le {s : CDisk} (h : Counted s) (hk : Ok s) (gv : GoValues s.hist) (hl : ∀ op ∈ s.hist, 0 ≤ op.field.length) (f : String) : s.getFieldLength f ≤ saveLengthSum s.hist f := by
  have := h.le hk (lenGauge_good f) hl gv _ (.inr (.inl rfl))
  simp only [lenGauge] at this
  rw [CDisk.sum_ite _ (fun op => op.isSave = true ∧ op.field.name = f) (fun op => op.field.length)] at this
  exact this

/-- a reference to the frequencies of the field holds no more than the number of saves. -/
theorem Counted.nft_le {s : CDisk} (h : Counted s) (hk : Ok s) (gv : GoValues s.hist) {f : String} {r : Ref String} (hr : r.tag = f) (t : String) :
    (s.mem.nftCells r).getD t 0 ≤ termCount s.hist f t := by
  have := h.le hk (dfGauge_good f t) (fun _ _ => trivial) gv _ (.inr (.inl ⟨r, hr, rfl⟩))
  simp only [dfGauge] at this
  rw [CDisk.sum_ite _ (fun op => op.isSave = true ∧ op.field.name = f ∧ t ∈ op.field.tf.keys) (fun _ => 1)] at this
  simpa [termCount] using this

end CDisk

open CDisk

/-- **C89.** Whatever any number of clients do on a Disk store, in any order, over any number of processes and crashes: GetDocuments lists a document only if some
SaveOrUpdate or UpdateIndex that has begun posts it, GetFields returns for a document and a field name only what a SaveOrUpdate of them was given (up to the 32 bits of
the file format), and each counter is at most what the SaveOrUpdate calls that have begun add up to. -/
theorem c89_never_invents {as : List Act} {s : CDisk} (h : run {} as = some s) (gv : GoValues s.hist) :
    (∀ f t d, GoSet.contains (s.getDocuments f t).1 d = true → Posted s.hist f t d) ∧
    (∀ ids name out, (ids, name, out) ∈ s.answers → ∀ d f, out.get? d = some f → d ∈ ids ∧ ∃ g, StoreOp.save d g ∈ s.hist ∧ g.name = name ∧ (f = g ∨ f = cutField g)) ∧
    (∀ f, s.getFieldSize f ≤ saveCount s.hist f) ∧
    ((∀ op ∈ s.hist, 0 ≤ op.field.length) → ∀ f, s.getFieldLength f ≤ saveLengthSum s.hist f) ∧
    (∀ f t, (s.getNumberFieldTerm f [t]).getD t 0 ≤ termCount s.hist f t) := by
  have hok := ok_run h
  refine ⟨?_, ?_, ?_, ?_, ?_⟩
  · intro f t d hd
    obtain ⟨sr, h1, h2⟩ := (CMem.view_contains _ _ _ _).1 hd
    obtain ⟨r, h3, h4⟩ := Option.bind_eq_some_iff.1 h1
    have := (postOk_run h).set sr d h2
    rwa [hok.tags.set _ _ _ h4, hok.tags.idx _ _ h3] at this
  · intro ids name out ha d f hd
    exact (docsOk_run h gv).ans _ ha d f hd
  · intro f
    exact (counted_run h).size_le hok gv f
  · intro hl f
    exact (counted_run h).length_le hok gv hl f
  · intro f t
    have hv : (s.getNumberFieldTerm f [t]).getD t 0 = s.mem.df f t := by
      unfold getNumberFieldTerm
      rw [GoMap.getD, CMem.view_nft]; simp
    rw [hv]
    unfold CMem.df
    cases hn : s.mem.numberFieldTerm.get? f with
    | none => simp [GoMap.getD]
    | some r => exact (counted_run h).nft_le hok gv (hok.tags.nft _ _ hn) t


namespace CDisk

/-- the saves and index updates among the calls of the programs. -/
def writes : List DOp → List StoreOp
  | [] => []
  | .write op :: p => op :: writes p
  | .getFields .. :: p => writes p

/-- the saves and index updates in the programs of the clients, process by process. -/
def written : List Act → List StoreOp
  | [] => []
  | .openRest _ progs :: as => progs.flatMap writes ++ written as
  | _ :: as => written as

theorem written_append (as bs : List Act) : written (as ++ bs) = written as ++ written bs := by
  induction as with
  | nil => rfl
  | cons a as ih => cases a <;> simp [written, ih]

/-- the calls that have begun are calls of the programs. -/
theorem hist_written {as : List Act} {s : CDisk} (h : run {} as = some s) :
    (∀ op ∈ s.hist, op ∈ written as) ∧ ∀ cl ∈ s.clients, ∀ op ∈ writes cl.todo, op ∈ written as := by
  induction as using List.reverseRecOn generalizing s with
  | nil => cases h; exact ⟨fun _ h => (by cases h), fun _ h => (by cases h)⟩
  | append_singleton as a ih =>
    obtain ⟨t, h1, h2⟩ := run_snoc.1 h
    obtain ⟨i1, i2⟩ := ih h1
    have up : ∀ {op}, op ∈ written as → op ∈ written (as ++ [a]) := fun ho => by rw [written_append]; exact List.mem_append_left _ ho
    have hs := exec_step h2
    have hh : s.hist = t.hist → ∀ op ∈ s.hist, op ∈ written (as ++ [a]) := fun e op ho => up (i1 op (e ▸ ho))
    have cl : ∀ {i : Nat} {c c' : DClient}, t.clients[i]? = some c → s.clients = t.clients.set i c' → (∀ op ∈ writes c'.todo, op ∈ writes c.todo) →
        ∀ cl ∈ s.clients, ∀ op ∈ writes cl.todo, op ∈ written (as ++ [a]) := by
      intro i c c' hi e hw cl hcl op ho
      rw [e] at hcl
      rcases List.mem_or_eq_of_mem_set hcl with hcl | rfl
      · exact up (i2 cl hcl op ho)
      · exact up (i2 _ (List.mem_of_getElem? hi) op (hw op ho))
    have st : ∀ ix, s = t.stop ix → (∀ op ∈ s.hist, op ∈ written (as ++ [a])) ∧ ∀ cl ∈ s.clients, ∀ op ∈ writes cl.todo, op ∈ written (as ++ [a]) := by
      rintro ix rfl
      exact ⟨fun op ho => up (i1 op (by simpa [hist, stop] using ho)), fun _ h => (by cases h)⟩
    have old : s.hist = t.hist → s.clients = t.clients → (∀ op ∈ s.hist, op ∈ written (as ++ [a])) ∧ ∀ cl ∈ s.clients, ∀ op ∈ writes cl.todo, op ∈ written (as ++ [a]) :=
      fun e1 e2 => ⟨hh e1, fun c hc op ho => up (i2 c (e2 ▸ hc) op ho)⟩
    cases hs with
    | beginWrite hu hi hc ht =>
      refine ⟨fun op ho => ?_, cl hi rfl fun op ho => by rw [ht]; exact List.mem_cons_of_mem _ ho⟩
      simp only [hist, ← List.append_assoc] at ho
      rcases List.mem_append.1 ho with ho | ho
      · exact up (i1 op ho)
      · rw [List.mem_singleton.1 ho]
        exact up (i2 _ (List.mem_of_getElem? hi) _ (by rw [ht]; exact List.mem_cons_self))
    | beginRead hu hi hc ht => exact ⟨hh rfl, cl hi rfl fun op ho => by rw [ht]; exact ho⟩
    | acc hu hi hc he hn => exact ⟨hh rfl, cl hi rfl fun op ho => ho⟩
    | accReturn hu hi hc he hn => exact ⟨hh rfl, cl hi rfl fun op ho => ho⟩
    | msgLen hu hi hc => exact ⟨hh rfl, cl hi rfl fun op ho => ho⟩
    | msgSize hu hi hc => exact ⟨hh rfl, cl hi rfl fun op ho => ho⟩
    | sendI hu hi hc he => exact ⟨hh rfl, cl hi rfl fun op ho => ho⟩
    | msgN hu hi hc => exact ⟨hh rfl, cl hi rfl fun op ho => ho⟩
    | docHit hu hi hc hr => exact ⟨hh rfl, cl hi rfl fun op ho => ho⟩
    | docMiss hu hi hc hr => exact ⟨hh rfl, cl hi rfl fun op ho => ho⟩
    | docSet hu hi hc => exact ⟨hh rfl, cl hi rfl fun op ho => ho⟩
    | docPut hu hi hc he => exact ⟨hh rfl, cl hi rfl fun op ho => ho⟩
    | readEnd hu hi hc => exact ⟨hh rfl, cl hi rfl fun op ho => ho⟩
    | readHit hu hi hc hr => exact ⟨hh rfl, cl hi rfl fun op ho => ho⟩
    | readMiss hu hi hc hr => exact ⟨hh rfl, cl hi rfl fun op ho => ho⟩
    | readField hu hi hc => exact ⟨hh rfl, cl hi rfl fun op ho => ho⟩
    | readAbsent hu hi hc hl => exact ⟨hh rfl, cl hi rfl fun op ho => ho⟩
    | readLoad hu hi hc hl hb => exact ⟨hh rfl, cl hi rfl fun op ho => ho⟩
    | readPut hu hi hc he => exact ⟨hh rfl, cl hi rfl fun op ho => ho⟩
    | recvM hi hc he => exact ⟨hh rfl, cl hi rfl fun op ho => ho⟩
    | recvN hi hc he => exact ⟨hh rfl, cl hi rfl fun op ho => ho⟩
    | recvD hi hc he => exact ⟨hh rfl, cl hi rfl fun op ho => ho⟩
    | ixDown hb hu he hp => exact st _ rfl
    | crash he => exact st _ rfl
    | @openRest n progs size length nft hp hu hm hn =>
      refine ⟨hh rfl, fun c hc op ho => ?_⟩
      obtain ⟨p, hp, rfl⟩ := List.mem_map.1 hc
      rw [written_append]
      refine List.mem_append_right _ ?_
      simp only [written, List.append_nil]
      exact List.mem_flatMap.2 ⟨p, hp, ho⟩
    | _ => exact old rfl rfl

/-! ### the index writer gets every posting -/

/-- the index part of a run is a run of the index part. -/
theorem ix_reach {as : List Act} {s : CDisk} (h : run {} as = some s) : ∃ bs, IxState.run {} bs = some s.ix := by
  refine run_inv (P := fun s => ∃ bs, IxState.run {} bs = some s.ix) ?_ ⟨[], rfl⟩ h
  rintro s a s' ⟨bs, hb⟩ hs
  have ext : ∀ {b : IxState.Act} {ix : IxState}, s.ix.exec b = some ix → ∃ bs, IxState.run {} bs = some ix := fun {b ix} he =>
    ⟨bs ++ [b], (IxState.run_append _ _ _ _).2 ⟨_, hb, by simp [IxState.run, he]⟩⟩
  cases hs with
  | sendI hu hi hc he => exact ext he
  | ix hb hu he hp => exact ext he
  | ixDown hb hu he hp => exact ext he
  | crash he => exact ext he
  | open_ he => exact ext he
  | _ => exact ⟨bs, hb⟩

/-- the terms a call has still to send to the index writer. -/
def toPost (op : StoreOp) : WLoc → List String
  | .acc (.post _ ts) => ts
  | .acc (.postNew _ key ts) => key :: ts
  | .acc (.postAdd _ key _ ts) => key :: ts
  | .sendI _ key ts => key :: ts
  | .acc .nftLook | .acc (.term ..) | .acc (.termWrite ..) | .acc (.nftStore _) => []
  | .msgN .. | .sendN .. | .docGet | .docSet _ | .docPut _ | .sendD _ => []
  | _ => op.field.tf.keys

/-- what the index writer has got so far: everything the calls have passed, and everything in memory except what a client is about to send. -/
structure Sent (s : CDisk) : Prop where
  cur : ∀ cl ∈ s.clients, ∀ op loc, cl.cur = some (.write op loc) → ∀ t ∈ op.field.tf.keys, t ∈ toPost op loc ∨ has2 s.ix.mem op.field.name t op.doc
  ret : ∀ op ∈ s.returned, ∀ t ∈ op.field.tf.keys, has2 s.ix.mem op.field.name t op.doc
  mem : ∀ sr d, GoSet.contains (s.mem.setCells sr) d = true → has2 s.ix.mem sr.tag.1 sr.tag.2 d ∨
    ∃ (i : Nat) (cl : DClient), s.clients[i]? = some cl ∧ ∃ op r key ts, cl.cur = some (.write op (.sendI r key ts)) ∧ sr.tag = (op.field.name, key) ∧ d = op.doc

theorem ix_post {s s' : IxState} {f t d : String} (he : s.exec (.post f t d) = some s') :
    ∀ f' t' d', has2 s'.mem f' t' d' ↔ has2 s.mem f' t' d' ∨ (f' = f ∧ t' = t ∧ d' = d) := by
  simp only [IxState.exec] at he
  split at he
  · cases he
    intro f' t' d'
    rw [has2_post]
    constructor
    · rintro (⟨rfl, rfl, rfl⟩ | h)
      · exact .inr ⟨rfl, rfl, rfl⟩
      · exact .inl h
    · rintro (h | ⟨rfl, rfl, rfl⟩)
      · exact .inr h
      · exact .inl ⟨rfl, rfl, rfl⟩
  · cases he

/-- background steps of the index part leave the loaded index alone. -/
theorem mem_background {s s' : IxState} {a : IxState.Act} (hb : Disk.ixBackground a = true) (hp : s.proc = .up) (he : s.exec a = some s') (hp' : s'.proc ≠ .down) :
    s'.mem = s.mem := ((Disk.ix_background hp hb he).resolve_left hp').2

/-- the sets a call's access changes. -/
theorem set_exec_sent {m m' : CMem} {op : StoreOp} {k : Nat} {l : CMem.Loc} {o : Option CMem.Loc} (hl : CMem.LocOk op l) (he : CMem.exec m op k l = some (m', o)) (sr : Ref (String × String)) (d : String)
    (h : GoSet.contains (m'.setCells sr) d = true) : GoSet.contains (m.setCells sr) d = true ∨
      ∃ r key ts, cont l o = some (.sendI r key ts) ∧ sr.tag = (op.field.name, key) ∧ d = op.doc := by
  cases Conc.exec_eff he with
  | postNew r key ts =>
    simp only [Ref.upd] at h
    split at h
    · rename_i e
      simp only [GoSet.new, GoSet.contains_add, GoSet.contains_nil, Bool.or_false, decide_eq_true_eq] at h
      right
      exact ⟨r, key, ts, rfl, by rw [e], h.symm⟩
    · exact .inl h
  | postAdd r key sr' ts =>
    simp only [Ref.upd] at h
    split at h
    · rename_i e
      subst e
      simp only [GoSet.contains_add, Bool.or_eq_true, decide_eq_true_eq] at h
      rcases h with h | h
      · right; exact ⟨r, key, ts, rfl, hl.2.1, h.symm⟩
      · exact .inl h
    · exact .inl h
  | _ => exact .inl h

theorem toPost_acc {m m' : CMem} {op : StoreOp} {k : Nat} {l : CMem.Loc} {o : Option CMem.Loc} (hl : diskLoc op l) (he : CMem.exec m op k l = some (m', o)) :
    (∀ loc' ∈ cont l o, ∀ t ∈ toPost op (.acc l), t ∈ toPost op loc') ∧ (cont l o = none → toPost op (.acc l) = []) := by
  cases Conc.exec_eff he with
  | postEnd r => cases op <;> simp [cont, toPost, CMem.afterPosts]
  | postFound r ts key ts' sr hp h =>
    refine ⟨?_, by simp [cont]⟩
    rintro loc' h t ht
    cases h
    exact hp.mem_iff.2 ht
  | postMissing r ts key ts' hp h =>
    refine ⟨?_, by simp [cont]⟩
    rintro loc' h t ht
    cases h
    exact hp.mem_iff.2 ht
  | docSet r => exact hl.elim
  | docNew => exact hl.elim
  | docFound => exact hl.elim
  | docMissing => exact hl.elim
  | postNew => exact ⟨fun loc' h t ht => by cases h; exact ht, by simp [cont]⟩
  | postAdd => exact ⟨fun loc' h t ht => by cases h; exact ht, by simp [cont]⟩
  | _ => simp [cont, toPost]

theorem sent_step {s s' : CDisk} {a : Act} (hk : Ok s) (h : Sent s) (hs : Step s a s') : Sent s' := by
  have old : ∀ {i : Nat} {cl : DClient} {c : DCur}, s.clients[i]? = some cl → cl.cur = some c → CurOk s.begun c :=
    fun hi hc => hk.cur _ (List.mem_of_getElem? hi) _ hc
  -- one client moves
  have move : ∀ {i : Nat} {cl cl' : DClient} {m : CMem} {ix : IxState}, s.clients[i]? = some cl → s'.clients = s.clients.set i cl' → s'.mem = m → s'.ix = ix →
      (∀ f t d, has2 s.ix.mem f t d → has2 ix.mem f t d) →
      (∀ op loc, cl'.cur = some (.write op loc) → ∀ t ∈ op.field.tf.keys, t ∈ toPost op loc ∨ has2 ix.mem op.field.name t op.doc) →
      (∀ op ∈ s'.returned, op ∈ s.returned ∨ ∀ t ∈ op.field.tf.keys, has2 ix.mem op.field.name t op.doc) →
      (∀ op r key ts, cl.cur = some (.write op (.sendI r key ts)) → has2 ix.mem op.field.name key op.doc) →
      (∀ sr d, GoSet.contains (m.setCells sr) d = true → GoSet.contains (s.mem.setCells sr) d = true ∨
        ∃ op r key ts, cl'.cur = some (.write op (.sendI r key ts)) ∧ sr.tag = (op.field.name, key) ∧ d = op.doc) → Sent s' := by
    intro i cl cl' m ix hi e1 e2 e3 h1 h2 h3 h4 h5
    have hlt : i < s.clients.length := (List.getElem?_eq_some_iff.1 hi).1
    refine ⟨?_, ?_, ?_⟩
    · rw [e1, e3]
      intro c hc op loc hcur t ht
      rcases List.mem_or_eq_of_mem_set hc with hc | rfl
      · exact (h.cur c hc op loc hcur t ht).imp id (h1 _ _ _)
      · exact h2 op loc hcur t ht
    · rw [e3]
      intro op ho t ht
      rcases h3 op ho with ho | ho
      · exact h1 _ _ _ (h.ret op ho t ht)
      · exact ho t ht
    · rw [e1, e2, e3]
      intro sr d hd
      rcases h5 sr d hd with hd | ⟨op, r, key, ts, g1, g2⟩
      · rcases h.mem sr d hd with hd | ⟨j, c, hj, op, r, key, ts, g1, g2, g3⟩
        · exact .inl (h1 _ _ _ hd)
        · by_cases e : j = i
          · subst e
            rw [hi] at hj; cases hj
            left; rw [g2, g3]; exact h4 op r key ts g1
          · exact .inr ⟨j, c, by rw [List.getElem?_set_ne (Ne.symm e)]; exact hj, op, r, key, ts, g1, g2, g3⟩
      · exact .inr ⟨i, cl', by simp [hlt], op, r, key, ts, g1, g2⟩
  -- a client moves between steps that neither send nor post
  have quiet : ∀ {i : Nat} {cl : DClient} {op : StoreOp} {loc loc' : WLoc} {cl' : DClient} {m : CMem}, s.clients[i]? = some cl → cl.cur = some (.write op loc) → cl'.cur = some (.write op loc') →
      s'.clients = s.clients.set i cl' → s'.mem = m → m.setCells = s.mem.setCells → s'.ix = s.ix → s'.returned = s.returned → (∀ r key ts, loc ≠ .sendI r key ts) →
      (∀ t ∈ toPost op loc, t ∈ toPost op loc') → Sent s' := by
    intro i cl op loc loc' cl' m hi hc hc' e1 e2 e3 e4 e5 hn ht
    refine move hi e1 e2 e4 (fun _ _ _ => id) ?_ (fun op ho => .inl (e5 ▸ ho)) ?_ fun sr d hd => .inl (e3 ▸ hd)
    · intro op' l' he t hk
      rw [hc'] at he; cases he
      exact (h.cur cl (List.mem_of_getElem? hi) op loc hc t hk).imp (ht t) id
    · intro op' r key ts he
      rw [hc] at he; cases he
      exact absurd rfl (hn r key ts)
  -- a reader moves
  have reader : ∀ {i : Nat} {cl cl' : DClient} {m : CMem}, s.clients[i]? = some cl → (∀ op loc, cl.cur ≠ some (.write op loc)) → (∀ op loc, cl'.cur ≠ some (.write op loc)) →
      s'.clients = s.clients.set i cl' → s'.mem = m → m.setCells = s.mem.setCells → s'.ix = s.ix → s'.returned = s.returned → Sent s' := by
    intro i cl cl' m hi hn hn' e1 e2 e3 e4 e5
    exact move hi e1 e2 e4 (fun _ _ _ => id) (fun op loc he => absurd he (hn' op loc)) (fun op ho => .inl (e5 ▸ ho)) (fun op r key ts he => absurd he (hn _ _))
      fun sr d hd => .inl (e3 ▸ hd)
  have same : s'.clients = s.clients → s'.mem = s.mem → s'.ix.mem = s.ix.mem → s'.returned = s.returned → Sent s' := by
    intro e1 e2 e3 e4
    exact ⟨by rw [e1, e3]; exact h.cur, by rw [e4, e3]; exact h.ret, by rw [e1, e2, e3]; exact h.mem⟩
  have down : ∀ ix, s' = s.stop ix → Sent s' := by
    rintro ix rfl
    exact ⟨fun _ h => (by cases h), fun _ h => (by cases h), fun _ _ h => (by cases h)⟩
  cases hs with
  | @beginWrite i k cl op rest hu hi hc ht =>
    refine move hi rfl rfl rfl (fun _ _ _ => id) ?_ (fun op ho => .inl ho) (fun op r key ts he => by rw [hc] at he; cases he) fun sr d hd => .inl hd
    intro op' loc he t hk
    cases he
    cases op <;> exact .inl hk
  | beginRead hu hi hc ht => exact reader hi (fun _ _ e => by rw [hc] at e; cases e) (fun _ _ e => by cases e) rfl rfl rfl rfl rfl
  | @acc i k cl op l m o loc' hu hi hc he hn =>
    have hl := (old hi hc).2
    have ht := (toPost_acc hl.2 he).1 loc' hn
    refine move hi rfl rfl rfl (fun _ _ _ => id) ?_ (fun op ho => .inl ho) (fun op r key ts he => by rw [hc] at he; cases he) fun sr d hd => ?_
    · intro op' l' he' t hk
      cases he'
      exact (h.cur cl (List.mem_of_getElem? hi) _ _ hc t hk).imp (ht t) id
    · refine (set_exec_sent hl.1 he sr d hd).imp id ?_
      rintro ⟨r, key, ts, g1, g2⟩
      rw [hn] at g1; cases g1
      exact ⟨op, r, key, ts, rfl, g2⟩
  | @accReturn i k cl op l m o hu hi hc he hn =>
    have hl := (old hi hc).2
    have ht := (toPost_acc hl.2 he).2 hn
    refine move hi rfl rfl rfl (fun _ _ _ => id) (fun _ _ e => by cases e) ?_ (fun op r key ts he => by rw [hc] at he; cases he) fun sr d hd => ?_
    · intro op' ho
      rcases List.mem_append.1 ho with ho | ho
      · exact .inl ho
      · rw [List.mem_singleton.1 ho]
        right
        intro t hk
        refine (h.cur cl (List.mem_of_getElem? hi) _ _ hc t hk).resolve_left ?_
        rw [ht]; simp
    · refine (set_exec_sent hl.1 he sr d hd).imp id ?_
      rintro ⟨r, key, ts, g1, g2⟩
      rw [hn] at g1; cases g1
  | msgLen hu hi hc => exact quiet hi hc rfl rfl rfl rfl rfl rfl (fun _ _ _ e => by cases e) fun _ h => by exact h
  | msgSize hu hi hc => exact quiet hi hc rfl rfl rfl rfl rfl rfl (fun _ _ _ e => by cases e) fun _ h => by exact h
  | @sendI i k cl op r key ts ix hu hi hc he =>
    have hp := ix_post he
    have grow : ∀ f t d, has2 s.ix.mem f t d → has2 ix.mem f t d := fun f t d h => (hp f t d).2 (.inl h)
    refine move hi rfl rfl rfl grow ?_ (fun op ho => .inl ho) ?_ fun sr d hd => .inl hd
    · intro op' l' he' t hk
      cases he'
      rcases h.cur cl (List.mem_of_getElem? hi) _ _ hc t hk with h | h
      · rcases List.mem_cons.1 h with rfl | h
        · exact .inr ((hp _ _ _).2 (.inr ⟨rfl, rfl, rfl⟩))
        · exact .inl h
      · exact .inr (grow _ _ _ h)
    · intro op' r' key' ts' he'
      rw [hc] at he'; cases he'
      exact (hp _ _ _).2 (.inr ⟨rfl, rfl, rfl⟩)
  | msgN hu hi hc => exact quiet hi hc rfl rfl rfl rfl rfl rfl (fun _ _ _ e => by cases e) fun _ h => by exact h
  | docHit hu hi hc hr => exact quiet hi hc rfl rfl rfl rfl rfl rfl (fun _ _ _ e => by cases e) fun _ h => by exact h
  | docMiss hu hi hc hr => exact quiet hi hc rfl rfl rfl rfl rfl rfl (fun _ _ _ e => by cases e) fun _ h => by exact h
  | docSet hu hi hc => exact quiet hi hc rfl rfl rfl rfl rfl rfl (fun _ _ _ e => by cases e) fun _ h => by exact h
  | docPut hu hi hc he => exact quiet hi hc rfl rfl rfl rfl rfl rfl (fun _ _ _ e => by cases e) fun _ h => by exact h
  | readEnd hu hi hc => exact reader hi (fun _ _ e => by rw [hc] at e; cases e) (fun _ _ e => by cases e) rfl rfl rfl rfl rfl
  | readHit hu hi hc hr => exact reader hi (fun _ _ e => by rw [hc] at e; cases e) (fun _ _ e => by cases e) rfl rfl rfl rfl rfl
  | readMiss hu hi hc hr => exact reader hi (fun _ _ e => by rw [hc] at e; cases e) (fun _ _ e => by cases e) rfl rfl rfl rfl rfl
  | readField hu hi hc => exact reader hi (fun _ _ e => by rw [hc] at e; cases e) (fun _ _ e => by cases e) rfl rfl rfl rfl rfl
  | readAbsent hu hi hc hl => exact reader hi (fun _ _ e => by rw [hc] at e; cases e) (fun _ _ e => by cases e) rfl rfl rfl rfl rfl
  | readLoad hu hi hc hl hb => exact reader hi (fun _ _ e => by rw [hc] at e; cases e) (fun _ _ e => by cases e) rfl rfl rfl rfl rfl
  | readPut hu hi hc he => exact reader hi (fun _ _ e => by rw [hc] at e; cases e) (fun _ _ e => by cases e) rfl rfl rfl rfl rfl
  | recvM hi hc he => exact quiet hi hc rfl rfl rfl rfl rfl rfl (fun _ _ _ e => by cases e) fun _ h => by exact h
  | recvN hi hc he => exact quiet hi hc rfl rfl rfl rfl rfl rfl (fun _ _ _ e => by cases e) fun _ h => by exact h
  | @recvD i cl op r fl hi hc he =>
    refine move hi rfl rfl rfl (fun _ _ _ => id) (fun _ _ e => by cases e) ?_ (fun op r key ts he => by rw [hc] at he; cases he) fun sr d hd => .inl hd
    intro op' ho
    rcases List.mem_append.1 ho with ho | ho
    · exact .inl ho
    · rw [List.mem_singleton.1 ho]
      right
      intro t hk
      exact (h.cur cl (List.mem_of_getElem? hi) _ _ hc t hk).resolve_left (by simp [toPost])
  | @ix b ix hb hu he hp =>
    by_cases hup : s.up = true
    · exact same rfl rfl (mem_background hb (hk.proc hup) he hp) rfl
    · have ho := hk.off (by simpa using hup)
      refine ⟨fun c hc => ?_, fun op h => ?_, fun sr d hd => ?_⟩
      · rw [show CDisk.clients _ = s.clients from rfl, ho.clients] at hc; cases hc
      · rw [show CDisk.returned _ = s.returned from rfl, ho.returned] at h; cases h
      · rw [show CDisk.mem _ = s.mem from rfl, ho.mem] at hd; cases hd
  | ixDown hb hu he hp => exact down _ rfl
  | crash he => exact down _ rfl
  | @open_ ix he =>
    refine same rfl rfl ?_ rfl
    simp only [IxState.exec] at he
    split at he
    · cases he; rfl
    · cases he
  | openRest hp hu hm hn =>
    have ho := hk.off hu
    refine ⟨fun c hc => ?_, fun op h => ?_, fun sr d hd => .inl (loaded_set hd)⟩
    · obtain ⟨p, -, rfl⟩ := List.mem_map.1 hc
      intro op loc e; cases e
    · rw [show CDisk.returned _ = s.returned from rfl, ho.returned] at h; cases h
  | tickM hu he => exact same rfl rfl rfl rfl
  | stepM he => exact same rfl rfl rfl rfl
  | tickN hu he => exact same rfl rfl rfl rfl
  | stepN he => exact same rfl rfl rfl rfl
  | tickD hu he => exact same rfl rfl rfl rfl
  | stepD he => exact same rfl rfl rfl rfl

theorem sent_run {as : List Act} {s : CDisk} (h : run {} as = some s) : Sent s :=
  (run_inv (P := fun s => Ok s ∧ Sent s) (fun _ _ _ hp hs => ⟨ok_step hp.1 hs, sent_step hp.1 hp.2 hs⟩)
    ⟨ok_init, ⟨fun _ h => (by cases h), fun _ h => (by cases h), fun _ _ h => (by cases h)⟩⟩ h).2

/-! ### closing and opening again -/

/-- the process stops and NewDiskStore is called again, the loading of the index taking `k` steps. -/
def reopen (k : Nat) (n : Int) (progs : List (List DOp)) : List Act := .crash :: .open_ :: (List.replicate k (.ix .merge) ++ [.openRest n progs])

/-- the index writer has nothing left to write, and the merge goroutine is not between its two renames. -/
def IxSettled (s : CDisk) : Prop := s.ix.chan = [] ∧ s.ix.buf = [] ∧ s.ix.writer = .idle ∧ inRenameWindow s.ix = false

instance (s : CDisk) : Decidable (IxSettled s) := inferInstanceAs (Decidable (_ ∧ _))

/-- no client is in a call. -/
def Idle (s : CDisk) : Prop := ∀ cl ∈ s.clients, cl.cur = none

instance (s : CDisk) : Decidable (Idle s) := inferInstanceAs (Decidable (∀ cl ∈ s.clients, cl.cur = none))

theorem get?_map_key {V W : Type} (m : GoMap String V) (g : String → V → W) (k : String) :
    GoMap.get? (m.map fun e => (e.1, g e.1 e.2) : GoMap String W) k = (m.get? k).map (g k) := by
  induction m with
  | nil => rfl
  | cons e m ih =>
    obtain ⟨k', v⟩ := e
    simp only [List.map_cons, GoMap.get?_cons, ih]
    split
    · rename_i h; subst h; rfl
    · rfl

/-- what a store that has just been opened shows. -/
theorem loaded_lookup (index : GoMap String Postings) (size length : GoMap String Int) (nft : GoMap String (GoMap String Int)) (f t : String) :
    (CMem.loaded index size length nft).lookup f t = ((index.get? f).bind fun p => p.get? t).map fun _ => ⟨(f, t), 0⟩ := by
  have h1 : GoMap.get? (CMem.loaded index size length nft).index f = (index.get? f).map fun _ => (⟨f, 0⟩ : Ref String) :=
    get?_map_key index (fun k _ => (⟨k, 0⟩ : Ref String)) f
  unfold CMem.lookup
  rw [h1]
  cases hf : index.get? f with
  | none => rfl
  | some p =>
    simp only [Option.map_some, Option.bind_some]
    have h2 : (CMem.loaded index size length nft).idxCells ⟨f, 0⟩ = (p.map fun e => (e.1, (⟨(f, e.1), 0⟩ : Ref (String × String))) : GoMap String (Ref (String × String))) := by
      simp [CMem.loaded, hf]
    rw [h2]
    exact get?_map_key p (fun k _ => (⟨(f, k), 0⟩ : Ref (String × String))) t

theorem loaded_getDocuments (index : GoMap String Postings) (size length : GoMap String Int) (nft : GoMap String (GoMap String Int)) (f t : String) :
    (CMem.loaded index size length nft).view.getDocuments f t = (((index.get? f).bind fun p => p.get? t).map fun set => (set, true)).getD ([], false) := by
  rw [CMem.view_getDocuments, loaded_lookup]
  cases hf : index.get? f with
  | none => rfl
  | some p =>
    cases ht : GoMap.get? p t with
    | none => simp [ht]
    | some set => simp [ht, CMem.loaded, hf]

theorem loaded_contains (index : GoMap String Postings) (size length : GoMap String Int) (nft : GoMap String (GoMap String Int)) (f t d : String) :
    GoSet.contains ((CMem.loaded index size length nft).view.getDocuments f t).1 d = true ↔ has2 index f t d := by
  rw [loaded_getDocuments]
  unfold has2 hasPosting
  cases hf : index.get? f with
  | none => simp
  | some p => cases ht : GoMap.get? p t <;> simp [ht]

/-- the files of the counters can always be loaded. -/
theorem loads {s : CDisk} (h : FlushOk s) : ∃ size length nft, CtState.loadM s.mx.files = some (size, length) ∧ CtState.loadN s.nf.files = some nft := by
  obtain ⟨r, h1, -⟩ := CtState.loadM_aux s.mx.files h.fm.fw (fun f sf c hf hc => h.sm f c (by unfold Flusher.cur Flusher.file; rw [hf]; exact hc)) ([], [])
  obtain ⟨r', h2, -⟩ := CtState.loadN_aux s.nf.files h.fn.fw (fun f sf c hf hc => by
    obtain ⟨b, m, e1, e2, -⟩ := h.sn f c (by unfold Flusher.cur Flusher.file; rw [hf]; exact hc)
    exact ⟨b, m, e1, e2⟩) []
  exact ⟨r.1, r.2, r', h1, h2⟩

theorem merges {k : Nat} {t t' : CDisk} (hu : t.up = false) (h : t.run (List.replicate k (.ix .merge)) = some t') (hp : t'.ix.proc ≠ .down) :
    t.ix.run (List.replicate k .merge) = some t'.ix ∧ t' = { t with ix := t'.ix } := by
  induction k generalizing t with
  | zero => cases h; exact ⟨rfl, rfl⟩
  | succ k ih =>
    rw [List.replicate_succ, run_cons] at h
    obtain ⟨u, h1, h2⟩ := h
    cases exec_step h1 with
    | @ix a ix hb hu' he hpx =>
      obtain ⟨g1, g2⟩ := ih (t := { t with ix := ix }) hu h2
      exact ⟨by rw [List.replicate_succ, IxState.run_cons]; exact ⟨_, he, g1⟩, g2⟩
    | @ixDown a ix hb hu' he hpx =>
      cases k with
      | zero => cases h2; exact absurd hpx hp
      | succ k =>
        rw [List.replicate_succ, run_cons] at h2
        obtain ⟨v, h3, -⟩ := h2
        have : (t.stop ix).exec (.ix .merge) = none := by simp [exec, stop, hpx]
        rw [this] at h3; cases h3

theorem merges_of {k : Nat} {t : CDisk} {ix : IxState} (h : t.ix.run (List.replicate k .merge) = some ix) (hop : t.ix.proc = .opening)
    (hp : ix.proc = .up) : t.run (List.replicate k (.ix .merge)) = some { t with ix := ix } := by
  induction k generalizing t with
  | zero => rw [List.replicate_zero, IxState.run_nil] at h; subst h; rfl
  | succ k ih =>
    rw [List.replicate_succ, IxState.run_cons] at h
    obtain ⟨j, h1, h2⟩ := h
    rw [List.replicate_succ, run_cons]
    have hj : j.proc = .opening ∨ j.merger = .idle := by
      have he' : t.ix.mergeStep = some j := h1
      revert he'
      unfold IxState.mergeStep IxState.loadError
      simp only [hop, if_true]
      (repeat' split) <;> intro he' <;> (first | (cases he'; first | exact .inr rfl | exact .inl hop | exact .inl rfl) | (cases he'))
    have hex : t.exec (.ix .merge) = some (if j.proc = .down then t.stop j else { t with ix := j }) := by
      simp only [exec, Disk.ixBackground, hop, or_true, and_self, if_true, h1, Option.map_some]
    rcases hj with hj | hj
    · refine ⟨_, hex, ?_⟩
      rw [if_neg (by rw [hj]; simp)]
      exact ih (t := { t with ix := j }) h2 hj
    · cases k with
      | zero =>
        rw [List.replicate_zero, IxState.run_nil] at h2; subst h2
        refine ⟨_, hex, ?_⟩
        rw [if_neg (by rw [hp]; simp)]; rfl
      | succ k =>
        rw [List.replicate_succ, IxState.run_cons] at h2
        obtain ⟨l, h3, -⟩ := h2
        have h3 : j.mergeStep = some l := h3
        simp [IxState.mergeStep, hj] at h3

/-- the store after closing and opening again. -/
def reopened (s : CDisk) (ix : IxState) (size length : GoMap String Int) (nft : GoMap String (GoMap String Int)) (n : Int) (progs : List (List DOp)) : CDisk :=
  { s.stop ix with up := true, mem := CMem.loaded ix.mem size length nft, cache := LRU.new n, clients := progs.map fun p => { todo := p } }

theorem reopen_spec {s s' : CDisk} {k : Nat} {n : Int} {progs : List (List DOp)} (h : s.run (reopen k n progs) = some s') :
    ∃ ix size length nft, s.ix.run (.crash :: .open_ :: List.replicate k .merge) = some ix ∧ ix.proc = .up ∧ CtState.loadM s.mx.files = some (size, length) ∧
      CtState.loadN s.nf.files = some nft ∧ s' = reopened s ix size length nft n progs := by
  unfold reopen at h
  obtain ⟨a, h1, h⟩ := run_cons.1 h
  obtain ⟨b, h2, h⟩ := run_cons.1 h
  obtain ⟨c, h3, h4⟩ := run_snoc.1 h
  cases exec_step h1 with
  | @crash i1 hx1 =>
    cases exec_step h2 with
    | @open_ i2 hx2 =>
      cases exec_step h4 with
      | @openRest _ _ size length nft hp hu hm hn =>
        obtain ⟨g1, g2⟩ := merges (t := { s.stop i1 with ix := i2 }) rfl h3 (by rw [hp]; simp)
        refine ⟨c.ix, size, length, nft, (IxState.run_cons _ _ _ _).2 ⟨_, hx1, (IxState.run_cons _ _ _ _).2 ⟨_, hx2, g1⟩⟩, hp, ?_, ?_, ?_⟩
        · rw [g2] at hm; exact hm
        · rw [g2] at hn; exact hn
        · rw [g2]; rfl

theorem reopen_of {s : CDisk} {k : Nat} {n : Int} {progs : List (List DOp)} {ix : IxState} {size length : GoMap String Int} {nft : GoMap String (GoMap String Int)}
    (h : s.ix.run (.crash :: .open_ :: List.replicate k .merge) = some ix) (hp : ix.proc = .up) (hm : CtState.loadM s.mx.files = some (size, length)) (hn : CtState.loadN s.nf.files = some nft) :
    s.run (reopen k n progs) = some (reopened s ix size length nft n progs) := by
  obtain ⟨i1, x1, h⟩ := (IxState.run_cons _ _ _ _).1 h
  obtain ⟨i2, x2, h⟩ := (IxState.run_cons _ _ _ _).1 h
  have hop : i2.proc = .opening := by
    simp only [IxState.exec] at x2
    split at x2
    · cases x2; rfl
    · cases x2
  refine run_cons.2 ⟨s.stop i1, by simp [exec, x1], run_cons.2 ⟨{ s.stop i1 with ix := i2 }, ?_, run_snoc.2 ⟨_, merges_of (t := { s.stop i1 with ix := i2 }) h hop hp, ?_⟩⟩⟩
  · simp [exec, stop, x2]
  · have hm' : CtState.loadM (s.stop i1).mx.files = some (size, length) := hm
    have hn' : CtState.loadN (s.stop i1).nf.files = some nft := hn
    simp only [exec, hp, hm', hn']
    rfl

end CDisk

/-- **C90.** When the index writer has written what it has, the store can be opened again … -/
theorem c90_reopens {as : List Act} {s : CDisk} (h : run {} as = some s) (hu : s.up = true) (hs : IxSettled s) (n : Int) (progs : List (List DOp)) :
    ∃ k s', s.run (reopen k n progs) = some s' := by
  obtain ⟨bs, hb⟩ := ix_reach h
  obtain ⟨⟨k, ix, g1, g2⟩, -⟩ := c30_clean_restart bs _ hb ((ok_run h).proc hu) hs.1 hs.2.1 hs.2.2.1 hs.2.2.2
  obtain ⟨size, length, nft, g3, g4⟩ := loads (flushOk_run h)
  exact ⟨k, _, reopen_of g1 g2 g3 g4⟩

/-- … it lists exactly what has been sent to the writer … -/
theorem CDisk.reopened_documents {as : List Act} {s s' : CDisk} {k : Nat} {n : Int} {progs : List (List DOp)} (h : run {} as = some s) (hu : s.up = true) (hs : IxSettled s)
    (hr : s.run (reopen k n progs) = some s') (f t d : String) : GoSet.contains (s'.getDocuments f t).1 d = true ↔ has2 s.ix.mem f t d := by
  obtain ⟨ix, size, length, nft, g1, g2, g3, g4, rfl⟩ := reopen_spec hr
  obtain ⟨bs, hb⟩ := ix_reach h
  have h1 := ((c30_clean_restart bs _ hb ((ok_run h).proc hu) hs.1 hs.2.1 hs.2.2.1 hs.2.2.2).2 k ix g1 g2 f t).2 d
  have h2 : GoSet.contains ((reopened s ix size length nft n progs).getDocuments f t).1 d = true ↔ has2 ix.mem f t d := loaded_contains ix.mem size length nft f t d
  rw [h2, IxState.has2_iff_getDocuments, IxState.has2_iff_getDocuments]
  exact h1

/-- … and then it shows every posting of every call that has returned in this process, whatever the other clients did meanwhile — also if the call's postings had been
lost in memory; and every posting that was visible before is still there if no client was in a call. -/
theorem c90_complete {as : List Act} {s s' : CDisk} {k : Nat} {n : Int} {progs : List (List DOp)} (h : run {} as = some s) (hu : s.up = true) (hs : IxSettled s)
    (hr : s.run (reopen k n progs) = some s') :
    (∀ op ∈ s.returned, ∀ t ∈ op.field.tf.keys, GoSet.contains (s'.getDocuments op.field.name t).1 op.doc = true) ∧
    (Idle s → ∀ f t d, GoSet.contains (s.getDocuments f t).1 d = true → GoSet.contains (s'.getDocuments f t).1 d = true) ∧
    (∀ f t d, GoSet.contains (s'.getDocuments f t).1 d = true → Posted s.hist f t d) := by
  have key := reopened_documents h hu hs hr
  have hsent := sent_run h
  refine ⟨fun op ho t ht => (key _ _ _).2 (hsent.ret op ho t ht), fun hid f t d hd => (key _ _ _).2 ?_, fun f t d hd => ?_⟩
  · obtain ⟨sr, h1, h2⟩ := (CMem.view_contains _ _ _ _).1 hd
    obtain ⟨r, h3, h4⟩ := Option.bind_eq_some_iff.1 h1
    have e : sr.tag = (f, t) := by rw [(ok_run h).tags.set _ _ _ h4, (ok_run h).tags.idx _ _ h3]
    rcases hsent.mem sr d h2 with h5 | ⟨i, cl, hi, op, r, key, ts, hc, -⟩
    · rwa [e] at h5
    · rw [hid cl (List.mem_of_getElem? hi)] at hc; cases hc
  · exact (postOk_run h).ix f t d (mem_hist (ok_run h).ix ((key f t d).1 hd))

namespace CDisk

/-- clients 0 and 1 take `n` steps each, in turns. -/
def turns (n : Nat) : List Act := (List.replicate n [Act.client 0 0, Act.client 1 0]).flatten

/-- two clients save a document each, in turns; then the index writer writes what it got. -/
def twoSaves : List Act :=
  openEmpty 5 [[.write (.save "a" ⟨"title", 1, [("x", 1)]⟩)], [.write (.save "b" ⟨"title", 1, [("x", 1)]⟩)]] ++
  (turns 7 ++ [.recvM 0, .recvM 1] ++ turns 10 ++ [.recvN 0, .recvN 1] ++ turns 5 ++ [.recvD 0, .recvD 1]) ++
  [.ix .recv, .ix .recv, .ix (.tick [("title", [("x", [("a", true), ("b", true)])])]), .ix (.create "u"), .ix .write, .ix .flushed]

/-- the hypotheses of `c89_never_invents` are met: both calls have returned, and a read has been answered. -/
example : ∃ s, run {} (openEmpty 5 [[.write (.save "a" ⟨"title", 1, [("x", 1)]⟩), .getFields ["a", "b"] "title"], [.write (.save "b" ⟨"title", 1, [("x", 1)]⟩)]] ++
    (turns 7 ++ [.recvM 0, .recvM 1] ++ turns 10 ++ [.recvN 0, .recvN 1] ++ turns 5 ++ [.recvD 0, .recvD 1]) ++ List.replicate 6 (.client 0 0)) = some s ∧
    s.answers = [(["a", "b"], "title", [("a", ⟨"title", 1, [("x", 1)]⟩), ("b", ⟨"title", 1, [("x", 1)]⟩)])] ∧ s.getFieldSize "title" = 1 :=
  exists_of_run (by decide +kernel)

end CDisk

/-- the hypotheses of C90 are met, and **with two clients a clean restart changes the answers**: both calls have returned, no client is in a call, the index writer is settled, and the posting of `a`
that was lost in memory comes back. -/
theorem c90_answers_change_refuted : ∃ s, run {} twoSaves = some s ∧
    (s.up = true ∧ IxSettled s ∧ Idle s ∧ s.returned = [.save "a" ⟨"title", 1, [("x", 1)]⟩, .save "b" ⟨"title", 1, [("x", 1)]⟩] ∧ (s.getDocuments "title" "x").1 = [("b", true)]) ∧
    ((s.run (reopen 12 5 [])).map fun s' => (s'.getDocuments "title" "x").1) = some [("a", true), ("b", true)] := by
  obtain ⟨s, h1, h2⟩ := exists_of_run (o := run {} twoSaves) (P := fun s => (s.up = true ∧ IxSettled s ∧ Idle s ∧
      s.returned = [.save "a" ⟨"title", 1, [("x", 1)]⟩, .save "b" ⟨"title", 1, [("x", 1)]⟩] ∧ (s.getDocuments "title" "x").1 = [("b", true)]) ∧
    ((s.run (reopen 12 5 [])).map fun s' => (s'.getDocuments "title" "x").1) = some [("a", true), ("b", true)]) (by decide +kernel)
  exact ⟨s, h1, h2⟩

end Goir
