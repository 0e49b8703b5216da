import Verif.Props.ConcurrentDiskDocs
/-!
# C96: data races on a Disk store
-/
namespace Goir
open GoMap Spec

/-- what goroutines of a Disk store share: a Go map, the order of the pages of the cache (the `container/list`), or the value field of the page of a key. -/
inductive DObj where
  | map (o : GoObj)
  | pageOrder
  | pageValue (key : String)
deriving DecidableEq

/-- a goroutine: a client, or the writer of the documents. (The other writers only use maps of their own.) -/
inductive Gor where
  | client (i : Nat)
  | docWriter
deriving DecidableEq

namespace CDisk

/-- what `cache.Get(key)` followed by a use of the pointer accesses when the key is present (/repo/cache/LRU.go:28-36): `MoveToFront` writes the list unless the page is the first,
and Get holds only the read lock; the value is read after the lock has been given back (/repo/storage/DiskStorage.go:122-124, 175-179). -/
def getAccess (c : LRU (Ref String)) (key : String) : List (DObj × Bool) :=
  match c.cache.get? key with
  | some e => [(.pageOrder, decide (c.pages.head? ≠ some e)), (.pageValue key, false)]
  | none => []

/-- what `cache.Put(key, _)` accesses that a goroutine may use without holding a lock that excludes it (/repo/cache/LRU.go:38-46): the value of a page that is present. -/
def putAccess (c : LRU (Ref String)) (key : String) : List (DObj × Bool) := if (c.cache.get? key).isSome then [(.pageValue key, true)] else []

/-- what the next step of a write accesses, and whether it writes it (/repo/storage/DiskStorage.go:141-228). -/
def wAccess (c : LRU (Ref String)) (op : StoreOp) : WLoc → List (DObj × Bool)
  | .acc l => (l.access.map fun x => (DObj.map x.1, x.2)).toList
  | .msgLen => [(.map .fieldLength, false)]
  | .msgSize _ => [(.map .fieldSize, false)]
  | .msgN r _ _ => [(.map (.nftCell r), false)]
  | .docGet => getAccess c op.doc
  | .docSet r => [(.map (.docCell r), true)]
  | .docPut _ => putAccess c op.doc
  | .sendM .. | .sendI .. | .sendN .. | .sendD .. => []

/-- what the next step of GetFields accesses (/repo/storage/DiskStorage.go:118-139). -/
def rAccess (c : LRU (Ref String)) : RLoc → List (DObj × Bool)
  | .get [] _ => []
  | .get (id :: _) _ => getAccess c id
  | .field _ r _ _ => [(.map (.docCell r), false)]
  | .load .. => []
  | .put id _ _ _ => putAccess c id

/-- what the next step of a goroutine accesses. The writer of the documents serialises the map that it was sent (/repo/storage/DiskIO.go:206-208). -/
def access (s : CDisk) : Gor → List (DObj × Bool)
  | .client i =>
    match s.curOf i with
    | none => []
    | some (.write op loc) => wAccess s.cache op loc
    | some (.read _ _ loc) => rAccess s.cache loc
  | .docWriter =>
    match s.fl.pc with
    | .flushing (k :: _) => ((s.fl.buf.get? k).map fun r => (DObj.map (.docCell r), false)).toList
    | _ => []

/-- two goroutines are about to access the same thing, and one of them writes it: nothing orders the two accesses. -/
def Races (s : CDisk) (a b : Gor) : Prop := ∃ x wa wb, (x, wa) ∈ s.access a ∧ (x, wb) ∈ s.access b ∧ (wa = true ∨ wb = true)

/-! ### two saves -/

theorem run_trans {s s1 s2 : CDisk} {a b : List Act} (h1 : s.run a = some s1) (h2 : s1.run b = some s2) : s.run (a ++ b) = some s2 := by
  rw [run_append, h1]; exact h2

/-- a client that is about to save can go to the write of the size. -/
theorem to_sizeWrite {s : CDisk} (hu : s.up = true) {i : Nat} {cl : DClient} {d : String} {f : Field} {rest : List DOp} (hi : s.clients[i]? = some cl) (hc : cl.cur = none)
    (ht : cl.todo = .write (.save d f) :: rest) :
    ∃ as s', s.run as = some s' ∧ s'.up = true ∧ (∃ n, s'.curOf i = some (.write (.save d f) (.acc (.sizeWrite n)))) ∧ ∀ j, j ≠ i → s'.clients[j]? = s.clients[j]? := by
  have hlt : i < s.clients.length := (List.getElem?_eq_some_iff.1 hi).1
  refine ⟨[.client i 0, .client i 0], { s with clients := (s.clients.set i { todo := rest, cur := some (.write (.save d f) (.acc .sizeRead)) }).set i { todo := rest, cur := some (.write (.save d f) (.acc (.sizeWrite (s.mem.fieldSize.getD f.name 0)))) }, begun := s.begun ++ [.save d f] },
    ?_, ?_, ⟨s.mem.fieldSize.getD f.name 0, ?_⟩, ?_⟩
  · rw [run_cons]
    refine ⟨{ s with clients := s.clients.set i { todo := rest, cur := some (.write (.save d f) (.acc .sizeRead)) }, begun := s.begun ++ [.save d f] }, ?_, ?_⟩
    · simp only [CDisk.exec, if_pos hu, client, hi, hc, ht, start]
    · simp [run, CDisk.exec, hu, client, hlt, wexec, CMem.exec, cont, setCur, StoreOp.field]
  · exact hu
  · simp [curOf, hlt]
  · intro j hj; simp only [List.getElem?_set, if_neg (Ne.symm hj)]

/-- a client that is about to read can begin. -/
theorem to_get {s : CDisk} (hu : s.up = true) {i : Nat} {cl : DClient} {ids : List String} {name : String} {rest : List DOp} (hi : s.clients[i]? = some cl) (hc : cl.cur = none)
    (ht : cl.todo = .getFields ids name :: rest) :
    ∃ s', s.run [.client i 0] = some s' ∧ s'.up = true ∧ s'.cache = s.cache ∧ s'.curOf i = some (.read ids name (.get ids [])) ∧ ∀ j, j ≠ i → s'.clients[j]? = s.clients[j]? := by
  have hlt : i < s.clients.length := (List.getElem?_eq_some_iff.1 hi).1
  refine ⟨{ s with clients := s.clients.set i { todo := rest, cur := some (.read ids name (.get ids [])) } }, ?_, hu, rfl, ?_, ?_⟩
  · simp [run, CDisk.exec, hu, client, hi, hc, ht]
  · simp [curOf, hlt]
  · intro j hj; simp only [List.getElem?_set, if_neg (Ne.symm hj)]

end CDisk
open CDisk

/-- **C96 is false of the code, for all saves**: whenever two clients of a running store are each about to save, whatever documents and fields, there are steps after which
both are about to write the same Go map. -/
theorem c96_every_two_saves_race_refuted (s : CDisk) (hu : s.up = true) {i j : Nat} (hij : i ≠ j) {ci cj : DClient} {d e : String} {f g : Field} {ri rj : List DOp}
    (hi : s.clients[i]? = some ci) (hj : s.clients[j]? = some cj) (hci : ci.cur = none) (hcj : cj.cur = none)
    (hti : ci.todo = .write (.save d f) :: ri) (htj : cj.todo = .write (.save e g) :: rj) :
    ∃ as s', s.run as = some s' ∧ s'.Races (.client i) (.client j) := by
  obtain ⟨a, s1, r1, u1, ⟨n, h1⟩, o1⟩ := to_sizeWrite hu hi hci hti
  rw [← o1 j (Ne.symm hij)] at hj
  obtain ⟨b, s2, r2, -, ⟨m, h2⟩, o2⟩ := to_sizeWrite u1 hj hcj htj
  have h1' : s2.curOf i = some (.write (.save d f) (.acc (.sizeWrite n))) := by rw [← h1, curOf, curOf, o2 i hij]
  refine ⟨_, s2, run_trans r1 r2, .map .fieldSize, true, true, ?_, ?_, .inl rfl⟩
  · simp [access, h1', wAccess, CMem.Loc.access]
  · simp [access, h2, wAccess, CMem.Loc.access]

/-- **… and for all readers**: whenever two clients are each about to read, and the two documents they ask for first are different ones that are in the cache, there are steps after which both are about to
use the list of pages, one of them to move a page. -/
theorem c96_two_readers_race_refuted {as : List Act} {s : CDisk} (h : run {} as = some s) (hu : s.up = true) {i j : Nat} (hij : i ≠ j) {ci cj : DClient} {d e : String} {ids ids' : List String} {name name' : String}
    {ri rj : List DOp} (hi : s.clients[i]? = some ci) (hj : s.clients[j]? = some cj) (hci : ci.cur = none) (hcj : cj.cur = none)
    (hti : ci.todo = .getFields (d :: ids) name :: ri) (htj : cj.todo = .getFields (e :: ids') name' :: rj) (hde : d ≠ e) (hd : s.cache.val d ≠ none) (he : s.cache.val e ≠ none) :
    ∃ as s', s.run as = some s' ∧ s'.Races (.client i) (.client j) := by
  obtain ⟨s1, r1, u1, c1, h1, o1⟩ := to_get hu hi hci hti
  rw [← o1 j (Ne.symm hij)] at hj
  obtain ⟨s2, r2, -, c2, h2, o2⟩ := to_get u1 hj hcj htj
  have h1' : s2.curOf i = some (.read (d :: ids) name (.get (d :: ids) [])) := by rw [← h1, curOf, curOf, o2 i hij]
  have hcc : s2.cache = s.cache := c2.trans c1
  have hl := (ok_run h).lok
  obtain ⟨x, hx⟩ : ∃ x, s.cache.cache.get? d = some x := by
    rw [LRU.val_eq] at hd; cases hx : s.cache.cache.get? d with
    | none => rw [hx] at hd; exact absurd rfl hd
    | some x => exact ⟨x, rfl⟩
  obtain ⟨y, hy⟩ : ∃ y, s.cache.cache.get? e = some y := by
    rw [LRU.val_eq] at he; cases hy : s.cache.cache.get? e with
    | none => rw [hy] at he; exact absurd rfl he
    | some y => exact ⟨y, rfl⟩
  have hxy : x ≠ y := by
    rintro rfl
    obtain ⟨-, v, hv⟩ := (hl.link _ _).1 hx
    obtain ⟨-, w, hw⟩ := (hl.link _ _).1 hy
    rw [hv] at hw; cases hw; exact hde rfl
  refine ⟨_, s2, run_trans r1 r2, .pageOrder, decide (s.cache.pages.head? ≠ some x), decide (s.cache.pages.head? ≠ some y), ?_, ?_, ?_⟩
  · simp [access, h1', rAccess, getAccess, hcc, hx]
  · simp [access, h2, rAccess, getAccess, hcc, hy]
  · by_cases e1 : s.cache.pages.head? = some x
    · exact .inr (by rw [e1]; simpa using hxy)
    · exact .inl (by simpa using e1)

namespace CDisk

/-! ### no saves -/

/-- the field is written by client `i`'s program. -/
def Mine (progs : List (List DOp)) (i : Nat) (f : String) : Prop := ∃ p, progs[i]? = some p ∧ ∃ op ∈ writes p, op.field.name = f

/-- client `i`'s program calls GetFields. -/
def Reads (progs : List (List DOp)) (i : Nat) : Prop := ∃ p, progs[i]? = some p ∧ ∃ ids name, DOp.getFields ids name ∈ p

/-- what a client may be doing. -/
def CurQuiet (progs : List (List DOp)) (i : Nat) : Option DCur → Prop
  | none => True
  | some (.write op loc) => op.isSave = false ∧ Mine progs i op.field.name ∧ loc ≠ .acc .idxNew
  | some (.read ..) => Reads progs i

/-- the state of affairs while nobody saves. -/
structure Quiet (progs : List (List DOp)) (s : CDisk) : Prop where
  todo : ∀ (i : Nat) (cl : DClient), s.clients[i]? = some cl → (∀ op ∈ writes cl.todo, op.isSave = false ∧ Mine progs i op.field.name) ∧ ∀ ids name, DOp.getFields ids name ∈ cl.todo → Reads progs i
  cur : ∀ (i : Nat) (cl : DClient), s.clients[i]? = some cl → CurQuiet progs i cl.cur
  known : s.up = true → ∀ i f, Mine progs i f → s.mem.index.get? f ≠ none

theorem quiet_set {progs : List (List DOp)} {s s' : CDisk} (h : Quiet progs s) {i : Nat} {cl cl' : DClient} (hi : s.clients[i]? = some cl) (hc : s'.clients = s.clients.set i cl')
    (hup : s'.up = s.up) (hix : ∀ f, s.mem.index.get? f ≠ none → s'.mem.index.get? f ≠ none) (ht : ∀ x ∈ cl'.todo, x ∈ cl.todo) (hcur : CurQuiet progs i cl'.cur) : Quiet progs s' := by
  have wr : ∀ op ∈ writes cl'.todo, op ∈ writes cl.todo := by
    have : ∀ l : List DOp, ∀ op, op ∈ writes l ↔ DOp.write op ∈ l := by
      intro l op
      induction l with
      | nil => simp [writes]
      | cons x l ih => cases x <;> simp [writes, ih]
    intro op ho
    exact (this _ _).2 (ht _ ((this _ _).1 ho))
  refine ⟨?_, ?_, fun hu j f hm => hix f (h.known (hup ▸ hu) j f hm)⟩
  · intro j c hj
    rw [hc, List.getElem?_set] at hj
    split at hj
    · rename_i e; subst e
      split at hj
      · cases hj; exact ⟨fun op ho => (h.todo i cl hi).1 op (wr op ho), fun ids name hx => (h.todo i cl hi).2 ids name (ht _ hx)⟩
      · cases hj
    · exact h.todo j c hj
  · intro j c hj
    rw [hc, List.getElem?_set] at hj
    split at hj
    · rename_i e; subst e
      split at hj
      · cases hj; exact hcur
      · cases hj
    · exact h.cur j c hj

theorem index_mono {m m' : CMem} {op : StoreOp} {k : Nat} {l : CMem.Loc} {o : Option CMem.Loc} (he : CMem.exec m op k l = some (m', o)) (f : String) (h : m.index.get? f ≠ none) : m'.index.get? f ≠ none := by
  unfold CMem.exec at he
  split at he <;> (try split at he) <;> (try split at he) <;> cases he <;> try exact h
  all_goals (simp only [GoMap.get?_set]; split <;> simp_all)

theorem quiet_step {progs : List (List DOp)} {s s' : CDisk} {a : Act} (hk : Ok s) (hs : Step s a s') (hno : noOpen a = true) (h : Quiet progs s) : Quiet progs s' := by
  have okc : ∀ {i : Nat} {cl : DClient} {op : StoreOp} {loc : WLoc}, s.clients[i]? = some cl → cl.cur = some (.write op loc) → WLocOk op loc :=
    fun hi hc => (hk.cur _ (List.mem_of_getElem? hi) _ hc).2
  have cq : ∀ {i : Nat} {cl : DClient} {c : DCur}, s.clients[i]? = some cl → cl.cur = some c → CurQuiet progs i (some c) := fun hi hc => hc ▸ h.cur _ _ hi
  have nosave : ∀ {i : Nat} {cl : DClient} {op : StoreOp} {loc : WLoc}, s.clients[i]? = some cl → cl.cur = some (.write op loc) → op.isSave = true → False := fun hi hc hsv => by
    have := (cq hi hc).1; rw [hsv] at this; cases this
  have same : ∀ {i : Nat} {cl : DClient} {c : Option DCur} {s' : CDisk}, s.clients[i]? = some cl → s'.clients = s.clients.set i { cl with cur := c } → s'.up = s.up → s'.mem.index = s.mem.index → CurQuiet progs i c → Quiet progs s' :=
    fun hi hc hup hix hcur => quiet_set h hi hc hup (fun f => by rw [hix]; exact id) (fun _ hx => hx) hcur
  cases hs with
  | beginWrite hu hi hc ht =>
    have hh := (h.todo _ _ hi).1 _ (by rw [ht]; exact List.mem_cons_self ..)
    refine quiet_set h hi rfl rfl (fun _ => id) (fun x hx => by rw [ht]; exact List.mem_cons_of_mem _ hx) ⟨hh.1, hh.2, ?_⟩
    unfold start; split <;> simp
  | beginRead hu hi hc ht => exact quiet_set h hi rfl rfl (fun _ => id) (fun x hx => by rw [ht]; exact List.mem_cons_of_mem _ hx) ((h.todo _ _ hi).2 _ _ (by rw [ht]; exact List.mem_cons_self ..))
  | @acc i k cl op l m o loc' hu hi hc he hn =>
    have hq := cq hi hc
    refine quiet_set h hi rfl rfl (index_mono he) (fun _ hx => hx) ⟨hq.1, hq.2.1, ?_⟩
    rintro rfl
    have hkn := h.known hu _ _ hq.2.1
    unfold CMem.exec at he
    split at he <;> (try split at he) <;> (try split at he) <;> cases he <;> simp_all [cont]
    all_goals (unfold CMem.afterPosts at hn; split at hn <;> simp at hn)
  | accReturn hu hi hc he hn => exact quiet_set h hi rfl rfl (index_mono he) (fun _ hx => hx) trivial
  | sendI hu hi hc he => exact same hi rfl rfl rfl ⟨(cq hi hc).1, (cq hi hc).2.1, by simp⟩
  | msgLen hu hi hc => exact (nosave hi hc (okc hi hc)).elim
  | msgSize hu hi hc => exact (nosave hi hc (okc hi hc)).elim
  | msgN hu hi hc => exact (nosave hi hc (okc hi hc).1).elim
  | docHit hu hi hc => exact (nosave hi hc (okc hi hc)).elim
  | docMiss hu hi hc => exact (nosave hi hc (okc hi hc)).elim
  | docSet hu hi hc => exact (nosave hi hc (okc hi hc).1).elim
  | docPut hu hi hc => exact (nosave hi hc (okc hi hc).1).elim
  | recvM hi hc => exact (nosave hi hc (okc hi hc)).elim
  | recvN hi hc => exact (nosave hi hc (okc hi hc).1).elim
  | recvD hi hc => exact (nosave hi hc (okc hi hc).1).elim
  | readEnd hu hi hc => exact same hi rfl rfl rfl trivial
  | readHit hu hi hc => exact same hi rfl rfl rfl (show Reads progs _ from cq hi hc)
  | readMiss hu hi hc => exact same hi rfl rfl rfl (show Reads progs _ from cq hi hc)
  | readField hu hi hc => exact same hi rfl rfl rfl (show Reads progs _ from cq hi hc)
  | readAbsent hu hi hc => exact same hi rfl rfl rfl (show Reads progs _ from cq hi hc)
  | readLoad hu hi hc => exact same hi rfl rfl rfl (show Reads progs _ from cq hi hc)
  | readPut hu hi hc => exact same hi rfl rfl rfl (show Reads progs _ from cq hi hc)
  | ixDown => exact ⟨fun _ _ e => (by simp [stop] at e), fun _ _ e => (by simp [stop] at e), fun e => (by simp [stop] at e)⟩
  | crash => exact ⟨fun _ _ e => (by simp [stop] at e), fun _ _ e => (by simp [stop] at e), fun e => (by simp [stop] at e)⟩
  | openRest => cases hno
  | _ => exact ⟨h.todo, h.cur, h.known⟩

theorem quiet_run {as bs : List Act} {n : Int} {progs : List (List DOp)} {s₁ s : CDisk} (h1 : run {} (as ++ [.openRest n progs]) = some s₁)
    (hsv : ∀ op ∈ progs.flatMap writes, op.isSave = false) (hkn : ∀ op ∈ progs.flatMap writes, ∃ t d, GoSet.contains (s₁.getDocuments op.field.name t).1 d = true)
    (hb : ∀ b ∈ bs, noOpen b = true) (h : s₁.run bs = some s) : Quiet progs s := by
  induction bs using List.reverseRecOn generalizing s with
  | nil =>
    cases h
    obtain ⟨s₀, h2, h3⟩ := run_snoc.1 h1
    have hcl : s₁.clients = progs.map fun p => { todo := p } := by cases exec_step h3; rfl
    refine ⟨?_, ?_, ?_⟩
    · intro i cl hi
      rw [hcl, List.getElem?_map, Option.map_eq_some_iff] at hi
      obtain ⟨p, hp, rfl⟩ := hi
      exact ⟨fun op ho => ⟨hsv op (List.mem_flatMap.2 ⟨p, List.mem_of_getElem? hp, ho⟩), p, hp, op, ho, rfl⟩, fun ids name hx => ⟨p, hp, ids, name, hx⟩⟩
    · intro i cl hi
      rw [hcl, List.getElem?_map, Option.map_eq_some_iff] at hi
      obtain ⟨p, hp, rfl⟩ := hi
      trivial
    · rintro - i f ⟨p, hp, op, ho, rfl⟩ hnone
      obtain ⟨t, d, hx⟩ := hkn op (List.mem_flatMap.2 ⟨p, List.mem_of_getElem? hp, ho⟩)
      obtain ⟨sr, h4, -⟩ := (CMem.view_contains _ _ _ _).1 hx
      rw [CMem.lookup, hnone] at h4; cases h4
  | append_singleton bs b ih =>
    obtain ⟨u, h2, h3⟩ := run_snoc.1 h
    have hb' : ∀ x ∈ bs, noOpen x = true := fun x hx => hb x (List.mem_append_left _ hx)
    exact quiet_step (ok_run (run_trans h1 h2)) (exec_step h3) (hb b (by simp)) (ih hb' h2)

/-- what a client accesses while nobody saves. -/
theorem quiet_access {progs : List (List DOp)} {s : CDisk} (hk : Ok s) (h : Quiet progs s) {i : Nat} {x : DObj} {w : Bool} (hx : (x, w) ∈ s.access (.client i)) :
    (x = .map .index ∧ w = false) ∨ (∃ r, x = .map (.idxCell r) ∧ Mine progs i r.tag) ∨ (∃ sr, x = .map (.setCell sr) ∧ Mine progs i sr.tag.1) ∨
    ((∃ r, x = .map (.docCell r)) ∧ w = false) ∨ ((x = .pageOrder ∨ ∃ key, x = .pageValue key) ∧ Reads progs i) := by
  simp only [access] at hx
  split at hx
  · cases hx
  · rename_i op loc e
    obtain ⟨cl, hi, hc⟩ := curOf_some e
    have hok : WLocOk op loc := (hk.cur _ (List.mem_of_getElem? hi) _ hc).2
    have hq := h.cur i cl hi
    rw [hc] at hq
    obtain ⟨q1, q2, q3⟩ := hq
    have nosave : op.isSave ≠ true := by rw [q1]; simp
    cases loc with
    | acc l =>
      obtain ⟨o1, o2⟩ := hok
      cases l with
      | idxLook => simp [wAccess, CMem.Loc.access] at hx; exact .inl hx
      | idxNew => exact absurd rfl q3
      | post r ts =>
        cases ts with
        | nil => simp [wAccess, CMem.Loc.access] at hx
        | cons t ts => simp [wAccess, CMem.Loc.access] at hx; exact .inr (.inl ⟨r, hx.1, by rw [o1.1]; exact q2⟩)
      | postNew r key ts => simp [wAccess, CMem.Loc.access] at hx; exact .inr (.inl ⟨r, hx.1, by rw [o1.1]; exact q2⟩)
      | postAdd r key sr ts => simp [wAccess, CMem.Loc.access] at hx; exact .inr (.inr (.inl ⟨sr, hx.1, by rw [o1.2.1]; exact q2⟩))
      | docLook => exact o2.elim
      | docSet _ => exact o2.elim
      | docNew => exact o2.elim
      | sizeRead => exact (nosave o2).elim
      | sizeWrite _ => exact (nosave o2).elim
      | lenRead => exact (nosave o2).elim
      | lenWrite _ => exact (nosave o2).elim
      | nftLook => exact (nosave o1).elim
      | term _ _ => exact (nosave o1.1).elim
      | termWrite _ _ _ _ => exact (nosave o1.1).elim
      | nftStore _ => exact (nosave o1.1).elim
    | sendI => simp [wAccess] at hx
    | msgLen => exact (nosave hok).elim
    | msgSize _ => exact (nosave hok).elim
    | sendM _ _ => exact (nosave hok).elim
    | msgN _ _ _ => exact (nosave hok.1).elim
    | sendN _ _ _ _ => exact (nosave hok.1).elim
    | docGet => exact (nosave hok).elim
    | docSet _ => exact (nosave hok.1).elim
    | docPut _ => exact (nosave hok.1).elim
    | sendD _ => exact (nosave hok.1).elim
  · rename_i ids name loc e
    obtain ⟨cl, hi, hc⟩ := curOf_some e
    have hq := h.cur i cl hi
    rw [hc] at hq
    have ga : ∀ key, (x, w) ∈ getAccess s.cache key → (x = .pageOrder ∨ ∃ key, x = .pageValue key) := by
      intro key hg
      unfold getAccess at hg
      split at hg
      · simp at hg; rcases hg with g | g
        · exact .inl g.1
        · exact .inr ⟨_, g.1⟩
      · cases hg
    have pa : ∀ key, (x, w) ∈ putAccess s.cache key → (x = .pageOrder ∨ ∃ key, x = .pageValue key) := by
      intro key hg
      unfold putAccess at hg
      split at hg
      · simp at hg; exact .inr ⟨_, hg.1⟩
      · cases hg
    unfold rAccess at hx
    split at hx
    · cases hx
    · exact .inr (.inr (.inr (.inr ⟨ga _ hx, hq⟩)))
    · simp at hx; exact .inr (.inr (.inr (.inl ⟨⟨_, hx.1⟩, hx.2⟩)))
    · cases hx
    · exact .inr (.inr (.inr (.inr ⟨pa _ hx, hq⟩)))

theorem docWriter_access {s : CDisk} {x : DObj} {w : Bool} (hx : (x, w) ∈ s.access .docWriter) : (∃ r, x = .map (.docCell r)) ∧ w = false := by
  simp only [access] at hx
  split at hx
  · rename_i k rest _
    cases hb : s.fl.buf.get? k with
    | none => rw [hb] at hx; cases hx
    | some r => rw [hb] at hx; simp at hx; exact ⟨⟨r, hx.1⟩, hx.2⟩
  · cases hx

end CDisk

/-- **C96, what holds**: a store was opened, whatever had happened before. If its clients make no call of SaveOrUpdate, call UpdateIndex only on fields that already have postings, each field by one client, and at most one
client calls GetFields, then no two goroutines ever race. -/
theorem c96_no_saves_partial {as bs : List Act} {n : Int} {progs : List (List DOp)} {s₁ s : CDisk} (h1 : run {} (as ++ [.openRest n progs]) = some s₁)
    (hsv : ∀ op ∈ progs.flatMap writes, op.isSave = false) (hkn : ∀ op ∈ progs.flatMap writes, ∃ t d, GoSet.contains (s₁.getDocuments op.field.name t).1 d = true)
    (hown : ∀ (i j : Nat) (p q : List DOp), progs[i]? = some p → progs[j]? = some q → i ≠ j → ∀ x ∈ writes p, ∀ y ∈ writes q, x.field.name ≠ y.field.name)
    (hone : ∀ (i j : Nat) (p q : List DOp), progs[i]? = some p → progs[j]? = some q → i ≠ j → (∃ ids name, DOp.getFields ids name ∈ p) → ¬ ∃ ids name, DOp.getFields ids name ∈ q)
    (hb : ∀ b ∈ bs, noOpen b = true) (h : s₁.run bs = some s) (a b : Gor) (hab : a ≠ b) : ¬ s.Races a b := by
  have hq := quiet_run h1 hsv hkn hb h
  have hk := ok_run (run_trans h1 h)
  have mine : ∀ {i j f}, i ≠ j → Mine progs i f → Mine progs j f → False := by
    rintro i j f hij ⟨p, hp, x, hx, rfl⟩ ⟨q, hq, y, hy, e⟩
    exact hown i j p q hp hq hij x hx y hy e.symm
  have reads : ∀ {i j}, i ≠ j → Reads progs i → Reads progs j → False := by
    rintro i j hij ⟨p, hp, hx⟩ ⟨q, hq, hy⟩
    exact hone i j p q hp hq hij hx hy
  rintro ⟨x, wa, wb, ha, hb, hw⟩
  cases a with
  | docWriter =>
    obtain ⟨⟨r, rfl⟩, rfl⟩ := docWriter_access ha
    cases b with
    | docWriter => exact hab rfl
    | client j =>
      rcases quiet_access hk hq hb with ⟨e, -⟩ | ⟨_, e, -⟩ | ⟨_, e, -⟩ | ⟨-, rfl⟩ | ⟨e | ⟨_, e⟩, -⟩
      · cases e
      · cases e
      · cases e
      · simp at hw
      · cases e
      · cases e
  | client i =>
    cases b with
    | docWriter =>
      obtain ⟨⟨r, rfl⟩, rfl⟩ := docWriter_access hb
      rcases quiet_access hk hq ha with ⟨e, -⟩ | ⟨_, e, -⟩ | ⟨_, e, -⟩ | ⟨-, rfl⟩ | ⟨e | ⟨_, e⟩, -⟩
      · cases e
      · cases e
      · cases e
      · simp at hw
      · cases e
      · cases e
    | client j =>
      have hij : i ≠ j := fun e => hab (by rw [e])
      rcases quiet_access hk hq ha with ⟨rfl, rfl⟩ | ⟨_, rfl, m⟩ | ⟨_, rfl, m⟩ | ⟨⟨_, rfl⟩, rfl⟩ | ⟨rfl | ⟨_, rfl⟩, m⟩ <;>
        rcases quiet_access hk hq hb with ⟨e, e'⟩ | ⟨_, e, m'⟩ | ⟨_, e, m'⟩ | ⟨⟨_, e⟩, e'⟩ | ⟨e | ⟨_, e⟩, m'⟩ <;> cases e
      · subst e'; simp at hw
      · exact mine hij m m'
      · exact mine hij m m'
      · subst e'; simp at hw
      · exact reads hij m m'
      · exact reads hij m m'

namespace CDisk

/-- a document is saved, and saved again while the writer of the documents is about to serialise it. -/
def againWhileFlushing : List Act :=
  openEmpty 5 [[.write (.save "a" ⟨"title", 1, [("x", 1)]⟩), .write (.save "a" ⟨"title", 2, [("x", 2)]⟩)]] ++ saveAlone 0 ++
  List.replicate 7 (.client 0 0) ++ [.recvM 0] ++ List.replicate 9 (.client 0 0) ++ [.recvN 0] ++ List.replicate 3 (.client 0 0) ++ [.tickD ["a"]]

end CDisk

/-- **C96 is false of one client alone**: it is about to write the map of a document that the writer of the documents is about to serialise. -/
theorem c96_one_client_refuted : ∃ s, run {} againWhileFlushing = some s ∧ s.clients.length = 1 ∧ s.Races (.client 0) .docWriter := by
  obtain ⟨s, h, h1, h2, h3⟩ := exists_of_run (o := run {} againWhileFlushing) (P := fun s => s.clients.length = 1 ∧
    (DObj.map (.docCell ⟨"a", 4⟩), true) ∈ s.access (.client 0) ∧ (DObj.map (.docCell ⟨"a", 4⟩), false) ∈ s.access .docWriter) (by decide +kernel)
  exact ⟨s, h, h1, _, true, false, h2, h3, .inl rfl⟩

namespace CDisk

/-- two fields of a document are saved and everything is written; then a process begins in which client 0 indexes more of the title and reads, and client 1 more of the body. -/
def savedTwice : List Act :=
  openEmpty 5 [[.write (.save "a" ⟨"title", 1, [("x", 1)]⟩), .write (.save "a" ⟨"body", 1, [("x", 1)]⟩)]] ++ saveAlone 0 ++ saveAlone 0 ++
  [.ix .recv, .ix .recv, .ix (.tick [("title", [("x", [("a", true)])]), ("body", [("x", [("a", true)])])]), .ix (.create "u"), .ix .write, .ix (.create "v"), .ix .write, .ix .flushed] ++
  [.tickD ["a"]] ++ List.replicate 8 .stepD

/-- the programs of the second process. -/
def twoIndexers : List (List DOp) := [[.write (.updateIndex "b" ⟨"title", 1, [("y", 1)]⟩), .getFields ["a"] "title"], [.write (.updateIndex "c" ⟨"body", 1, [("x", 1)]⟩)]]

end CDisk

/-- the hypotheses of `c96_no_saves_partial` are met: the fields have postings, and both clients index in turns. -/
example : ∃ s, run {} (savedTwice ++ reopen 23 5 twoIndexers) = some s ∧
    (∀ op ∈ twoIndexers.flatMap writes, op.isSave = false ∧ GoSet.contains (s.getDocuments op.field.name "x").1 "a" = true) ∧
    ((s.run (turns 6)).map fun t => (t.begun.length, t.returned.length)) = some (2, 2) := by
  obtain ⟨s, h, h1, h2⟩ := exists_of_run (o := run {} (savedTwice ++ reopen 23 5 twoIndexers)) (P := fun s =>
    (∀ op ∈ twoIndexers.flatMap writes, op.isSave = false ∧ GoSet.contains (s.getDocuments op.field.name "x").1 "a" = true) ∧
    ((s.run (turns 6)).map fun t => (t.begun.length, t.returned.length)) = some (2, 2)) (by decide +kernel)
  exact ⟨s, h, h1, h2⟩

/-- the hypotheses of the two refutations are met: two clients are about to save, and two clients are about to read documents that are in the cache. -/
example : ∃ s, run {} (openEmpty 5 [[.write (.save "a" ⟨"title", 1, [("x", 1)]⟩)], [.write (.save "b" ⟨"body", 1, [("x", 1)]⟩)]]) = some s ∧ s.up = true ∧ s.clients.length = 2 :=
  exists_of_run (P := fun (s : CDisk) => s.up = true ∧ s.clients.length = 2) (by decide +kernel)

example : ∃ s, run {} (openEmpty 5 [[.write (.save "a" ⟨"title", 1, [("x", 1)]⟩), .getFields ["a"] "title"], [.write (.save "b" ⟨"body", 1, [("x", 1)]⟩), .getFields ["b"] "body"]] ++ saveAlone 0 ++ saveAlone 1) = some s ∧
    s.up = true ∧ s.clients.map (fun cl => cl.todo) = [[.getFields ["a"] "title"], [.getFields ["b"] "body"]] ∧ s.clients.map (fun cl => cl.cur) = [none, none] ∧ s.cache.val "a" ≠ none ∧ s.cache.val "b" ≠ none :=
  exists_of_run (P := fun (s : CDisk) => s.up = true ∧ s.clients.map (fun cl => cl.todo) = [[.getFields ["a"] "title"], [.getFields ["b"] "body"]] ∧ s.clients.map (fun cl => cl.cur) = [none, none] ∧
    s.cache.val "a" ≠ none ∧ s.cache.val "b" ≠ none) (by decide +kernel)

end Goir
