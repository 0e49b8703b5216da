import Verif.Props.ConcurrentDisk
import Verif.Lemmas.ConcurrentDiskOwn
/-!
# Several clients on one Disk store: a document that one client uses

If only one client saves and reads a document, and the cache is large enough, what the others do does not disturb it.
-/
namespace Goir
open GoMap Spec

namespace CDisk
open Flusher Conc

/-- the documents that these calls save or read. -/
def touched : List DOp → List String
  | [] => []
  | .write (.save d _) :: p => d :: touched p
  | .write (.updateIndex ..) :: p => touched p
  | .getFields ids _ :: p => ids ++ touched p

/-- in the programs of the clients, only client `c` saves or reads document `d`. -/
def OneUser (c : Nat) (d : String) (progs : List (List DOp)) : Prop := ∀ j p, progs[j]? = some p → j ≠ c → d ∉ touched p

/-- the documents of the call a client is in. -/
def inCall : Option DCur → List String
  | some (.write (.save d _) _) => [d]
  | some (.write (.updateIndex ..) _) => []
  | some (.read ids _ _) => ids
  | none => []

/-- the documents that a client uses, now or later. -/
def uses (cl : DClient) : List String := inCall cl.cur ++ touched cl.todo

/-- the map has what was saved last. -/
def Cells (d : String) (L : List StoreOp) (m : GoMap String Field) : Prop := ∀ name g, lastSaved L d name = some g → m.get? name = some g

/-- the map is with the writer, or it is in the file. -/
def Written (d : String) (fl : Flusher (Ref String)) (r : Ref String) (m : GoMap String Field) : Prop :=
  (fl.buf.get? d = some r ∧ FInvR (fun k _ b => k = d → deserializeFieldMap b = some (DcState.cutMap m)) fl) ∨
  (fl.buf.get? d = none ∧ ∃ b, fl.cur d = some (.full b) ∧ deserializeFieldMap b = some (DcState.cutMap m))

/-- `r` is the map of document `d`; `v` is what the cache has for it. -/
structure IsMap (d : String) (L : List StoreOp) (s : CDisk) (r : Ref String) : Prop where
  tag : r.tag = d
  val : s.cache.val d = some r
  cells : Cells d L (s.mem.docCells r)
  written : Written d s.fl r (s.mem.docCells r)

/-- everything about document `d` is in order after the calls `L`. -/
def Full (d : String) (L : List StoreOp) (s : CDisk) : Prop := L ≠ [] → ∃ r, IsMap d L s r

/-- the answer has what was saved last. -/
def Has (d : String) (L : List StoreOp) (name : String) (out : GoMap String Field) : Prop := ∀ g, lastSaved L d name = some g → out.get? d = some g

/-- inside a save of document `d`. -/
def WPos (d : String) (L : List StoreOp) (s : CDisk) (op : StoreOp) : WLoc → Prop
  | .docSet r => r.tag = d ∧ (L ≠ [] → IsMap d L s r)
  | .docPut r => r.tag = d ∧ Cells d (L ++ [op]) (s.mem.docCells r)
  | .sendD r => r.tag = d ∧ s.cache.val d = some r ∧ Cells d (L ++ [op]) (s.mem.docCells r)
  | _ => Full d L s

/-- inside GetFields. -/
def RPos (d : String) (L : List StoreOp) (s : CDisk) (ids : List String) (name : String) : RLoc → Prop
  | .get todo out => d ∈ ids → d ∉ todo → Has d L name out
  | .field id r todo out => (id = d → L ≠ [] → s.cache.val d = some r) ∧ (d ∈ ids → id ≠ d → d ∉ todo → Has d L name out)
  | .load id todo out => (id = d → L = []) ∧ (d ∈ ids → id ≠ d → d ∉ todo → Has d L name out)
  | .put id _ todo out => (id = d → L = []) ∧ (d ∈ ids → id ≠ d → d ∉ todo → Has d L name out)

/-- where the client that uses the document is. -/
def Pos (d : String) (L : List StoreOp) (s : CDisk) : Option DCur → Prop
  | none => Full d L s
  | some (.write op loc) => (onDoc d op = true → WPos d L s op loc) ∧ (onDoc d op = false → Full d L s)
  | some (.read ids name loc) => Full d L s ∧ RPos d L s ids name loc

/-- the step leaves document `d` alone. -/
structure Frame (d : String) (s s' : CDisk) : Prop where
  val : s'.cache.val d = s.cache.val d
  cells : ∀ r, r.tag = d → s'.mem.docCells r = s.mem.docCells r
  written : ∀ r, r.tag = d → Written d s.fl r (s.mem.docCells r) → Written d s'.fl r (s.mem.docCells r)

theorem IsMap.frame {d : String} {L : List StoreOp} {s s' : CDisk} {r : Ref String} (hf : Frame d s s') (h : IsMap d L s r) : IsMap d L s' r :=
  ⟨h.tag, hf.val ▸ h.val, by rw [hf.cells r h.tag]; exact h.cells, by rw [hf.cells r h.tag]; exact hf.written r h.tag h.written⟩

theorem Full.frame {d : String} {L : List StoreOp} {s s' : CDisk} (hf : Frame d s s') (h : Full d L s) : Full d L s' :=
  fun hl => let ⟨r, hr⟩ := h hl; ⟨r, hr.frame hf⟩

theorem WPos.frame {d : String} {L : List StoreOp} {s s' : CDisk} {op : StoreOp} {loc : WLoc} (hf : Frame d s s') (h : WPos d L s op loc) : WPos d L s' op loc := by
  cases loc with
  | docSet r => exact ⟨h.1, fun hl => (h.2 hl).frame hf⟩
  | docPut r => exact ⟨h.1, by rw [hf.cells r h.1]; exact h.2⟩
  | sendD r => exact ⟨h.1, hf.val ▸ h.2.1, by rw [hf.cells r h.1]; exact h.2.2⟩
  | _ => exact Full.frame hf h

theorem RPos.frame {d : String} {L : List StoreOp} {s s' : CDisk} {ids : List String} {name : String} {loc : RLoc} (hf : Frame d s s') (h : RPos d L s ids name loc) : RPos d L s' ids name loc := by
  cases loc with
  | field id r todo out => exact ⟨fun e hl => hf.val ▸ h.1 e hl, h.2⟩
  | _ => exact h

theorem Pos.frame {d : String} {L : List StoreOp} {s s' : CDisk} {cur : Option DCur} (hf : Frame d s s') (h : Pos d L s cur) : Pos d L s' cur := by
  match cur, h with
  | none, h => exact Full.frame hf h
  | some (.write op loc), h => exact ⟨fun e => (h.1 e).frame hf, fun e => Full.frame hf (h.2 e)⟩
  | some (.read ids name loc), h => exact ⟨Full.frame hf h.1, h.2.frame hf⟩

/-- the state of affairs while only client `c` uses document `d` and the cache has room for the documents `ks`. -/
structure OwnDoc (c : Nat) (d : String) (ks : List String) (s : CDisk) : Prop where
  room : (ks.toFinset.card : Int) ≤ s.cache.capacity
  keys : ∀ k v, s.cache.val k = some v → k ∈ ks
  uses : ∀ cl ∈ s.clients, ∀ k ∈ uses cl, k ∈ ks
  others : ∀ j cl, s.clients[j]? = some cl → j ≠ c → d ∉ CDisk.uses cl
  pos : ∀ cl, s.clients[c]? = some cl → Pos d (s.returned.filter (onDoc d)) s cl.cur

/-- a put of one of the documents evicts nothing. -/
theorem put_room {s : CDisk} {ks : List String} (hk : s.cache.Ok) (room : (ks.toFinset.card : Int) ≤ s.cache.capacity) (keys : ∀ k v, s.cache.val k = some v → k ∈ ks) {k : String}
    {r : Ref String} {c : LRU (Ref String)} (hm : k ∈ ks) (he : s.cache.put k r = some c) :
    c.capacity = s.cache.capacity ∧ c.val k = some r ∧ (∀ j, j ≠ k → c.val j = s.cache.val j) := by
  obtain ⟨-, h1, h2, h3 | ⟨h3, h4, -⟩⟩ := LRU.put_spec hk he
  · exact ⟨h1, h2, h3⟩
  · exfalso
    have hle := LRU.pages_le hk (ks.dedup.erase k) fun j v hj => by
      have hne : j ≠ k := fun e => by rw [e, h3] at hj; cases hj
      rw [List.mem_erase_of_ne hne, List.mem_dedup]; exact keys j v hj
    have hmem : k ∈ ks.dedup := List.mem_dedup.2 hm
    rw [List.length_erase_of_mem hmem] at hle
    have hpos : 0 < ks.dedup.length := List.length_pos_of_mem hmem
    rw [List.card_toFinset] at room
    omega

theorem cont_early {l : CMem.Loc} {o : Option CMem.Loc} {loc' : WLoc} (h : cont l o = some loc') {d : String} {L : List StoreOp} {s : CDisk} {op : StoreOp} (hf : Full d L s) : WPos d L s op loc' := by
  unfold cont at h
  split at h <;> first
    | (cases h; exact hf)
    | (obtain ⟨x, -, rfl⟩ := Option.map_eq_some_iff.1 h; exact hf)

theorem accReturn_update {m m' : CMem} {op : StoreOp} {k : Nat} {l : CMem.Loc} {o : Option CMem.Loc} (hl : diskLoc op l) (he : CMem.exec m op k l = some (m', o)) (hn : cont l o = none) :
    op.isSave = false := by
  cases Conc.exec_eff he with
  | postEnd r =>
    cases op with
    | save => cases hn
    | updateIndex => rfl
  | docFound => exact hl.elim
  | docMissing => exact hl.elim
  | docSet => exact hl.elim
  | docNew => exact hl.elim
  | _ => cases hn

theorem found_ne (out : GoMap String Field) {id d : String} (o : Option Field) (h : id ≠ d) : (found out id o).get? d = out.get? d := by
  cases o with
  | none => rfl
  | some f => exact GoMap.get?_set_ne _ _ h

theorem ownDoc_step {c : Nat} {d : String} {ks : List String} {s s' : CDisk} {a : Act} (hk : Ok s) (hdoc : DocsOk s) (hs : Step s a s') (hno : noOpen a = true) (hup : s'.up = true)
    (h : OwnDoc c d ks s) : OwnDoc c d ks s' := by
  have okc : ∀ {i : Nat} {cl : DClient} {x : DCur}, s.clients[i]? = some cl → cl.cur = some x → CurOk s.begun x := fun hi hc => hk.cur _ (List.mem_of_getElem? hi) _ hc
  -- what one client's step has to do
  have move : ∀ {i : Nat} {cl cl' : DClient}, s.clients[i]? = some cl → s'.clients = s.clients.set i cl' → (∀ k ∈ uses cl', k ∈ uses cl) →
      s'.cache.capacity = s.cache.capacity → (∀ k v, s'.cache.val k = some v → k ∈ ks) →
      (i ≠ c → Frame d s s' ∧ s'.returned.filter (onDoc d) = s.returned.filter (onDoc d)) →
      (i = c → Pos d (s.returned.filter (onDoc d)) s cl.cur → Pos d (s'.returned.filter (onDoc d)) s' cl'.cur) → OwnDoc c d ks s' := by
    intro i cl cl' hi e hsub hcap hkeys h2 h3
    have hlt : i < s.clients.length := (List.getElem?_eq_some_iff.1 hi).1
    have at' : ∀ {j : Nat} {x : DClient}, s'.clients[j]? = some x → (j = i ∧ x = cl') ∨ (j ≠ i ∧ s.clients[j]? = some x) := by
      intro j x hj
      rw [e] at hj
      by_cases hij : i = j
      · subst hij
        simp only [List.getElem?_set, if_true, hlt] at hj
        cases hj; exact .inl ⟨rfl, rfl⟩
      · rw [List.getElem?_set_ne hij] at hj; exact .inr ⟨Ne.symm hij, hj⟩
    refine ⟨hcap ▸ h.room, hkeys, fun x hx k hku => ?_, fun j x hj hjc => ?_, fun x hx => ?_⟩
    · rw [e] at hx
      rcases List.mem_or_eq_of_mem_set hx with hx | rfl
      · exact h.uses x hx k hku
      · exact h.uses cl (List.mem_of_getElem? hi) k (hsub k hku)
    · rcases at' hj with ⟨rfl, rfl⟩ | ⟨-, hj⟩
      · exact fun hd => h.others j cl hi hjc (hsub d hd)
      · exact h.others j x hj hjc
    · rcases at' hx with ⟨rfl, rfl⟩ | ⟨hci, hx⟩
      · exact h3 rfl (h.pos cl hi)
      · obtain ⟨h4, h5⟩ := h2 (Ne.symm hci)
        rw [h5]; exact (h.pos x hx).frame h4
  -- steps in which nothing about documents happens
  have still : ∀ {i : Nat} {cl cl' : DClient}, s.clients[i]? = some cl → s'.clients = s.clients.set i cl' → (∀ k ∈ uses cl', k ∈ uses cl) →
      s'.cache = s.cache → s'.mem.docCells = s.mem.docCells → s'.fl = s.fl → s'.returned.filter (onDoc d) = s.returned.filter (onDoc d) →
      (Pos d (s.returned.filter (onDoc d)) s cl.cur → Pos d (s.returned.filter (onDoc d)) s cl'.cur) → OwnDoc c d ks s' := by
    intro i cl cl' hi e hsub e1 e2 e3 e4 h3
    have fr : Frame d s s' := ⟨by rw [e1], fun _ _ => by rw [e2], fun r _ hr => by rw [e3]; exact hr⟩
    refine move hi e hsub (by rw [e1]) (by rw [e1]; exact h.keys) (fun _ => ⟨fr, e4⟩) fun _ hp => ?_
    rw [e4]; exact (h3 hp).frame fr
  -- what happens in the background
  have back : s'.clients = s.clients → s'.cache = s.cache → s'.mem.docCells = s.mem.docCells → s'.returned = s.returned →
      (∀ r, r.tag = d → Written d s.fl r (s.mem.docCells r) → Written d s'.fl r (s.mem.docCells r)) → OwnDoc c d ks s' := by
    intro e1 e2 e3 e4 e5
    have fr : Frame d s s' := ⟨by rw [e2], fun _ _ => by rw [e3], e5⟩
    refine ⟨by rw [e2]; exact h.room, by rw [e2]; exact h.keys, by rw [e1]; exact h.uses, by rw [e1]; exact h.others, fun cl hcl => ?_⟩
    rw [e1] at hcl; rw [e4]
    exact (h.pos cl hcl).frame fr
  have tail : ∀ {cl : DClient} {x : Option DCur}, (∀ k ∈ inCall x, k ∈ inCall cl.cur) → ∀ k ∈ uses { cl with cur := x }, k ∈ uses cl := by
    intro cl x hx k hku
    rcases List.mem_append.1 hku with hku | hku
    · exact List.mem_append_left _ (hx k hku)
    · exact List.mem_append_right _ hku
  have mine : ∀ {i : Nat} {cl : DClient} {op : StoreOp} {loc : WLoc}, s.clients[i]? = some cl → cl.cur = some (.write op loc) → op.isSave = true → op.doc ∈ uses cl := by
    intro i cl op loc hi hc hsv
    refine List.mem_append_left _ ?_
    rw [hc]
    cases op with
    | save => exact List.mem_singleton.2 rfl
    | updateIndex => cases hsv
  have mineR : ∀ {i : Nat} {cl : DClient} {ids : List String} {name : String} {loc : RLoc}, s.clients[i]? = some cl → cl.cur = some (.read ids name loc) → ∀ k ∈ ids, k ∈ uses cl := by
    intro i cl ids name loc hi hc k hkk
    refine List.mem_append_left _ ?_
    rw [hc]; exact hkk
  have notOn : ∀ {op : StoreOp}, op.doc ≠ d → onDoc d op = false := fun hne => by simp [onDoc, hne]
  have isOn : ∀ {op : StoreOp}, op.isSave = true → op.doc = d → onDoc d op = true := fun hsv he => by simp [onDoc, hsv, he]
  have getV : ∀ k, (s.cache.get k).1.capacity = s.cache.capacity ∧ ∀ j, (s.cache.get k).1.val j = s.cache.val j := fun k => ⟨(LRU.get_spec hk.lok k).2.2.1, (LRU.get_spec hk.lok k).2.1⟩
  have sameW : ∀ {op : StoreOp} {loc loc' : WLoc} {cl : DClient}, cl.cur = some (.write op loc) → ∀ k ∈ inCall (some (.write op loc')), k ∈ inCall cl.cur := by
    intro op loc loc' cl hc k hkk; rw [hc]; cases op <;> exact hkk
  have sameR : ∀ {ids : List String} {name : String} {loc loc' : RLoc} {cl : DClient}, cl.cur = some (.read ids name loc) → ∀ k ∈ inCall (some (.read ids name loc')), k ∈ inCall cl.cur := by
    intro ids name loc loc' cl hc k hkk; rw [hc]; exact hkk
  cases hs with
  | @beginWrite i k cl op rest hu hi hc ht =>
    refine still hi rfl ?_ rfl rfl rfl rfl ?_
    · intro k hkk
      simp only [uses, hc, inCall, ht, List.nil_append] at hkk ⊢
      cases op <;> exact hkk
    · rw [hc]; intro hp
      refine ⟨fun _ => ?_, fun _ => hp⟩
      cases op <;> exact hp
  | beginRead hu hi hc ht =>
    refine still hi rfl ?_ rfl rfl rfl rfl ?_
    · intro k hkk
      simp only [uses, hc, inCall, ht, List.nil_append] at hkk ⊢
      exact hkk
    · rw [hc]; intro hp
      exact ⟨hp, fun h1 h2 => absurd h1 h2⟩
  | acc hu hi hc he hn =>
    refine still hi rfl (tail (sameW hc)) rfl (doc_exec (okc hi hc).2.2 he) rfl rfl ?_
    rw [hc]; intro hp
    have hl := (okc hi hc).2.2
    have hfull : Full d (s.returned.filter (onDoc d)) s := by
      cases ho : onDoc d _ with
      | true => exact hp.1 ho
      | false => exact hp.2 ho
    exact ⟨fun _ => cont_early hn hfull, fun _ => hfull⟩
  | @accReturn i k cl op l m o hu hi hc he hn =>
    have hns := accReturn_update (okc hi hc).2.2 he hn
    have ho : onDoc d op = false := by simp [onDoc, hns]
    refine still hi rfl (tail fun k hkk => by cases hkk) rfl (doc_exec (okc hi hc).2.2 he) rfl (by simp [List.filter_append, ho]) ?_
    rw [hc]; intro hp; exact hp.2 ho
  | msgLen hu hi hc =>
    refine still hi rfl (tail (sameW hc)) rfl rfl rfl rfl ?_
    rw [hc]; exact id
  | msgSize hu hi hc =>
    refine still hi rfl (tail (sameW hc)) rfl rfl rfl rfl ?_
    rw [hc]; exact id
  | sendI hu hi hc he =>
    refine still hi rfl (tail (sameW hc)) rfl rfl rfl rfl ?_
    rw [hc]; exact id
  | msgN hu hi hc =>
    refine still hi rfl (tail (sameW hc)) rfl rfl rfl rfl ?_
    rw [hc]; exact id
  | recvM hi hc he =>
    refine still hi rfl (tail (sameW hc)) rfl rfl rfl rfl ?_
    rw [hc]; exact id
  | recvN hi hc he =>
    refine still hi rfl (tail (sameW hc)) rfl rfl rfl rfl ?_
    rw [hc]; exact id
  | @docHit i k cl op r hu hi hc hr =>
    have hg := getV op.doc
    have fr : Frame d s { s with cache := (s.cache.get op.doc).1, clients := s.clients.set i { cl with cur := some (.write op (.docSet r)) } } := ⟨hg.2 d, fun _ _ => rfl, fun _ _ => id⟩
    refine move hi rfl (tail (sameW hc)) hg.1 (fun k v hv => h.keys k v ((hg.2 k).symm.trans hv)) (fun _ => ⟨fr, rfl⟩) fun _ hp => ?_
    rw [hc] at hp
    refine Pos.frame fr ⟨fun ho => ⟨?_, fun hl => ?_⟩, hp.2⟩
    · simp only [onDoc, Bool.and_eq_true, decide_eq_true_eq] at ho
      rw [← ho.2]; exact hk.ctag _ _ hr
    · obtain ⟨r', hr'⟩ := hp.1 ho hl
      simp only [onDoc, Bool.and_eq_true, decide_eq_true_eq] at ho
      have : r = r' := by have := hr'.val; rw [← ho.2, hr] at this; exact Option.some.inj this
      rw [this]; exact hr'
  | @docMiss i k cl op hu hi hc hr =>
    have hg := getV op.doc
    have hsv : op.isSave = true := (okc hi hc).2
    by_cases hd : op.doc = d
    · refine move hi rfl (tail (sameW hc)) hg.1 (fun k v hv => h.keys k v ((hg.2 k).symm.trans hv)) (fun hne => ?_) fun _ hp => ?_
      · exact absurd (hd ▸ mine hi hc hsv) (h.others _ _ hi hne)
      · rw [hc] at hp
        have hl : s.returned.filter (onDoc d) = [] := by
          by_contra hl
          obtain ⟨r', hr'⟩ := hp.1 (isOn hsv hd) hl
          have := hr'.val; rw [← hd, hr] at this; cases this
        exact ⟨fun _ => ⟨hd, fun hl' => absurd hl hl'⟩, fun ho => by rw [isOn hsv hd] at ho; cases ho⟩
    · have fr : Frame d s { s with cache := (s.cache.get op.doc).1, mem := { s.mem with docCells := Ref.upd s.mem.docCells ⟨op.doc, s.mem.next⟩ [], next := s.mem.next + 1 }, clients := s.clients.set i { cl with cur := some (.write op (.docSet ⟨op.doc, s.mem.next⟩)) } } :=
        ⟨hg.2 d, fun r hr => Ref.upd_tag _ _ (by rw [hr]; exact Ne.symm hd), fun _ _ => id⟩
      refine move hi rfl (tail (sameW hc)) hg.1 (fun k v hv => h.keys k v ((hg.2 k).symm.trans hv)) (fun _ => ⟨fr, rfl⟩) fun _ hp => ?_
      rw [hc] at hp
      exact Pos.frame fr ⟨fun ho => (by rw [notOn hd] at ho; cases ho), hp.2⟩
  | @docSet i k cl op r hu hi hc =>
    obtain ⟨hsv, htag⟩ := (okc hi hc).2
    by_cases hd : op.doc = d
    · refine move hi rfl (tail (sameW hc)) rfl h.keys (fun hne => ?_) fun _ hp => ?_
      · exact absurd (hd ▸ mine hi hc hsv) (h.others _ _ hi hne)
      · rw [hc] at hp
        have hp := hp.1 (isOn hsv hd)
        refine ⟨fun _ => ⟨hp.1, ?_⟩, fun ho => by rw [isOn hsv hd] at ho; cases ho⟩
        intro name g hg
        show GoMap.get? (Ref.upd s.mem.docCells r _ r) name = some g
        rw [Ref.upd_self, GoMap.get?_set]
        have hg' : lastSaved (s.returned.filter (onDoc d) ++ [op]) d name = some g := hg
        rw [lastSaved_snoc _ (isOn hsv hd)] at hg'
        split at hg'
        · rename_i e; rw [if_pos e]; exact hg'
        · rename_i e; rw [if_neg e]
          by_cases hl : s.returned.filter (onDoc d) = []
          · rw [hl] at hg'; cases hg'
          · exact (hp.2 hl).cells name g hg'
    · have fr : Frame d s { s with mem := { s.mem with docCells := Ref.upd s.mem.docCells r ((s.mem.docCells r).set op.field.name op.field) }, clients := s.clients.set i { cl with cur := some (.write op (.docPut r)) } } :=
        ⟨rfl, fun r' hr => Ref.upd_tag _ _ (by rw [hr, htag]; exact Ne.symm hd), fun _ _ => id⟩
      refine move hi rfl (tail (sameW hc)) rfl h.keys (fun _ => ⟨fr, rfl⟩) fun _ hp => ?_
      rw [hc] at hp
      exact Pos.frame fr ⟨fun ho => (by rw [notOn hd] at ho; cases ho), hp.2⟩
  | @docPut i k cl op r c' hu hi hc he =>
    obtain ⟨hsv, htag⟩ := (okc hi hc).2
    obtain ⟨hcap, hv, hoth⟩ := put_room hk.lok h.room h.keys (h.uses _ (List.mem_of_getElem? hi) _ (mine hi hc hsv)) he
    have hkeys : ∀ k v, c'.val k = some v → k ∈ ks := by
      intro k v hkv
      by_cases e : k = op.doc
      · rw [e]; exact h.uses _ (List.mem_of_getElem? hi) _ (mine hi hc hsv)
      · rw [hoth k e] at hkv; exact h.keys k v hkv
    by_cases hd : op.doc = d
    · refine move hi rfl (tail (sameW hc)) hcap hkeys (fun hne => ?_) fun _ hp => ?_
      · exact absurd (hd ▸ mine hi hc hsv) (h.others _ _ hi hne)
      · rw [hc] at hp
        have hp := hp.1 (isOn hsv hd)
        exact ⟨fun _ => ⟨hp.1, hd ▸ hv, hp.2⟩, fun ho => by rw [isOn hsv hd] at ho; cases ho⟩
    · have fr : Frame d s { s with cache := c', clients := s.clients.set i { cl with cur := some (.write op (.sendD r)) } } := ⟨hoth d (Ne.symm hd), fun _ _ => rfl, fun _ _ => id⟩
      refine move hi rfl (tail (sameW hc)) hcap hkeys (fun _ => ⟨fr, rfl⟩) fun _ hp => ?_
      rw [hc] at hp
      exact Pos.frame fr ⟨fun ho => (by rw [notOn hd] at ho; cases ho), hp.2⟩
  | @recvD i cl op r fl hi hc he =>
    obtain ⟨hsv, htag⟩ := (okc hi hc).2
    obtain ⟨hidle, hfl⟩ := Flusher.recv_some he
    by_cases hd : op.doc = d
    · refine move hi rfl (tail fun k hkk => by cases hkk) rfl h.keys (fun hne => ?_) fun _ hp => ?_
      · exact absurd (hd ▸ mine hi hc hsv) (h.others _ _ hi hne)
      · rw [hc] at hp
        have hp := hp.1 (isOn hsv hd)
        show Full d ((s.returned ++ [op]).filter (onDoc d)) _
        have el : (s.returned ++ [op]).filter (onDoc d) = s.returned.filter (onDoc d) ++ [op] := by simp [List.filter_append, isOn hsv hd]
        rw [el]
        refine fun _ => ⟨r, hp.1, hp.2.1, hp.2.2, .inl ⟨?_, finv_recv (DcState.finv_idle hdoc.fin hidle) he⟩⟩
        show fl.buf.get? d = some r
        rw [hfl, ← hd]; exact GoMap.get?_set_self _ _ _
    · have fr : Frame d s { s with fl := fl, returned := s.returned ++ [op], clients := s.clients.set i { cl with cur := none } } := by
        refine ⟨rfl, fun _ _ => rfl, fun r' _ hw => ?_⟩
        have eb : fl.buf.get? d = s.fl.buf.get? d := by rw [hfl]; exact GoMap.get?_set_ne _ _ hd
        have ec : fl.cur d = s.fl.cur d := by rw [hfl]; rfl
        rcases hw with ⟨w1, w2⟩ | ⟨w1, w2⟩
        · exact .inl ⟨eb.trans w1, finv_recv w2 he⟩
        · exact .inr ⟨eb.trans w1, by rw [show Flusher.cur _ d = _ from ec]; exact w2⟩
      have el : (s.returned ++ [op]).filter (onDoc d) = s.returned.filter (onDoc d) := by simp [List.filter_append, notOn hd]
      refine move hi rfl (tail fun k hkk => by cases hkk) rfl h.keys (fun _ => ⟨fr, el⟩) fun _ hp => ?_
      rw [hc] at hp
      show Full d ((s.returned ++ [op]).filter (onDoc d)) _
      rw [el]; exact Full.frame fr (hp.2 (notOn hd))
  | readEnd hu hi hc =>
    refine still hi rfl (tail fun k hkk => by cases hkk) rfl rfl rfl rfl ?_
    rw [hc]; exact fun hp => hp.1
  | @readHit i k cl ids name id todo out r hu hi hc hr =>
    have hg := getV id
    have fr : Frame d s { s with cache := (s.cache.get id).1, clients := s.clients.set i { cl with cur := some (.read ids name (.field id r todo out)) } } := ⟨hg.2 d, fun _ _ => rfl, fun _ _ => _root_.id⟩
    refine move hi rfl (tail (sameR hc)) hg.1 (fun k v hv => h.keys k v ((hg.2 k).symm.trans hv)) (fun _ => ⟨fr, rfl⟩) fun _ hp => ?_
    rw [hc] at hp
    refine Pos.frame fr ⟨hp.1, fun e _ => e ▸ hr, fun h1 h2 h3 => hp.2 h1 fun h4 => ?_⟩
    rcases List.mem_cons.1 h4 with h4 | h4
    · exact h2 h4.symm
    · exact h3 h4
  | @readMiss i k cl ids name id todo out hu hi hc hr =>
    have hg := getV id
    have fr : Frame d s { s with cache := (s.cache.get id).1, clients := s.clients.set i { cl with cur := some (.read ids name (.load id todo out)) } } := ⟨hg.2 d, fun _ _ => rfl, fun _ _ => _root_.id⟩
    refine move hi rfl (tail (sameR hc)) hg.1 (fun k v hv => h.keys k v ((hg.2 k).symm.trans hv)) (fun _ => ⟨fr, rfl⟩) fun _ hp => ?_
    rw [hc] at hp
    refine Pos.frame fr ⟨hp.1, fun e => ?_, fun h1 h2 h3 => hp.2 h1 fun h4 => ?_⟩
    · by_contra hl
      obtain ⟨r', hr'⟩ := hp.1 hl
      have := hr'.val; rw [← e, hr] at this; cases this
    rcases List.mem_cons.1 h4 with h4 | h4
    · exact h2 h4.symm
    · exact h3 h4
  | @readField i k cl ids name id todo out r hu hi hc =>
    refine still hi rfl (tail (sameR hc)) rfl rfl rfl rfl ?_
    rw [hc]; intro hp
    refine ⟨hp.1, fun h1 h2 g hg => ?_⟩
    by_cases e : id = d
    · subst e
      by_cases hl : s.returned.filter (onDoc id) = []
      · rw [hl] at hg; cases hg
      · obtain ⟨r', hr'⟩ := hp.1 hl
        have hv := hp.2.1 rfl hl
        rw [hr'.val] at hv; cases hv
        rw [hr'.cells name g hg]
        exact GoMap.get?_set_self _ _ _
    · rw [found_ne _ _ e]; exact hp.2.2 h1 e h2 g hg
  | @readAbsent i k cl ids name id todo out hu hi hc hl =>
    refine still hi rfl (tail (sameR hc)) rfl rfl rfl rfl ?_
    rw [hc]; intro hp
    refine ⟨hp.1, fun h1 h2 g hg => ?_⟩
    by_cases e : id = d
    · rw [hp.2.1 e] at hg; cases hg
    · exact hp.2.2 h1 e h2 g hg
  | @readLoad i k cl ids name id todo out b fd hu hi hc hl hb =>
    have hmem := (okc hi hc).1
    by_cases e : id = d
    · refine move hi rfl (tail (sameR hc)) rfl h.keys (fun hne => ?_) fun _ hp => ?_
      · exact absurd (e ▸ mineR hi hc _ hmem) (h.others _ _ hi hne)
      · rw [hc] at hp
        have hl0 := hp.2.1 e
        exact ⟨fun hl' => absurd hl0 hl', fun _ => hl0, fun _ hne => absurd e hne⟩
    · have fr : Frame d s { s with mem := { s.mem with docCells := Ref.upd s.mem.docCells ⟨id, s.mem.next⟩ fd, next := s.mem.next + 1 }, clients := s.clients.set i { cl with cur := some (.read ids name (.put id ⟨id, s.mem.next⟩ todo (found out id (fd.get? name)))) } } :=
        ⟨rfl, fun r hr => Ref.upd_tag _ _ (by rw [hr]; exact Ne.symm e), fun _ _ => _root_.id⟩
      refine move hi rfl (tail (sameR hc)) rfl h.keys (fun _ => ⟨fr, rfl⟩) fun _ hp => ?_
      rw [hc] at hp
      exact Pos.frame fr ⟨hp.1, fun e' => absurd e' e, fun h1 h2 h3 g hg => by rw [found_ne _ _ e]; exact hp.2.2 h1 h2 h3 g hg⟩
  | @readPut i k cl ids name id todo out r c' hu hi hc he =>
    have hmem := (okc hi hc).2.1
    have hin := h.uses _ (List.mem_of_getElem? hi) _ (mineR hi hc _ hmem)
    obtain ⟨hcap, hv, hoth⟩ := put_room hk.lok h.room h.keys hin he
    have hkeys : ∀ k v, c'.val k = some v → k ∈ ks := by
      intro k v hkv
      by_cases e : k = id
      · rw [e]; exact hin
      · rw [hoth k e] at hkv; exact h.keys k v hkv
    by_cases e : id = d
    · refine move hi rfl (tail (sameR hc)) hcap hkeys (fun hne => ?_) fun _ hp => ?_
      · exact absurd (e ▸ mineR hi hc _ hmem) (h.others _ _ hi hne)
      · rw [hc] at hp
        have hl0 := hp.2.1 e
        exact ⟨fun hl' => absurd hl0 hl', fun _ _ g hg => by rw [show CDisk.returned _ = s.returned from rfl, hl0] at hg; cases hg⟩
    · have fr : Frame d s { s with cache := c', clients := s.clients.set i { cl with cur := some (.read ids name (.get todo out)) } } := ⟨hoth d (Ne.symm e), fun _ _ => rfl, fun _ _ => _root_.id⟩
      refine move hi rfl (tail (sameR hc)) hcap hkeys (fun _ => ⟨fr, rfl⟩) fun _ hp => ?_
      rw [hc] at hp
      exact Pos.frame fr ⟨hp.1, fun h1 h2 => hp.2.2 h1 e h2⟩
  | ix => exact back rfl rfl rfl rfl fun _ _ => id
  | ixDown => simp [stop] at hup
  | crash => simp [stop] at hup
  | open_ => exact back rfl rfl rfl rfl fun _ _ => id
  | openRest => cases hno
  | tickM => exact back rfl rfl rfl rfl fun _ _ => id
  | stepM => exact back rfl rfl rfl rfl fun _ _ => id
  | tickN => exact back rfl rfl rfl rfl fun _ _ => id
  | stepN => exact back rfl rfl rfl rfl fun _ _ => id
  | @tickD order fl hu he =>
    have e := (Flusher.tick_some he).2.2
    refine back rfl rfl rfl rfl fun r _ hw => ?_
    rcases hw with ⟨w1, w2⟩ | ⟨w1, w2⟩
    · exact .inl ⟨by rw [e]; exact w1, finv_tick w2 he⟩
    · exact .inr ⟨by rw [e]; exact w1, by rw [e]; exact w2⟩
  | @stepD fl he =>
    refine back rfl rfl rfl rfl fun r htag hw => ?_
    show Written d fl r (s.mem.docCells r)
    rcases hw with ⟨w1, w2⟩ | ⟨w1, b, w2, w3⟩
    · obtain ⟨h1, h2⟩ := step_spec_rel w2 (fun k r' b hr hb ek => by
        subst ek
        rw [w1] at hr; cases hr
        obtain ⟨b', e1, e2, e3⟩ := (hdoc.cell r).ser
        rw [e1] at hb; cases hb
        exact e2) he
      cases h2 with
      | same hb hcur => exact .inl ⟨by rw [hb]; exact w1, h1⟩
      | away k v hv hb hkn hcur hp => exact .inl ⟨by rw [hb]; exact w1, h1⟩
      | install k v b hv hs hb hki hcur => exact .inl ⟨by rw [hb]; exact w1, h1⟩
      | forget k v b hv hs hki hb hcur =>
        by_cases ek : k = d
        · subst ek
          exact .inr ⟨by rw [hb, GoMap.get?_del, if_pos rfl], b, (hcur k).trans hki, hs rfl⟩
        · exact .inl ⟨by rw [hb, GoMap.get?_del, if_neg ek]; exact w1, h1⟩
    · obtain ⟨h1, h2⟩ := step_spec_rel hdoc.fin (fun k r b hr hb => by
        obtain ⟨b', e1, e2, e3⟩ := (hdoc.cell r).ser
        rw [e1] at hb; cases hb
        exact ⟨_, e2, hk.btag k r hr ▸ e3⟩) he
      have ne : ∀ {k v}, s.fl.buf.get? k = some v → d ≠ k := fun hv e => by rw [← e, w1] at hv; cases hv
      cases h2 with
      | same hb hcur => exact .inr ⟨by rw [hb]; exact w1, b, (hcur d).trans w2, w3⟩
      | away k v hv hb hkn hcur hp => exact .inr ⟨by rw [hb]; exact w1, b, (hcur d (ne hv)).trans w2, w3⟩
      | install k v b' hv hs hb hki hcur => exact .inr ⟨by rw [hb]; exact w1, b, (hcur d (ne hv)).trans w2, w3⟩
      | forget k v b' hv hs hki hb hcur => exact .inr ⟨by rw [hb, GoMap.get?_del, if_neg (Ne.symm (ne hv))]; exact w1, b, (hcur d).trans w2, w3⟩

theorem written_noOpen {bs : List Act} (hb : ∀ b ∈ bs, noOpen b = true) : written bs = [] := by
  induction bs with
  | nil => rfl
  | cons b bs ih =>
    have := hb b List.mem_cons_self
    cases b with
    | openRest => cases this
    | _ => exact ih fun x hx => hb x (List.mem_cons_of_mem _ hx)

theorem ownDoc_run {c : Nat} {d : String} {as bs : List Act} {n : Int} {progs : List (List DOp)} {s₁ s : CDisk} (h1 : run {} (as ++ [.openRest n progs]) = some s₁)
    (gv : GoValues (written (as ++ [.openRest n progs]))) (ho : OneUser c d progs) (hroom : ((progs.flatMap touched).toFinset.card : Int) ≤ n)
    (hb : ∀ b ∈ bs, noOpen b = true) (h : s₁.run bs = some s) (hu : s.up = true) : OwnDoc c d (progs.flatMap touched) s := by
  induction bs using List.reverseRecOn generalizing s with
  | nil =>
    cases h
    obtain ⟨s₀, h2, h3⟩ := run_snoc.1 h1
    cases exec_step h3 with
    | openRest hp hu' hm hn =>
      have hoff := (ok_run h2).off hu'
      have use : ∀ p, CDisk.uses ({ todo := p } : DClient) = touched p := fun p => rfl
      refine ⟨hroom, fun k v hv => ?_, fun cl hcl k hk => ?_, fun j cl hj hjc => ?_, fun cl hcl => ?_⟩
      · rw [show LRU.val _ _ = none from LRU.val_new _ k] at hv; cases hv
      · obtain ⟨p, hp, rfl⟩ := List.mem_map.1 hcl
        rw [use] at hk
        exact List.mem_flatMap.2 ⟨p, hp, hk⟩
      · have hj : (progs.map fun p => ({ todo := p } : DClient))[j]? = some cl := hj
        rw [List.getElem?_map] at hj
        obtain ⟨p, hp, rfl⟩ := Option.map_eq_some_iff.1 hj
        rw [use]; exact ho j p hp hjc
      · obtain ⟨p, -, rfl⟩ := List.mem_map.1 (List.mem_of_getElem? hcl)
        show Full d (s₀.returned.filter (onDoc d)) _
        rw [hoff.returned]; exact fun hl => absurd rfl hl
  | append_singleton bs b ih =>
    obtain ⟨u, h2, h3⟩ := run_snoc.1 h
    have hrun : run {} (as ++ [.openRest n progs] ++ bs) = some u := by rw [run_append, h1]; exact h2
    have hs := exec_step h3
    have hnb := hb b (by simp)
    have hut := up_before hs hnb hu
    refine ownDoc_step (ok_run hrun) (docsOk_run hrun ?_) hs hnb hu (ih (fun x hx => hb x (by simp [hx])) h2 hut)
    intro op hop
    refine gv op ?_
    have := (hist_written hrun).1 op hop
    rwa [written_append, written_noOpen (bs := bs) fun x hx => hb x (by simp [hx]), List.append_nil] at this

end CDisk
end Goir
