import Verif.Lemmas.DiskBytesRel
/-!
# The store with bytes follows the store with objects: the clients
-/
namespace Goir
open GoMap

namespace CDisk

/-- `Step` is `exec`. -/
theorem step_exec {s s' : CDisk} {a : Act} (h : Step s a s') : s.exec a = some s' := by
  cases h with
  | beginWrite hu hi hc ht => simp [exec, client, hu, hi, hc, ht]
  | beginRead hu hi hc ht => simp [exec, client, hu, hi, hc, ht]
  | acc hu hi hc he hn => simp [exec, client, hu, hi, hc, wexec, he, hn, setCur]
  | accReturn hu hi hc he hn => simp [exec, client, hu, hi, hc, wexec, he, hn, setCur]
  | msgLen hu hi hc => simp [exec, client, hu, hi, hc, wexec, setCur]
  | msgSize hu hi hc => simp [exec, client, hu, hi, hc, wexec, setCur]
  | sendI hu hi hc he => simp [exec, client, hu, hi, hc, wexec, he, setCur]
  | msgN hu hi hc => simp [exec, client, hu, hi, hc, wexec, setCur]
  | @docHit i k cl op r hu hi hc hr =>
    have e : s.cache.get op.doc = ((s.cache.get op.doc).1, some r) := Prod.ext rfl hr
    rw [exec, if_pos hu]; simp only [client, hi, hc, wexec]; rw [e]; rfl
  | @docMiss i k cl op hu hi hc hr =>
    have e : s.cache.get op.doc = ((s.cache.get op.doc).1, none) := Prod.ext rfl hr
    rw [exec, if_pos hu]; simp only [client, hi, hc, wexec]; rw [e]; rfl
  | docSet hu hi hc => simp [exec, client, hu, hi, hc, wexec, setCur]
  | docPut hu hi hc he => simp [exec, client, hu, hi, hc, wexec, he, setCur]
  | readEnd hu hi hc => simp [exec, client, hu, hi, hc, rexec, setCur]
  | @readHit i k cl ids name id todo out r hu hi hc hr =>
    have e : s.cache.get id = ((s.cache.get id).1, some r) := Prod.ext rfl hr
    rw [exec, if_pos hu]; simp only [client, hi, hc, rexec]; rw [e]; rfl
  | @readMiss i k cl ids name id todo out hu hi hc hr =>
    have e : s.cache.get id = ((s.cache.get id).1, none) := Prod.ext rfl hr
    rw [exec, if_pos hu]; simp only [client, hi, hc, rexec]; rw [e]; rfl
  | readField hu hi hc => simp [exec, client, hu, hi, hc, rexec, setCur]
  | @readAbsent i k cl ids name id todo out hu hi hc hl =>
    have hl : (s.fl.file id).cur = none := hl
    simp [exec, client, hu, hi, hc, rexec, load, hl, setCur]
  | @readLoad i k cl ids name id todo out b fd hu hi hc hl hb =>
    have hl : (s.fl.file id).cur = some (.full b) := hl
    simp [exec, client, hu, hi, hc, rexec, load, hl, hb, setCur]
  | readPut hu hi hc he => simp [exec, client, hu, hi, hc, rexec, he, setCur]
  | recvM hi hc he => simp [exec, curOf, hi, hc, he, handoff, modify_eq_set _ hi]
  | recvN hi hc he => simp [exec, curOf, hi, hc, he, handoff, modify_eq_set _ hi]
  | recvD hi hc he => simp [exec, curOf, hi, hc, he, handoff, modify_eq_set _ hi]
  | ix hb hu he hp => simp [exec, hb, hu, he, hp]
  | ixDown hb hu he hp => simp [exec, hb, hu, he, hp]
  | tickM hu he => simp [exec, hu, he]
  | stepM he => simp [exec, he]
  | tickN hu he => simp [exec, hu, he]
  | stepN he => simp [exec, he]
  | tickD hu he => simp [exec, hu, he]
  | stepD he => simp [exec, he]
  | crash he => simp [exec, he]
  | open_ he => simp [exec, he]
  | openRest hp hu hm hn => simp [exec, hp, hu, hm, hn]

end CDisk

/-- the process ends. -/
theorem kill_rel {root : Path} {D : String → Prop} {fs : FS} {d a : CDisk} (hF : FRel root D fs (slots a) (temps a) a.ix.dirs.keys) (he : a.earlier = d.earlier) (hb : a.begun = d.begun)
    (hh : a.ix.hist = d.ix.hist) (hn : ∀ f n c, (temps a f).get? n = some c → PlainName n) : BRel root D { fs := fs, d := d.stop d.ix.killed } (a.stop a.ix.killed) where
  up := rfl
  mem := MemEq.refl _
  cache := rfl
  clients := rfl
  earlier := by show a.earlier ++ a.begun = d.earlier ++ d.begun; rw [he, hb]
  begun := rfl
  returned := rfl
  answers := rfl
  iproc := rfl
  imem := rfl
  ichan := rfl
  ibuf := rfl
  ihist := hh
  files := frel_ext hF fun σ => by cases σ <;> rfl
  uuids := hn
  mx := ⟨rfl, rfl⟩
  nf := ⟨rfl, rfl⟩
  fl := ⟨rfl, rfl⟩
  writer := rfl
  merger := rfl
  inDirs := fun _ h => by cases h

theorem crash_exec {a : CDisk} (h : a.ix.proc ≠ .down) : a.exec .crash = some (a.stop a.ix.killed) := by
  simp [CDisk.exec, IxState.exec, h]

section
variable {root : Path} {D : String → Prop} {s : BDisk} {a : CDisk}

/-- only the memory, the cache, the clients and the records change. -/
theorem BRel.core (h : BRel root D s a) {m m' : CMem} (hm : MemEq m m') (c : LRU (Ref String)) (cls : List DClient) (bg rt : List StoreOp) (an : List (List String × String × GoMap String Field)) :
    BRel root D { s with d := { s.d with mem := m, cache := c, clients := cls, begun := bg, returned := rt, answers := an } }
      { a with mem := m', cache := c, clients := cls, begun := bg, returned := rt, answers := an } where
  up := h.up
  mem := hm
  cache := rfl
  clients := rfl
  earlier := h.earlier
  begun := rfl
  returned := rfl
  answers := rfl
  iproc := h.iproc
  imem := h.imem
  ichan := h.ichan
  ibuf := h.ibuf
  ihist := h.ihist
  files := frel_ext h.files fun σ => by cases σ <;> rfl
  uuids := h.uuids
  mx := h.mx
  nf := h.nf
  fl := h.fl
  writer := h.writer
  merger := h.merger
  inDirs := h.inDirs

theorem BRel.core' (h : BRel root D s a) {m m' : CMem} (hm : MemEq m m') (c : LRU (Ref String)) (cls : List DClient) (bg rt : List StoreOp) (an : List (List String × String × GoMap String Field))
    {c' : LRU (Ref String)} {cls' : List DClient} {bg' rt' : List StoreOp} {an' : List (List String × String × GoMap String Field)} (e1 : c' = c) (e2 : cls' = cls) (e3 : bg' = bg) (e4 : rt' = rt) (e5 : an' = an) :
    BRel root D { s with d := { s.d with mem := m, cache := c, clients := cls, begun := bg, returned := rt, answers := an } }
      { a with mem := m', cache := c', clients := cls', begun := bg', returned := rt', answers := an' } := by
  subst e1 e2 e3 e4 e5
  exact h.core hm _ _ _ _ _

/-- a client's step that reads no file. -/
theorem client_sim (h : BRel root D s a) {i k : Nat} {d' : CDisk} (hl : ∀ ids name id todo out, s.d.curOf i ≠ some (.read ids name (.load id todo out)))
    (he : s.d.exec (.client i k) = some d') : ∃ a', a.exec (.client i k) = some a' ∧ BRel root D { s with d := d' } a' := by
  have hs := CDisk.exec_step he
  clear he
  have hi' : ∀ {j : Nat} {cl : DClient}, s.d.clients[j]? = some cl → a.clients[j]? = some cl := fun e => by rw [h.clients]; exact e
  have hu' : s.d.up = true → a.up = true := fun e => by rw [h.up]; exact e
  have ev : ∀ {x}, s.d.cache.val x = a.cache.val x := by rw [h.cache]; intro x; rfl
  cases hs with
  | beginWrite hu hi hc ht => exact ⟨_, CDisk.step_exec (.beginWrite (hu' hu) (hi' hi) hc ht), h.core' h.mem _ _ _ _ _ h.cache (by rw [h.clients]) (by rw [h.begun]) h.returned h.answers⟩
  | beginRead hu hi hc ht => exact ⟨_, CDisk.step_exec (.beginRead (hu' hu) (hi' hi) hc ht), h.core' h.mem _ _ _ _ _ h.cache (by rw [h.clients]) h.begun h.returned h.answers⟩
  | acc hu hi hc he hn =>
    obtain ⟨m1, e1, e2⟩ := h.mem.exec he
    exact ⟨_, CDisk.step_exec (.acc (hu' hu) (hi' hi) hc e1 hn), h.core' e2 _ _ _ _ _ h.cache (by rw [h.clients]) h.begun h.returned h.answers⟩
  | accReturn hu hi hc he hn =>
    obtain ⟨m1, e1, e2⟩ := h.mem.exec he
    exact ⟨_, CDisk.step_exec (.accReturn (hu' hu) (hi' hi) hc e1 hn), h.core' e2 _ _ _ _ _ h.cache (by rw [h.clients]) h.begun (by rw [h.returned]) h.answers⟩
  | msgLen hu hi hc =>
    exact ⟨_, CDisk.step_exec (.msgLen (hu' hu) (hi' hi) hc), h.core' h.mem _ _ _ _ _ h.cache (by rw [h.clients]; simp only [GoMap.getD, h.mem.fieldLength]) h.begun h.returned h.answers⟩
  | msgSize hu hi hc =>
    exact ⟨_, CDisk.step_exec (.msgSize (hu' hu) (hi' hi) hc), h.core' h.mem _ _ _ _ _ h.cache (by rw [h.clients]; simp only [GoMap.getD, h.mem.fieldSize]) h.begun h.returned h.answers⟩
  | @sendI _ _ cl op r key ts ix hu hi hc he =>
    simp only [IxState.exec] at he
    split at he
    · rename_i hg
      cases he
      have hg' : a.ix.proc = .up ∧ a.ix.chan.length < IxState.chanCap := by rw [h.iproc, h.ichan]; exact hg
      refine ⟨_, CDisk.step_exec (.sendI (hu' hu) (hi' hi) hc (by simp only [IxState.exec]; rw [if_pos hg'])), ?_⟩
      exact {
        up := h.up, mem := h.mem, cache := h.cache, clients := by simp only; rw [h.clients]
        earlier := h.earlier, begun := h.begun, returned := h.returned, answers := h.answers, iproc := h.iproc
        imem := by simp only; rw [h.imem]
        ichan := by simp only; rw [h.ichan]
        ibuf := h.ibuf
        ihist := by simp only; rw [h.ihist]
        files := frel_ext h.files fun σ => by cases σ <;> rfl
        uuids := h.uuids, mx := h.mx, nf := h.nf, fl := h.fl, writer := h.writer, merger := h.merger, inDirs := h.inDirs }
    · cases he
  | msgN hu hi hc =>
    exact ⟨_, CDisk.step_exec (.msgN (hu' hu) (hi' hi) hc), h.core' h.mem _ _ _ _ _ h.cache (by rw [h.clients]; simp only [h.mem.nftCells]) h.begun h.returned h.answers⟩
  | docHit hu hi hc hr =>
    exact ⟨_, CDisk.step_exec (.docHit (hu' hu) (hi' hi) hc (ev ▸ hr)), h.core' h.mem _ _ _ _ _ (by rw [h.cache]) (by rw [h.clients]) h.begun h.returned h.answers⟩
  | @docMiss _ _ cl op hu hi hc hr =>
    refine ⟨_, CDisk.step_exec (.docMiss (hu' hu) (hi' hi) hc (ev ▸ hr)), h.core' (m' := { a.mem with docCells := Ref.upd a.mem.docCells ⟨op.doc, a.mem.next⟩ [], next := a.mem.next + 1 }) ?_ _ _ _ _ _ (by rw [h.cache]) (by rw [h.clients, h.mem.next]) h.begun h.returned h.answers⟩
    exact ⟨h.mem.fieldDocument, by simp only; rw [h.mem.docCells, h.mem.next], h.mem.fieldSize, h.mem.fieldLength, h.mem.index, h.mem.idxCells, h.mem.setCells, h.mem.numberFieldTerm, h.mem.nftCells, by simp only; rw [h.mem.next]⟩
  | @docSet _ _ cl op r hu hi hc =>
    refine ⟨_, CDisk.step_exec (.docSet (hu' hu) (hi' hi) hc), h.core' (m' := { a.mem with docCells := Ref.upd a.mem.docCells r ((a.mem.docCells r).set op.field.name op.field) }) ?_ _ _ _ _ _ h.cache (by rw [h.clients]) h.begun h.returned h.answers⟩
    exact ⟨h.mem.fieldDocument, by simp only; rw [h.mem.docCells], h.mem.fieldSize, h.mem.fieldLength, h.mem.index, h.mem.idxCells, h.mem.setCells, h.mem.numberFieldTerm, h.mem.nftCells, h.mem.next⟩
  | docPut hu hi hc he =>
    exact ⟨_, CDisk.step_exec (.docPut (hu' hu) (hi' hi) hc (by rw [h.cache]; exact he)), h.core' h.mem _ _ _ _ _ rfl (by rw [h.clients]) h.begun h.returned h.answers⟩
  | readEnd hu hi hc => exact ⟨_, CDisk.step_exec (.readEnd (hu' hu) (hi' hi) hc), h.core' h.mem _ _ _ _ _ h.cache (by rw [h.clients]) h.begun h.returned (by rw [h.answers])⟩
  | readHit hu hi hc hr =>
    exact ⟨_, CDisk.step_exec (.readHit (hu' hu) (hi' hi) hc (ev ▸ hr)), h.core' h.mem _ _ _ _ _ (by rw [h.cache]) (by rw [h.clients]) h.begun h.returned h.answers⟩
  | readMiss hu hi hc hr =>
    exact ⟨_, CDisk.step_exec (.readMiss (hu' hu) (hi' hi) hc (ev ▸ hr)), h.core' h.mem _ _ _ _ _ (by rw [h.cache]) (by rw [h.clients]) h.begun h.returned h.answers⟩
  | readField hu hi hc =>
    exact ⟨_, CDisk.step_exec (.readField (hu' hu) (hi' hi) hc), h.core' h.mem _ _ _ _ _ h.cache (by rw [h.clients, h.mem.docCells]) h.begun h.returned h.answers⟩
  | readAbsent hu hi hc => exact absurd (show s.d.curOf i = _ by simp only [CDisk.curOf, hi, Option.bind_some]; exact hc) (hl _ _ _ _ _)
  | readLoad hu hi hc => exact absurd (show s.d.curOf i = _ by simp only [CDisk.curOf, hi, Option.bind_some]; exact hc) (hl _ _ _ _ _)
  | readPut hu hi hc he =>
    exact ⟨_, CDisk.step_exec (.readPut (hu' hu) (hi' hi) hc (by rw [h.cache]; exact he)), h.core' h.mem _ _ _ _ _ rfl (by rw [h.clients]) h.begun h.returned h.answers⟩

/-- GetFields reads a file. -/
theorem readDoc_sim (h : BRel root D s a) (hi : AInv D a) (hD : Ids D) {i k : Nat} {ids : List String} {name id : String} {todo : List String} {out : GoMap String Field}
    (hu : s.d.up = true) (hc : s.d.curOf i = some (.read ids name (.load id todo out))) :
    ∃ b a', a.exec b = some a' ∧ BRel root D (s.readDoc root i ids name id todo out) a' ∧ (b = .client i k ∨ b = .crash) := by
  obtain ⟨cl, h1, h2⟩ := CDisk.curOf_some hc
  have h1' : a.clients[i]? = some cl := by rw [h.clients]; exact h1
  have hu' : a.up = true := by rw [h.up]; exact hu
  have hmem := List.mem_of_getElem? h1'
  have hid : D id := hi.names.rd cl hmem ids name _ h2 id ((hi.ok.cur cl hmem _ h2 : CDisk.RLocOk ids (.load id todo out)).1)
  have hr := (h.files.slot (.doc id) hid).cur
  have e0 : join (BDisk.docDir root) id = (Slot.doc id).dir root ++ [(Slot.doc id).name] := by
    unfold BDisk.docDir
    rw [join_plain (hD.plain id hid), join_plain (by decide), join_plain (by decide)]
    simp [Slot.dir, Slot.name]
  have ah : a.handoff i = fun x => { a with clients := a.clients.set i { cl with cur := x } } := by
    funext x; simp only [CDisk.handoff, CDisk.modify_eq_set _ h1']
  have sh : ∀ m x, CDisk.handoff { s.d with mem := m } i x = { s.d with mem := m, clients := s.d.clients.set i { cl with cur := x } } := by
    intro m x; simp only [CDisk.handoff, CDisk.modify_eq_set _ h1]
  have kill : ∃ b a', a.exec b = some a' ∧ BRel root D s.kill a' ∧ (b = .client i k ∨ b = .crash) :=
    ⟨.crash, _, crash_exec (by rw [hi.ok.proc hu']; exact fun e => by cases e), kill_rel h.files h.earlier h.begun h.ihist h.uuids, .inr rfl⟩
  unfold BDisk.readDoc BDisk.loadDoc FS.readFile
  rw [e0]
  have hA : slots a (.doc id) = a.fl.file id := rfl
  rw [hA] at hr
  match hcur : (a.fl.file id).cur, hnode : s.fs.get? ((Slot.doc id).dir root ++ [(Slot.doc id).name]), hr with
  | none, none, _ =>
    refine ⟨_, _, CDisk.step_exec (.readAbsent (k := k) hu' h1' h2 hcur), ?_, .inl rfl⟩
    have := h.core h.mem s.d.cache (s.d.clients.set i { cl with cur := some (.read ids name (.get todo out)) }) s.d.begun s.d.returned s.d.answers
    rw [← h.cache, ← h.clients, ← h.begun, ← h.returned, ← h.answers] at this
    simp only [sh s.d.mem]
    rw [← h.clients]
    simpa only [h.cache, h.begun, h.returned, h.answers] using this
  | some .torn, some (.file bs), hr =>
    have hr : Gzip.decompressData bs = none := hr
    simp only [BDisk.decodeFields, hr, Option.bind_none, Option.map_none]
    exact kill
  | some (.full b), some (.file bs), hr =>
    obtain ⟨raw, r1, r2⟩ := hr
    have r2 : FBB.deserializeFieldMap raw = deserializeFieldMap b := r2
    simp only [BDisk.decodeFields, r1, Option.bind_some, r2]
    cases hb : deserializeFieldMap b with
    | none => exact kill
    | some fd =>
      refine ⟨_, _, CDisk.step_exec (.readLoad (k := k) hu' h1' h2 hcur hb), ?_, .inl rfl⟩
      simp only [Option.map_some, sh]
      refine h.core' (m' := { a.mem with docCells := Ref.upd a.mem.docCells ⟨id, a.mem.next⟩ fd, next := a.mem.next + 1 }) ?_ _ _ _ _ _ h.cache (by rw [h.clients, h.mem.next]) h.begun h.returned h.answers
      exact ⟨h.mem.fieldDocument, by simp only; rw [h.mem.docCells, h.mem.next], h.mem.fieldSize, h.mem.fieldLength, h.mem.index, h.mem.idxCells, h.mem.setCells, h.mem.numberFieldTerm, h.mem.nftCells, by simp only; rw [h.mem.next]⟩

end
end Goir
