import Verif.Lemmas.DiskBytesClient
/-!
# The store with bytes follows the store with objects: the writers of counters and documents
-/
namespace Goir
open GoMap
open FRel (withDir)

section
variable {B : Type} {root : Path} {D : String → Prop} {mk : String → Slot} {fs : FS} {fl fl' afl : Flusher B} {sv : Option (SaveCall × SavePc)}

theorem FlRel.idle (h : FlRel root D mk fs fl sv afl) (hp : fl.pc = .idle) : sv = none ∧ afl.pc = .idle := by
  cases sv with
  | none => exact ⟨rfl, by rw [← hp]; exact h.pc⟩
  | some x =>
    obtain ⟨c, pc⟩ := x
    obtain ⟨k, rest, b, apc, h1, _⟩ := h.pc
    rw [hp] at h1; cases h1

theorem FlRel.recv (h : FlRel root D mk fs fl sv afl) {k : String} {p : Option B → B} (he : fl.recv k p = some fl') :
    ∃ afl', afl.recv k p = some afl' ∧ afl'.files = afl.files ∧ FlRel root D mk fs fl' sv afl' := by
  unfold Flusher.recv at he
  split at he
  · rename_i hp
    cases he
    obtain ⟨rfl, h2⟩ := h.idle hp
    refine ⟨{ afl with buf := afl.buf.set k (p (afl.buf.get? k)) }, by simp [Flusher.recv, h2], rfl, ⟨by simp only; rw [h.buf], ?_⟩⟩
    simp only [h2, hp]
  · cases he

theorem FlRel.tick (h : FlRel root D mk fs fl sv afl) {order : List String} (he : fl.tick order = some fl') :
    ∃ afl', afl.tick order = some afl' ∧ afl'.files = afl.files ∧ FlRel root D mk fs fl' sv afl' := by
  unfold Flusher.tick at he
  split at he
  · rename_i hp
    cases he
    obtain ⟨rfl, h2⟩ := h.idle hp.1
    refine ⟨{ afl with pc := .flushing order }, ?_, rfl, ⟨h.buf, rfl⟩⟩
    unfold Flusher.tick
    rw [if_pos ⟨h2, by rw [h.buf]; exact hp.2⟩]
  · cases he

end

section
variable {root : Path} {D : String → Prop} {s : BDisk} {a : CDisk}

theorem files_mx {mx : Flusher (Int × Int)} (e : mx.files = a.mx.files) (σ : Slot) (nf : Flusher (GoMap String Int)) (fl : Flusher (Ref String)) (e2 : nf.files = a.nf.files) (e3 : fl.files = a.fl.files) :
    slots { a with mx := mx, nf := nf, fl := fl } σ = slots a σ := by
  cases σ <;> simp [slots, Flusher.file, e, e2, e3]

/-- the loops change, the files do not. -/
theorem BRel.loops (h : BRel root D s a) {mx amx : Flusher (Int × Int)} {nf anf : Flusher (GoMap String Int)} {fl afl : Flusher (Ref String)}
    (hm : FlRel root D .mx s.fs mx s.saveM amx) (hn : FlRel root D .nf s.fs nf s.saveN anf) (hd : FlRel root D .doc s.fs fl s.saveD afl)
    (em : amx.files = a.mx.files) (en : anf.files = a.nf.files) (ed : afl.files = a.fl.files) (cls : List DClient) (rt : List StoreOp) {cls' : List DClient} {rt' : List StoreOp} (e1 : cls' = cls) (e2 : rt' = rt) :
    BRel root D { s with d := { s.d with mx := mx, nf := nf, fl := fl, clients := cls, returned := rt } } { a with mx := amx, nf := anf, fl := afl, clients := cls', returned := rt' } := by
  subst e1 e2
  exact {
    up := h.up, mem := h.mem, cache := h.cache, clients := rfl, earlier := h.earlier, begun := h.begun, returned := rfl, answers := h.answers
    iproc := h.iproc, imem := h.imem, ichan := h.ichan, ibuf := h.ibuf, ihist := h.ihist
    files := frel_ext h.files fun σ => by cases σ <;> simp [slots, Flusher.file, em, en, ed]
    uuids := h.uuids, mx := hm, nf := hn, fl := hd, writer := h.writer, merger := h.merger, inDirs := h.inDirs }

/-- a receive, or a ticker. -/
theorem loops_sim (h : BRel root D s a) {act : CDisk.Act} {d' : CDisk} (ha : (∃ i, act = .recvM i ∨ act = .recvN i ∨ act = .recvD i) ∨ ∃ o, act = .tickM o ∨ act = .tickN o ∨ act = .tickD o)
    (he : s.d.exec act = some d') : ∃ a', a.exec act = some a' ∧ BRel root D { s with d := d' } a' := by
  have hs := CDisk.exec_step he
  clear he
  have hi' : ∀ {j : Nat} {cl : DClient}, s.d.clients[j]? = some cl → a.clients[j]? = some cl := fun e => by rw [h.clients]; exact e
  have hu' : s.d.up = true → a.up = true := fun e => by rw [h.up]; exact e
  cases hs with
  | recvM hi hc he =>
    obtain ⟨x, e1, e2, e3⟩ := h.mx.recv he
    exact ⟨_, CDisk.step_exec (.recvM (hi' hi) hc e1), h.loops e3 h.nf h.fl e2 rfl rfl _ _ (by rw [h.clients]) h.returned⟩
  | recvN hi hc he =>
    obtain ⟨x, e1, e2, e3⟩ := h.nf.recv he
    exact ⟨_, CDisk.step_exec (.recvN (hi' hi) hc e1), h.loops h.mx e3 h.fl rfl e2 rfl _ _ (by rw [h.clients]) h.returned⟩
  | recvD hi hc he =>
    obtain ⟨x, e1, e2, e3⟩ := h.fl.recv he
    exact ⟨_, CDisk.step_exec (.recvD (hi' hi) hc e1), h.loops h.mx h.nf e3 rfl rfl e2 _ _ (by rw [h.clients]) (by rw [h.returned])⟩
  | tickM hu he =>
    obtain ⟨x, e1, e2, e3⟩ := h.mx.tick he
    exact ⟨_, CDisk.step_exec (.tickM (hu' hu) e1), h.loops e3 h.nf h.fl e2 rfl rfl _ _ h.clients h.returned⟩
  | tickN hu he =>
    obtain ⟨x, e1, e2, e3⟩ := h.nf.tick he
    exact ⟨_, CDisk.step_exec (.tickN (hu' hu) e1), h.loops h.mx e3 h.fl rfl e2 rfl _ _ h.clients h.returned⟩
  | tickD hu he =>
    obtain ⟨x, e1, e2, e3⟩ := h.fl.tick he
    exact ⟨_, CDisk.step_exec (.tickD (hu' hu) e1), h.loops h.mx h.nf e3 rfl rfl e2 _ _ h.clients h.returned⟩
  | _ => simp at ha


/-! ### the steps of the flushes -/

theorem FlRel.busy {B : Type} {mk : String → Slot} {fs fs' : FS} {fl afl : Flusher B} {sv : Option (SaveCall × SavePc)} {z : Bytes → Bytes} {dir : String → Path} {name : String → String}
    {ser : String → B → Option Bytes} {r : Option (Flusher B × Option (SaveCall × SavePc))} (h : FlRel root D mk fs fl sv afl) (he : BDisk.flush z dir name ser fs fl sv = some (fs', r)) : afl.pc ≠ .idle := by
  intro hp
  cases sv with
  | none =>
    have e : afl.pc = fl.pc := h.pc
    rw [hp] at e
    simp [BDisk.flush, ← e] at he
  | some x =>
    obtain ⟨c, pc⟩ := x
    obtain ⟨k, rest, b, apc, h1, h2, _⟩ := h.pc
    rw [hp] at h2; cases h2

theorem mkdir_exec (hu : a.up = true) (hp : a.ix.proc = .up) (k : String) : a.exec (.ix (.mkdir k)) = some { a with ix := a.ix.setFiles k (a.ix.files k) } := by
  simp [CDisk.exec, Disk.ixBackground, hu, IxState.exec, hp, IxState.setFiles]

theorem files_setFiles (x : IxState) (k f : String) (ff : FieldFiles) : (x.setFiles k ff).files f = if k = f then ff else x.files f := by
  simp only [IxState.files, IxState.setFiles, GoMap.get?_set]
  split <;> rfl

theorem files_mkdir (x : IxState) (k f : String) : (x.setFiles k (x.files k)).files f = x.files f := by
  rw [files_setFiles]; split
  · rename_i e; rw [e]
  · rfl

theorem keys_mkdir (x : IxState) (k : String) (ff : FieldFiles) : (x.setFiles k ff).dirs.keys = withDir x.dirs.keys k := by
  simp only [IxState.setFiles, GoMap.keys_set, withDir]

/-- the folder of a field is made. -/
theorem BRel.mkdir (h : BRel root D s a) {fs' : FS} {k : String} (hF : FRel root D fs' (slots a) (temps a) (withDir a.ix.dirs.keys k)) (hk : Keeps root D (fun _ => False) s.fs fs') :
    BRel root D { s with fs := fs' } { a with ix := a.ix.setFiles k (a.ix.files k) } where
  up := h.up
  mem := h.mem
  cache := h.cache
  clients := h.clients
  earlier := h.earlier
  begun := h.begun
  returned := h.returned
  answers := h.answers
  iproc := h.iproc
  imem := h.imem
  ichan := h.ichan
  ibuf := h.ibuf
  ihist := h.ihist
  files := by
    have e : ∀ σ, slots { a with ix := a.ix.setFiles k (a.ix.files k) } σ = slots a σ := by
      intro σ; cases σ <;> simp [slots, files_mkdir]
    have e2 : temps { a with ix := a.ix.setFiles k (a.ix.files k) } = temps a := by
      funext f; simp [temps, files_mkdir]
    rw [e2]
    simp only [keys_mkdir]
    exact frel_ext hF e
  uuids := fun f n c hc => h.uuids f n c (by rw [show temps { a with ix := a.ix.setFiles k (a.ix.files k) } f = temps a f by simp [temps, files_mkdir]] at hc; exact hc)
  mx := h.mx.keep hk fun _ => id
  nf := h.nf.keep hk fun _ => id
  fl := h.fl.keep hk fun _ => id
  writer := h.writer
  merger := h.merger.keep hk fun _ => id
  inDirs := fun f hf => by
    simp only [keys_mkdir]
    exact FRel.subset_withDir _ _ _ (h.inDirs f hf)

/-- the folder is made and nothing else changes, because it is there or is not a field's. -/
theorem BRel.mkdir' (h : BRel root D s a) {fs' : FS} (hF : FRel root D fs' (slots a) (temps a) a.ix.dirs.keys) (hk : Keeps root D (fun _ => False) s.fs fs') : BRel root D { s with fs := fs' } a :=
  { h with
    files := hF
    mx := h.mx.keep hk fun _ => id
    nf := h.nf.keep hk fun _ => id
    fl := h.fl.keep hk fun _ => id
    merger := h.merger.keep hk fun _ => id }

/-- no store is opened by these actions. -/
def Quiet (bs : List CDisk.Act) : Prop := ∀ b ∈ bs, ∀ n progs, b ≠ .openRest n progs

theorem run_one {act : CDisk.Act} {a' : CDisk} (h : a.exec act = some a') : a.run [act] = some a' := CDisk.run_cons.2 ⟨_, h, rfl⟩

theorem run_two {act act' : CDisk.Act} {a' a'' : CDisk} (h : a.exec act = some a') (h' : a'.exec act' = some a'') : a.run [act, act'] = some a'' :=
  CDisk.run_cons.2 ⟨_, h, run_one h'⟩

theorem stepM_sim (h : BRel root D s a) (hi : AInv D a) (hD : Ids D) {z : Bytes → Bytes} (hz : ∀ d, Spec.Gz.Written d (z d)) {s' : BDisk} (he : s.exec z root .stepM = some s') :
    ∃ bs a', a.run bs = some a' ∧ BRel root D s' a' ∧ Quiet bs := by
  unfold BDisk.exec at he
  obtain ⟨⟨fs', r⟩, hf, he⟩ := Option.map_eq_some_iff.1 he
  have hup : a.up = true := by
    by_contra hu
    exact h.mx.busy hf (hi.ok.off (by simpa using hu)).mx.2
  have hp := hi.ok.proc hup
  have out := flush_sim (mk := .mx) (mkK := fun k K => withDir K k) (aser := CtState.serM) hD hz (fun k hk => ⟨join_plain hk.1, rfl⟩)
    (fun k hk => by rw [join_plain hk.1]; exact FRel.mkdir_field hD h.files hk)
    (fun k f hk hd e => by
      have e : k = f := by rcases e with e | e <;> cases e; rfl
      subst e
      refine (h.files.mem_dirs k hk).2 ?_
      have hd : FS.isDir s.fs (root ++ [k]) = true := hd
      simpa [FS.isDir] using hd)
    h.mx h.files (fun _ => rfl) (fun k v hv => ⟨hi.names.mx k v hv, agM k v⟩) hf
  clear hf
  cases out with
  | dies k hk files =>
    cases he
    have e := mkdir_exec hup hp k
    refine ⟨_, _, run_two e (crash_exec (show a.ix.proc ≠ .down by rw [hp]; exact fun e => by cases e)), kill_rel (d := s.d) ?_ h.earlier h.begun h.ihist (fun f n c hc => h.uuids f n c (by rw [show temps { a with ix := a.ix.setFiles k (a.ix.files k) } f = temps a f by simp [temps, files_mkdir]] at hc; exact hc)), by intro b hb; simp at hb; rcases hb with rfl | rfl <;> intro _ _ e <;> cases e⟩
    have e : ∀ σ, slots { a with ix := a.ix.setFiles k (a.ix.files k) } σ = slots a σ := by
      intro σ; cases σ <;> simp [slots, files_mkdir]
    have e2 : temps { a with ix := a.ix.setFiles k (a.ix.files k) } = temps a := by
      funext f; simp [temps, files_mkdir]
    rw [e2]
    simp only [keys_mkdir]
    exact frel_ext files e
  | opens k hk files keeps step same rel =>
    cases he
    have hb := h.mkdir files keeps
    refine ⟨_, _, run_two (mkdir_exec hup hp k) (CDisk.step_exec (.stepM step)), ?_, by intro b hb; simp at hb; rcases hb with rfl | rfl <;> intro _ _ e <;> cases e⟩
    exact { hb with files := frel_ext hb.files (by intro σ; cases σ <;> simp [slots, Flusher.file, same]), mx := rel }
  | @goes fl' sv' afl' step files keeps rel =>
    cases he
    have hb : BRel root D { s with fs := fs', d := { s.d with mx := fl' }, saveM := sv' } { a with mx := afl' } :=
      { h with
        files := files _ (fun _ => rfl) (fun τ hτ => by cases τ <;> first | rfl | exact absurd rfl (hτ _))
        mx := rel
        nf := h.nf.keep keeps (fun _ e => by obtain ⟨_, e⟩ := e; cases e)
        fl := h.fl.keep keeps (fun _ e => by obtain ⟨_, e⟩ := e; cases e)
        merger := h.merger.keep keeps (fun _ e => by obtain ⟨_, e⟩ := e; cases e) }
    rcases step with rfl | step
    · exact ⟨[], _, rfl, hb, fun b hb => by cases hb⟩
    · exact ⟨_, _, run_one (CDisk.step_exec (.stepM step)), hb, by intro b hb; simp at hb; subst hb; intro _ _ e; cases e⟩

theorem stepN_sim (h : BRel root D s a) (hi : AInv D a) (hD : Ids D) {z : Bytes → Bytes} (hz : ∀ d, Spec.Gz.Written d (z d)) {s' : BDisk} (he : s.exec z root .stepN = some s') :
    ∃ bs a', a.run bs = some a' ∧ BRel root D s' a' ∧ Quiet bs := by
  unfold BDisk.exec at he
  obtain ⟨⟨fs', r⟩, hf, he⟩ := Option.map_eq_some_iff.1 he
  have hup : a.up = true := by
    by_contra hu
    exact h.nf.busy hf (hi.ok.off (by simpa using hu)).nf.2
  have hp := hi.ok.proc hup
  have out := flush_sim (mk := .nf) (mkK := fun k K => withDir K k) (aser := CtState.serN) hD hz (fun k hk => ⟨join_plain hk.1, rfl⟩)
    (fun k hk => by rw [join_plain hk.1]; exact FRel.mkdir_field hD h.files hk)
    (fun k f hk hd e => by
      have e : k = f := by rcases e with e | e <;> cases e; rfl
      subst e
      refine (h.files.mem_dirs k hk).2 ?_
      have hd : FS.isDir s.fs (root ++ [k]) = true := hd
      simpa [FS.isDir] using hd)
    h.nf h.files (fun _ => rfl) (fun k v hv => ⟨hi.names.nf k v hv, agN k v (hi.flush.wn k v hv)⟩) hf
  clear hf
  cases out with
  | dies k hk files =>
    cases he
    have e := mkdir_exec hup hp k
    refine ⟨_, _, run_two e (crash_exec (show a.ix.proc ≠ .down by rw [hp]; exact fun e => by cases e)), kill_rel (d := s.d) ?_ h.earlier h.begun h.ihist (fun f n c hc => h.uuids f n c (by rw [show temps { a with ix := a.ix.setFiles k (a.ix.files k) } f = temps a f by simp [temps, files_mkdir]] at hc; exact hc)), by intro b hb; simp at hb; rcases hb with rfl | rfl <;> intro _ _ e <;> cases e⟩
    have e : ∀ σ, slots { a with ix := a.ix.setFiles k (a.ix.files k) } σ = slots a σ := by
      intro σ; cases σ <;> simp [slots, files_mkdir]
    have e2 : temps { a with ix := a.ix.setFiles k (a.ix.files k) } = temps a := by
      funext f; simp [temps, files_mkdir]
    rw [e2]
    simp only [keys_mkdir]
    exact frel_ext files e
  | opens k hk files keeps step same rel =>
    cases he
    have hb := h.mkdir files keeps
    refine ⟨_, _, run_two (mkdir_exec hup hp k) (CDisk.step_exec (.stepN step)), ?_, by intro b hb; simp at hb; rcases hb with rfl | rfl <;> intro _ _ e <;> cases e⟩
    exact { hb with files := frel_ext hb.files (by intro σ; cases σ <;> simp [slots, Flusher.file, same]), nf := rel }
  | @goes fl' sv' afl' step files keeps rel =>
    cases he
    have hb : BRel root D { s with fs := fs', d := { s.d with nf := fl' }, saveN := sv' } { a with nf := afl' } :=
      { h with
        files := files _ (fun _ => rfl) (fun τ hτ => by cases τ <;> first | rfl | exact absurd rfl (hτ _))
        mx := h.mx.keep keeps (fun _ e => by obtain ⟨_, e⟩ := e; cases e)
        nf := rel
        fl := h.fl.keep keeps (fun _ e => by obtain ⟨_, e⟩ := e; cases e)
        merger := h.merger.keep keeps (fun _ e => by obtain ⟨_, e⟩ := e; cases e) }
    rcases step with rfl | step
    · exact ⟨[], _, rfl, hb, fun b hb => by cases hb⟩
    · exact ⟨_, _, run_one (CDisk.step_exec (.stepN step)), hb, by intro b hb; simp at hb; subst hb; intro _ _ e; cases e⟩

theorem stepD_sim (h : BRel root D s a) (hi : AInv D a) (hD : Ids D) {z : Bytes → Bytes} (hz : ∀ d, Spec.Gz.Written d (z d)) {s' : BDisk} (he : s.exec z root .stepD = some s') :
    ∃ bs a', a.run bs = some a' ∧ BRel root D s' a' ∧ Quiet bs := by
  unfold BDisk.exec at he
  obtain ⟨⟨fs', r⟩, hf, he⟩ := Option.map_eq_some_iff.1 he
  have hup : a.up = true := by
    by_contra hu
    exact h.fl.busy hf (hi.ok.off (by simpa using hu)).fl.2
  have hp := hi.ok.proc hup
  have out := flush_sim (mk := .doc) (mkK := fun _ K => K) (aser := fun _ r => serializeFieldMap (a.mem.docCells r)) hD hz
    (fun k hk => ⟨by unfold BDisk.docDir; rw [join_plain (by decide), join_plain (by decide)]; simp [Slot.dir], rfl⟩)
    (fun k hk => by
      have e : BDisk.docDir root = root ++ ["docs", "metrics"] := by unfold BDisk.docDir; rw [join_plain (by decide), join_plain (by decide)]; simp
      rw [e]; exact FRel.mkdir_docs hD h.files)
    (fun k f hk hd e => by rcases e with e | e <;> cases e)
    h.fl h.files (fun _ => rfl) (fun k v hv => ⟨hi.names.fl k v hv, by
      have hc := hi.docs.cell v
      rw [← h.mem.docCells]
      exact agD k _ hc.wf fun n f hf => (hc.src n f hf).1⟩) hf
  clear hf
  cases out with
  | dies k hk files =>
    cases he
    exact ⟨_, _, run_one (crash_exec (show a.ix.proc ≠ .down by rw [hp]; exact fun e => by cases e)), kill_rel files h.earlier h.begun h.ihist h.uuids, by intro b hb; simp at hb; subst hb; intro _ _ e; cases e⟩
  | opens k hk files keeps step same rel =>
    cases he
    have hb := h.mkdir' files keeps
    refine ⟨_, _, run_one (CDisk.step_exec (.stepD step)), ?_, by intro b hb; simp at hb; subst hb; intro _ _ e; cases e⟩
    exact { hb with files := frel_ext hb.files (by intro σ; cases σ <;> simp [slots, Flusher.file, same]), fl := rel }
  | @goes fl' sv' afl' step files keeps rel =>
    cases he
    have hb : BRel root D { s with fs := fs', d := { s.d with fl := fl' }, saveD := sv' } { a with fl := afl' } :=
      { h with
        files := files _ (fun _ => rfl) (fun τ hτ => by cases τ <;> first | rfl | exact absurd rfl (hτ _))
        mx := h.mx.keep keeps (fun _ e => by obtain ⟨_, e⟩ := e; cases e)
        nf := h.nf.keep keeps (fun _ e => by obtain ⟨_, e⟩ := e; cases e)
        fl := rel
        merger := h.merger.keep keeps (fun _ e => by obtain ⟨_, e⟩ := e; cases e) }
    rcases step with rfl | step
    · exact ⟨[], _, rfl, hb, fun b hb => by cases hb⟩
    · exact ⟨_, _, run_one (CDisk.step_exec (.stepD step)), hb, by intro b hb; simp at hb; subst hb; intro _ _ e; cases e⟩

end
end Goir
