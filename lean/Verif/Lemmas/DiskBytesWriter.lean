import Verif.Lemmas.DiskBytesSimFlush
import Verif.Props.Gzip
/-!
# The store with bytes follows the store with objects: the index writer
-/
namespace Goir
open GoMap
open FRel (withDir)

theorem GoMap.set_self {K V : Type} [DecidableEq K] {m : GoMap K V} {k : K} {v : V} (h : m.get? k = some v) : m.set k v = m := by
  induction m with
  | nil => cases h
  | cons e m ih =>
    obtain ⟨k', v'⟩ := e
    simp only [GoMap.get?] at h
    simp only [GoMap.set]
    split at h
    · rename_i e; cases h; subst e; simp
    · rename_i e; rw [if_neg e, ih h]

theorem IsUuid.plain {s : String} (h : IsUuid s) : PlainName s := by
  refine ⟨h.2, ?_, ?_, ?_⟩ <;> (intro e; rw [e] at h; exact absurd h.1 (by decide))

theorem tempDir_eq {root : Path} {f : String} (h : FieldName f) : BDisk.tempDir root f = root ++ [f, "temp"] := by
  unfold BDisk.tempDir; rw [join_plain h.1, join_plain (by decide)]; simp

section
variable {root : Path} {D : String → Prop} {s : BDisk} {a : CDisk}

theorem quiet_one {act : CDisk.Act} (h : ∀ n progs, act ≠ .openRest n progs) : Quiet [act] := by
  intro b hb n progs
  simp only [List.mem_singleton] at hb
  subst hb; exact h n progs

theorem ix_exec {b : IxState.Act} {ix : IxState} (hb : Disk.ixBackground b = true) (hu : a.up = true ∨ a.ix.proc = .opening) (he : a.ix.exec b = some ix) (hp : ix.proc ≠ .down) :
    a.exec (.ix b) = some { a with ix := ix } := CDisk.step_exec (.ix hb hu he hp)

theorem live (h : BRel root D s a) (hi : AInv D a) (hg : s.d.up = true ∨ s.d.ix.proc = .opening) : (a.up = true ∨ a.ix.proc = .opening) ∧ a.ix.proc ≠ .down := by
  have hg : a.up = true ∨ a.ix.proc = .opening := by rw [h.up, h.iproc]; exact hg
  refine ⟨hg, ?_⟩
  rcases hg with e | e
  · rw [hi.ok.proc e]; exact fun e => by cases e
  · rw [e]; exact fun e => by cases e

theorem kill_sim (h : BRel root D s a) (hp : a.ix.proc ≠ .down) : ∃ bs a', a.run bs = some a' ∧ BRel root D s.kill a' ∧ Quiet bs :=
  ⟨_, _, run_one (crash_exec hp), kill_rel h.files h.earlier h.begun h.ihist h.uuids, quiet_one fun _ _ e => by cases e⟩

/-- the index writer receives, ticks, or ends its flush. -/
theorem ixloop_sim (h : BRel root D s a) (hi : AInv D a) {b : IxState.Act} (hb : b = .recv ∨ (∃ o, b = .tick o) ∨ b = .flushed) (hg : s.d.up = true ∨ s.d.ix.proc = .opening) {d' : CDisk}
    (he : s.d.exec (.ix b) = some d') : ∃ a', a.exec (.ix b) = some a' ∧ BRel root D { s with d := d' } a' := by
  obtain ⟨hg', hnd⟩ := live h hi hg
  have hnd' : s.d.ix.proc ≠ .down := by rw [← h.iproc]; exact hnd
  have hfr : ∀ {o : List (String × Postings)}, s.d.ix.writer = .idle ∨ s.d.ix.writer = .flushing o none → s.frag = none ∧ a.ix.writer = s.d.ix.writer := by
    intro o e
    have hw := h.writer
    cases hf : s.frag with
    | none => rw [hf] at hw; exact ⟨rfl, hw⟩
    | some x =>
      obtain ⟨bs, n⟩ := x
      rw [hf] at hw
      obtain ⟨f, p, rest, name, raw, b, e', _⟩ := hw
      rcases e with e | e <;> rw [e] at e' <;> cases e'
  have bg : Disk.ixBackground b = true := by rcases hb with rfl | ⟨o, rfl⟩ | rfl <;> rfl
  have hs := CDisk.exec_step he
  clear he
  have key : ∀ {ix : IxState}, s.d.ix.exec b = some ix → ix.proc = s.d.ix.proc ∧ ∃ aix, a.ix.exec b = some aix ∧ aix.proc = a.ix.proc ∧ BRel root D { s with d := { s.d with ix := ix } } { a with ix := aix } := by
    intro ix he
    rcases hb with rfl | ⟨o, rfl⟩ | rfl
    · simp only [IxState.exec] at he
      split at he
      · rename_i f t d rest hp hw hc
        cases he
        obtain ⟨f1, f2⟩ := hfr (o := []) (.inl hw)
        refine ⟨rfl, { a.ix with chan := rest, buf := IxState.bufAdd a.ix.buf f t d }, ?_, rfl, ?_⟩
        · simp only [IxState.exec, h.iproc, f2, h.ichan, hp, hw, hc]
        · exact { h with ichan := rfl, ibuf := by simp only; rw [h.ibuf] }
      · cases he
    · simp only [IxState.exec] at he
      split at he
      · rename_i hc
        cases he
        obtain ⟨f1, f2⟩ := hfr (o := []) (.inl hc.2.1)
        refine ⟨rfl, { a.ix with writer := .flushing o none }, ?_, rfl, ?_⟩
        · simp only [IxState.exec, h.iproc, f2, h.ibuf]; rw [if_pos hc]
        · exact { h with writer := by simp only [f1]; rfl }
      · cases he
    · simp only [IxState.exec] at he
      split at he
      · rename_i hw
        cases he
        obtain ⟨f1, f2⟩ := hfr (.inr hw)
        refine ⟨rfl, { a.ix with buf := [], writer := .idle }, ?_, rfl, ?_⟩
        · simp only [IxState.exec, f2, hw]
        · exact { h with ibuf := rfl, writer := by simp only [f1]; rfl }
      · cases he
  cases hs with
  | ix _ _ he _ =>
    obtain ⟨_, aix, e1, e2, e3⟩ := key he
    exact ⟨_, ix_exec bg hg' e1 (by rw [e2]; exact hnd), e3⟩
  | ixDown _ _ he hp =>
    obtain ⟨e, _⟩ := key he
    rw [e] at hp; exact absurd hp hnd'

/-- the index writer opens a fragment. -/
theorem create_sim (h : BRel root D s a) (hi : AInv D a) (hD : Ids D) {z : Bytes → Bytes} (hz : ∀ d, Spec.Gz.Written d (z d)) (hg : s.d.up = true ∨ s.d.ix.proc = .opening) {name : String} {s' : BDisk}
    (he : s.create z root name = some s') : ∃ bs a', a.run bs = some a' ∧ BRel root D s' a' ∧ Quiet bs := by
  obtain ⟨hg', hnd⟩ := live h hi hg
  unfold BDisk.create at he
  split at he
  · rename_i f p rest hw hfrag
    have haw : a.ix.writer = .flushing ((f, p) :: rest) none := by
      have := h.writer
      rw [hfrag] at this
      rw [← hw]; exact this
    have hf : FieldName f := hi.names.wr (f, p) (by rw [haw]; exact List.mem_cons_self)
    have hwo := hi.ok.ix.writer
    unfold IxState.WriterOk at hwo
    rw [haw] at hwo
    have hgood : Good p := hi.ok.ix.sane.buf _ (hwo.2.1 (f, p) List.mem_cons_self)
    obtain ⟨b, hb, hag⟩ := agI f p hgood
    cases hr : FBB.serializeIndex p with
    | none => rw [hr] at he; cases he; exact kill_sim h hnd
    | some raw =>
      rw [hr] at he
      simp only [tempDir_eq hf] at he
      obtain ⟨fs1, m1, m2, m3, m4⟩ := FRel.mkdir_temp hD h.files hf
      rw [m1] at he
      simp only at he
      split at he
      · rename_i hc
        have hc0 := hc
        have ej : join (root ++ [f, "temp"]) name = fragPath root f name := by rw [join_plain hc.1.plain]; simp [fragPath]
        rw [ej] at he hc
        have ec : FS.create fs1 (fragPath root f name) = some (GoMap.set fs1 (fragPath root f name) (.file [])) := by
          have e1 : (fragPath root f name).dropLast = root ++ [f, "temp"] := by
            have : fragPath root f name = (root ++ [f, "temp"]) ++ [name] := by simp [fragPath]
            rw [this, List.dropLast_concat]
          unfold FS.create
          rw [if_pos]
          exact ⟨by rw [e1]; simp [FS.isDir, m4], by rw [hc.2]; exact fun e => (by cases e), by simp [fragPath]⟩
        rw [ec] at he
        cases he
        have hw0 := hz raw
        have htorn : Gzip.decompressData [] = none := by
          have := Gzip.c117_truncated hw0 0 (Written.ne_nil hw0)
          simpa using this
        have hnone : (a.ix.files f).temp.get? name = none := ((m2.frag f name hf).none_iff).2 hc.2
        obtain ⟨g1, g2⟩ := FRel.frag_set (T' := fun g => if f = g then ((a.ix.files f).temp).set name .torn else temps a g) m2 hf (FRel.mem_withDir _ _) (n := name) (c := .torn) (bs := []) htorn
          (by simp [temps]) (fun g hg => by simp [Ne.symm hg])
        refine ⟨[.ix (.create name)], { a with ix := { a.ix.setFiles f { a.ix.files f with temp := (a.ix.files f).temp.set name .torn } with writer := .flushing ((f, p) :: rest) (some name) } }, ?_, ?_, quiet_one fun _ _ e => by cases e⟩
        · refine run_one (ix_exec rfl hg' ?_ hnd)
          simp only [IxState.exec, haw, hnone, if_true, hb]
        · have hk := m3.trans g2
          have e1 : temps { a with ix := { a.ix.setFiles f { a.ix.files f with temp := (a.ix.files f).temp.set name .torn } with writer := .flushing ((f, p) :: rest) (some name) } } =
              fun g => if f = g then ((a.ix.files f).temp).set name .torn else temps a g := by
            funext g
            show ((a.ix.setFiles f _).files g).temp = _
            rw [files_setFiles]
            split <;> rfl
          exact { h with
            files := by
              rw [e1]
              have e2 : (a.ix.setFiles f { a.ix.files f with temp := (a.ix.files f).temp.set name .torn }).dirs.keys = withDir a.ix.dirs.keys f := keys_mkdir _ _ _
              simp only [e2]
              refine frel_ext g1 fun σ => ?_
              cases σ with
              | ix g =>
                show ((a.ix.setFiles f _).files g).index = (a.ix.files g).index
                rw [files_setFiles]
                split
                · rename_i e; rw [e]
                · rfl
              | _ => rfl
            uuids := fun g m c hc => by
              rw [e1] at hc
              simp only at hc
              split at hc
              · rename_i e
                subst e
                rw [GoMap.get?_set] at hc
                split at hc
                · rename_i e'; subst e'; exact hc0.1.plain
                · exact h.uuids f m c hc
              · exact h.uuids g m c hc
            mx := h.mx.keep hk fun _ => id
            nf := h.nf.keep hk fun _ => id
            fl := h.fl.keep hk fun _ => id
            merger := h.merger.keep hk fun _ => id
            writer := ⟨f, p, rest, name, raw, b, rfl, hw0, hag raw hr, hb, Nat.zero_le _, by rw [if_pos (Written.ne_nil hw0)]⟩
            inDirs := fun g hg => by
              have e2 : (a.ix.setFiles f { a.ix.files f with temp := (a.ix.files f).temp.set name .torn }).dirs.keys = withDir a.ix.dirs.keys f := keys_mkdir _ _ _
              simp only [e2]
              exact FRel.subset_withDir _ _ _ (h.inDirs g hg) }
      · cases he
  · cases he

/-- the index writer writes a byte, or is done with the fragment. -/
theorem write_sim (h : BRel root D s a) (hi : AInv D a) (hg : s.d.up = true ∨ s.d.ix.proc = .opening) {s' : BDisk}
    (he : s.write root = some s') : ∃ bs a', a.run bs = some a' ∧ BRel root D s' a' ∧ Quiet bs := by
  obtain ⟨hg', hnd⟩ := live h hi hg
  unfold BDisk.write at he
  split at he
  · rename_i f p rest name bs n hw hfrag
    have hwr := h.writer
    rw [hfrag] at hwr
    obtain ⟨f', p', rest', name', raw, b, w1, w2, w3, w4, w5, w6⟩ := hwr
    rw [hw] at w1
    cases w1
    split at he
    · rename_i hn
      cases he
      rw [if_pos hn, hw] at w6
      have hwo := hi.ok.ix.writer
      unfold IxState.WriterOk at hwo
      rw [w6] at hwo
      obtain ⟨_, _, _, f', p', r', e, htorn⟩ := hwo
      cases e
      have hf : FieldName f := hi.names.wr (f, p) (by rw [w6]; exact List.mem_cons_self)
      have hnode := h.files.frag f name hf
      have htorn' : (temps a f).get? name = some .torn := htorn
      have hfk : f ∈ a.ix.dirs.keys := by
        by_contra hk
        rw [(h.files.absent f hk).2.2] at htorn'
        cases htorn'
      have hpl : join (BDisk.tempDir root f) name = fragPath root f name := by
        rw [tempDir_eq hf, join_plain (h.uuids f name _ htorn')]; simp [fragPath]
      rw [hpl]
      by_cases hlast : n + 1 < bs.length
      · obtain ⟨g1, g2⟩ := FRel.frag_set (T' := temps a) h.files hf hfk (n := name) (c := .torn) (bs := bs.take (n + 1)) (Gzip.c117_truncated w2 _ hlast)
          (GoMap.set_self htorn').symm (fun _ _ => rfl)
        refine ⟨[], a, rfl, ?_, fun _ h => by cases h⟩
        exact { h with
          files := g1
          mx := h.mx.keep g2 fun _ => id
          nf := h.nf.keep g2 fun _ => id
          fl := h.fl.keep g2 fun _ => id
          merger := h.merger.keep g2 fun _ => id
          writer := ⟨f, p, rest, name, raw, b, hw, w2, w3, w4, hlast.le, by rw [if_pos hlast, w6]; exact hw.symm⟩ }
      · have htake : bs.take (n + 1) = bs := List.take_of_length_le (by omega)
        obtain ⟨g1, g2⟩ := FRel.frag_set (T' := fun g => if f = g then ((a.ix.files f).temp).set name (.full b) else temps a g) h.files hf hfk (n := name) (c := .full b) (bs := bs.take (n + 1))
          (by rw [htake]; exact ⟨raw, Gzip.c117_round_trip w2, w3⟩) (by simp [temps]) (fun g hg => by simp [Ne.symm hg])
        refine ⟨[.ix .write], { a with ix := { a.ix.setFiles f { a.ix.files f with temp := (a.ix.files f).temp.set name (.full b) } with writer := .flushing rest none } }, ?_, ?_, quiet_one fun _ _ e => by cases e⟩
        · refine run_one (ix_exec rfl hg' ?_ hnd)
          simp only [IxState.exec, w6, w4]
        · have e2 : (a.ix.setFiles f { a.ix.files f with temp := (a.ix.files f).temp.set name (.full b) }).dirs.keys = a.ix.dirs.keys := by
            rw [keys_mkdir, FRel.withDir_of_mem hfk]
          have e1 : temps { a with ix := { a.ix.setFiles f { a.ix.files f with temp := (a.ix.files f).temp.set name (.full b) } with writer := .flushing rest none } } =
              fun g => if f = g then ((a.ix.files f).temp).set name (.full b) else temps a g := by
            funext g
            show ((a.ix.setFiles f _).files g).temp = _
            rw [files_setFiles]
            split <;> rfl
          exact { h with
            files := by
              rw [e1]
              simp only [e2]
              refine frel_ext g1 fun σ => ?_
              cases σ with
              | ix g =>
                show ((a.ix.setFiles f _).files g).index = (a.ix.files g).index
                rw [files_setFiles]
                split
                · rename_i e; rw [e]
                · rfl
              | _ => rfl
            uuids := fun g m c hc => by
              rw [e1] at hc
              simp only at hc
              split at hc
              · rename_i e
                subst e
                rw [GoMap.get?_set] at hc
                split at hc
                · rename_i e'; subst e'; exact h.uuids f name _ htorn'
                · exact h.uuids f m c hc
              · exact h.uuids g m c hc
            mx := h.mx.keep g2 fun _ => id
            nf := h.nf.keep g2 fun _ => id
            fl := h.fl.keep g2 fun _ => id
            merger := h.merger.keep g2 fun _ => id
            writer := ⟨f, p, rest, name, raw, b, hw, w2, w3, w4, by omega, by rw [if_neg hlast]⟩
            inDirs := fun g hg => by simp only [e2]; exact h.inDirs g hg }
    · rename_i hn
      cases he
      rw [if_neg hn] at w6
      exact ⟨[], a, rfl, { h with writer := w6 }, fun _ h => by cases h⟩
  · cases he

end
end Goir
