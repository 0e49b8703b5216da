import Verif.Lemmas.Postings
/-! # Invariants of the disk index machine -/
namespace Goir.IxState
open GoMap

/-- a complete file with this content holds the posting. -/
def ContentHas (c : Option Content) (t d : String) : Prop :=
  ∃ b p, c = some (.full b) ∧ deserializeIndex b = some p ∧ hasPosting p t d = true

/-- a complete file that decodes to a good posting map. -/
def OkContent (c : Content) : Prop := ∃ b p, c = .full b ∧ deserializeIndex b = some p ∧ Good p

/-- the posting is in the map being installed while the index file is between its two renames. -/
def Window (s : IxState) (f t d : String) : Prop :=
  match s.merger with
  | .saving f' _ _ td _ _ .moved => f' = f ∧ hasPosting td t d = true
  | _ => False

/-- in the index file or in a complete fragment. -/
def OnDisk (s : IxState) (f t d : String) : Prop :=
  ContentHas (s.files f).index.cur t d ∨ ∃ n, ContentHas ((s.files f).temp.get? n) t d

/-- on disk, or in the rename window of the index file. -/
def Stored (s : IxState) (f t d : String) : Prop := OnDisk s f t d ∨ Window s f t d

theorem files_setFiles (s : IxState) (f : String) (ff : FieldFiles) (g : String) :
    (s.setFiles f ff).files g = if f = g then ff else s.files g := by
  unfold files setFiles; simp only [get?_set]; by_cases h : f = g <;> simp [h]

theorem contentHas_none (t d : String) : ¬ ContentHas none t d := by rintro ⟨b, p, h, _⟩; cases h
theorem contentHas_torn (t d : String) : ¬ ContentHas (some .torn) t d := by rintro ⟨b, p, h, _⟩; cases h
theorem contentHas_full {b : FB.Buf} {p : Postings} (h : deserializeIndex b = some p) (t d : String) :
    ContentHas (some (.full b)) t d ↔ hasPosting p t d = true := by
  constructor
  · rintro ⟨b', p', h1, h2, h3⟩; cases h1; rw [h] at h2; cases h2; exact h3
  · intro h'; exact ⟨b, p, rfl, h, h'⟩

/-- contents are decodable, posting maps are good. -/
structure Sane (s : IxState) : Prop where
  cur  : ∀ f c, (s.files f).index.cur = some c → OkContent c
  temp : ∀ f n c, (s.files f).temp.get? n = some c → c = .torn ∨ OkContent c
  mem  : Good2 s.mem
  bufw : s.buf.WF
  buf  : Good2 s.buf
  tempw : ∀ f, (s.files f).temp.WF

/-- the writer's part. -/
def WriterOk (s : IxState) : Prop :=
  match s.writer with
  | .idle => True
  | .flushing rest tn => s.proc = .up ∧ (∀ e ∈ rest, e ∈ s.buf) ∧
      (∀ e ∈ s.buf, e ∈ rest ∨ ∀ t d, hasPosting e.2 t d = true → Stored s e.1 t d) ∧
      (match tn with
       | none => True
       | some n => ∃ f p r, rest = (f, p) :: r ∧ (s.files f).temp.get? n = some .torn)

/-- the fragments in `ns` are complete. -/
def FullFrags (s : IxState) (f : String) (ns : List String) : Prop := ∀ n ∈ ns, ∃ b, (s.files f).temp.get? n = some (.full b)

/-- the posting is in the index file or one of the fragments `ns`. -/
def InUnion (s : IxState) (f : String) (ns : List String) (t d : String) : Prop :=
  ContentHas (s.files f).index.cur t d ∨ ∃ n ∈ ns, ContentHas ((s.files f).temp.get? n) t d

/-- the merge's part. -/
def MergerOk (s : IxState) : Prop :=
  match s.merger with
  | .idle => True
  | .dead => True
  | .atField _ acc => Good2 acc
  | .reading f _ seen toRead td acc => Good2 acc ∧ Good td ∧ FullFrags s f seen ∧ (seen ++ toRead).Nodup ∧
      (∀ n ∈ toRead, (s.files f).temp.get? n ≠ none) ∧
      ∀ t d, hasPosting td t d = true ↔ InUnion s f seen t d
  | .saving f _ ns td acc b pc => Good2 acc ∧ Good td ∧ FullFrags s f ns ∧ ns.Nodup ∧ deserializeIndex b = some td ∧
      (∀ n ∈ ns, ∀ t d, ContentHas ((s.files f).temp.get? n) t d → hasPosting td t d = true) ∧
      (match pc with
       | .start | .writing => ∀ t d, hasPosting td t d = true ↔ InUnion s f ns t d
       | .written => (∀ t d, hasPosting td t d = true ↔ InUnion s f ns t d) ∧ (s.files f).index.tmp = some (.full b)
       | .moved => (s.files f).index.cur = none ∧ (s.files f).index.tmp = some (.full b)
       | .installed | .done => (s.files f).index.cur = some (.full b))
  | .deleting f _ toDel acc => Good2 acc ∧ FullFrags s f toDel ∧ toDel.Nodup ∧
      ∀ n ∈ toDel, ∀ t d, ContentHas ((s.files f).temp.get? n) t d → ContentHas (s.files f).index.cur t d

/-- fields still to be processed by the merge, including the current one. -/
def remaining : MergePc → List String
  | .idle => []
  | .dead => []
  | .atField rest _ => rest
  | .reading f rest _ _ _ _ => f :: rest
  | .saving f rest _ _ _ _ _ => f :: rest
  | .deleting f rest _ _ => f :: rest

/-- the map the merge will return. -/
def accOf : MergePc → GoMap String Postings
  | .idle => []
  | .dead => []
  | .atField _ acc => acc
  | .reading _ _ _ _ _ acc => acc
  | .saving _ _ _ _ acc _ _ => acc
  | .deleting _ _ _ acc => acc

/-- while the store is being opened: only the merge runs, finished fields are in `acc`. -/
structure OpenOk (s : IxState) : Prop where
  chan : s.chan = []
  buf  : s.buf = []
  writer : s.writer = .idle
  mem : s.mem = []
  running : s.merger ≠ .idle ∧ s.merger ≠ .dead
  acc  : ∀ f t d, f ∉ remaining s.merger → (has2 (accOf s.merger) f t d ↔ Stored s f t d)
  nodup : (remaining s.merger).Nodup
  cur  : match s.merger with
    | .reading f _ seen toRead _ _ => ∀ n, (s.files f).temp.get? n ≠ none → n ∈ seen ++ toRead
    | .saving f _ ns td acc _ _ => (∀ n, (s.files f).temp.get? n ≠ none → n ∈ ns) ∧ acc.get? f = some td
    | .deleting f _ toDel acc => (∀ n, (s.files f).temp.get? n ≠ none → n ∈ toDel) ∧
        ∀ t d, has2 acc f t d ↔ ContentHas (s.files f).index.cur t d
    | _ => True

/-- while the process is not running. -/
structure DownOk (s : IxState) : Prop where
  chan : s.chan = []
  buf  : s.buf = []
  mem  : s.mem = []
  writer : s.writer = .idle
  merger : s.merger = .idle

/-- the invariant of every reachable state. -/
structure Inv (s : IxState) : Prop where
  sane   : Sane s
  writer : WriterOk s
  merger : MergerOk s
  dirs   : s.dirs.WF
  opening : s.proc = .opening → OpenOk s
  down   : s.proc = .down → DownOk s
  up     : s.proc = .up → ∀ f t d, has2 s.mem f t d ↔ Stored s f t d ∨ has2 s.buf f t d ∨ (f, t, d) ∈ s.chan
  histS  : ∀ f t d, Stored s f t d → (f, t, d) ∈ s.hist
  histB  : ∀ f t d, has2 s.buf f t d → (f, t, d) ∈ s.hist
  histC  : ∀ x ∈ s.chan, x ∈ s.hist

theorem not_window_of {s : IxState} (h : s.merger = .idle) (f t d : String) : ¬ Window s f t d := by
  unfold Window; rw [h]; exact id

/-- `Stored` only looks at the files and the merge. -/
theorem stored_congr {s s' : IxState} (hf : s'.files = s.files) (hm : s'.merger = s.merger) (f t d : String) :
    Stored s' f t d ↔ Stored s f t d := by
  unfold Stored OnDisk Window; rw [hf, hm]

theorem init_inv : Inv {} := by
  have hf : ∀ f, files {} f = {} := fun f => rfl
  refine ⟨⟨?_, ?_, Good2.nil, by simp, Good2.nil, fun f => by simp [hf]⟩, trivial, trivial, by simp, ?_, ?_, ?_, ?_, ?_, ?_⟩
  · intro f c h; simp [hf] at h
  · intro f n c h; simp [hf] at h
  · intro h; cases h
  · intro _; exact ⟨rfl, rfl, rfl, rfl, rfl⟩
  · intro h; cases h
  · rintro f t d ((h | ⟨n, h⟩) | h)
    · exact absurd h (contentHas_none _ _)
    · exact absurd h (contentHas_none _ _)
    · exact absurd h id
  · rintro f t d ⟨p, h, _⟩; simp at h
  · simp

theorem files_killed (s : IxState) : s.killed.files = s.files := rfl

/-- killing the process outside the rename window keeps everything stored; inside it may lose postings, never gain. -/
theorem stored_killed_imp {s : IxState} {f t d : String} (h : Stored s.killed f t d) : Stored s f t d := by
  rcases h with h | h
  · exact .inl h
  · exact absurd h (not_window_of rfl _ _ _)

theorem inv_killed {s : IxState} (h : Inv s) : Inv s.killed := by
  refine ⟨⟨h.sane.cur, h.sane.temp, Good2.nil, by simp [killed], Good2.nil, h.sane.tempw⟩, trivial, trivial, h.dirs, ?_, ?_, ?_, ?_, ?_, ?_⟩
  · intro hp; cases hp
  · intro _; exact ⟨rfl, rfl, rfl, rfl, rfl⟩
  · intro hp; cases hp
  · intro f t d hs; exact h.histS f t d (stored_killed_imp hs)
  · rintro f t d ⟨p, hp, _⟩; simp [killed] at hp
  · simp [killed]

theorem inv_panic {s : IxState} (h : Inv s) : Inv s.panic := by
  have := inv_killed h
  exact ⟨⟨this.sane.cur, this.sane.temp, this.sane.mem, this.sane.bufw, this.sane.buf, this.sane.tempw⟩, this.writer, this.merger, this.dirs,
    (fun h => by cases h), fun _ => ⟨rfl, rfl, rfl, rfl, rfl⟩, (fun h => by cases h), this.histS, this.histB, this.histC⟩

theorem stored_of_eq {s s' : IxState} (hd : s'.dirs = s.dirs) (hm : s'.merger = s.merger) (f t d : String) :
    Stored s' f t d ↔ Stored s f t d := by
  apply stored_congr _ hm
  funext g; unfold files; rw [hd]

/-- an action that leaves files and merge alone keeps the parts of the invariant about them. -/
theorem inv_of_same_files {s s' : IxState} (h : Inv s) (hd : s'.dirs = s.dirs) (hm : s'.merger = s.merger)
    (hp : s.proc = .up) (hp' : s'.proc = .up) (gm : Good2 s'.mem) (gbw : s'.buf.WF) (gb : Good2 s'.buf) (hw : WriterOk s')
    (hu : ∀ f t d, has2 s'.mem f t d ↔ Stored s f t d ∨ has2 s'.buf f t d ∨ (f, t, d) ∈ s'.chan)
    (hh : ∀ x ∈ s.hist, x ∈ s'.hist) (hb : ∀ f t d, has2 s'.buf f t d → (f, t, d) ∈ s'.hist)
    (hc : ∀ x ∈ s'.chan, x ∈ s'.hist) : Inv s' := by
  have hf : s'.files = s.files := by funext g; unfold files; rw [hd]
  refine ⟨⟨?_, ?_, gm, gbw, gb, by rw [hf]; exact h.sane.tempw⟩, hw, ?_, hd ▸ h.dirs, ?_, ?_, ?_, ?_, hb, hc⟩
  · rw [hf]; exact h.sane.cur
  · rw [hf]; exact h.sane.temp
  · have := h.merger
    unfold MergerOk FullFrags InUnion at *
    rw [hm, hf]; exact this
  · intro e; rw [hp'] at e; cases e
  · intro e; rw [hp'] at e; cases e
  · intro _ f t d; rw [stored_of_eq hd hm]; exact hu f t d
  · intro f t d hs; exact hh _ (h.histS _ _ _ ((stored_of_eq hd hm f t d).1 hs))

/-- the writer's part depends on files, merge, buffer and its own state only. -/
theorem writerOk_congr {s s' : IxState} (h : WriterOk s) (hd : s'.dirs = s.dirs) (hm : s'.merger = s.merger)
    (hw : s'.writer = s.writer) (hb : s'.buf = s.buf) (hp : s'.proc = s.proc) : WriterOk s' := by
  have hf : s'.files = s.files := by funext g; unfold files; rw [hd]
  have hst : ∀ f t d, Stored s' f t d ↔ Stored s f t d := stored_of_eq hd hm
  unfold WriterOk at *
  rw [hw, hb, hp, hf]
  simpa only [hst] using h

theorem exec_touch {s s' : IxState} {f : String} (h : Inv s) (he : s.exec (.touch f) = some s') : Inv s' := by
  simp only [exec] at he
  split at he
  · rename_i hp
    cases he
    have hm2 : ∀ f' t d, has2 (match s.mem.get? f with | some _ => s.mem | none => s.mem.set f []) f' t d ↔ has2 s.mem f' t d := by
      intro f' t d
      split
      · rfl
      · rename_i hn
        rw [has2_set]
        by_cases hff : f = f'
        · subst hff; simp [hasPosting_nil, has2, hn]
        · simp [hff]
    refine inv_of_same_files h rfl rfl hp hp ?_ h.sane.bufw h.sane.buf (writerOk_congr h.writer rfl rfl rfl rfl rfl) ?_
      (fun _ hx => hx) h.histB h.histC
    · show Good2 (match s.mem.get? f with | some _ => s.mem | none => s.mem.set f [])
      split
      · exact h.sane.mem
      · exact h.sane.mem.set f Good.nil
    · intro f' t d; exact (hm2 f' t d).trans (h.up hp f' t d)
  · cases he

theorem exec_post {s s' : IxState} {f t d : String} (h : Inv s) (he : s.exec (.post f t d) = some s') : Inv s' := by
  simp only [exec] at he
  split at he
  · rename_i hp
    cases he
    refine inv_of_same_files h rfl rfl hp.1 hp.1 ?_ h.sane.bufw h.sane.buf (writerOk_congr h.writer rfl rfl rfl rfl rfl) ?_ ?_ ?_ ?_
    · exact h.sane.mem.set f ((h.sane.mem.getD f).addPosting d t)
    · intro f' t' d'
      rw [has2_post, h.up hp.1]
      simp only [List.mem_append, List.mem_singleton, Prod.mk.injEq]
      grind
    · intro x hx; exact List.mem_append_left _ hx
    · intro f' t' d' hb; exact List.mem_append_left _ (h.histB _ _ _ hb)
    · intro x hx
      rcases List.mem_append.1 hx with hx | hx
      · exact List.mem_append_left _ (h.histC _ hx)
      · exact List.mem_append_right _ hx
  · cases he

theorem bufAdd_wf {m : GoMap String Postings} (h : m.WF) (f t d : String) : (bufAdd m f t d).WF := h.set _ _

theorem exec_recv {s s' : IxState} (h : Inv s) (he : s.exec .recv = some s') : Inv s' := by
  simp only [exec] at he
  split at he
  · rename_i f t d rest hp hw hc
    cases he
    refine inv_of_same_files h rfl rfl hp hp h.sane.mem (bufAdd_wf h.sane.bufw f t d) (h.sane.buf.bufAdd f t d) ?_ ?_ ?_ ?_ ?_
    · show WriterOk { s with chan := rest, buf := bufAdd s.buf f t d }
      unfold WriterOk; simp only [hw]
    · intro f' t' d'
      rw [h.up hp, has2_bufAdd, hc]
      simp only [List.mem_cons, Prod.mk.injEq]
      grind
    · exact fun _ hx => hx
    · intro f' t' d' hb
      rcases (has2_bufAdd _ _ _ _ _ _ _).1 hb with ⟨rfl, rfl, rfl⟩ | hb
      · exact h.histC _ (by simp [hc])
      · exact h.histB _ _ _ hb
    · intro x hx; exact h.histC _ (by simp [hc, hx])
  · cases he

theorem exec_tick {s s' : IxState} {o : List (String × Postings)} (h : Inv s) (he : s.exec (.tick o) = some s') : Inv s' := by
  simp only [exec] at he
  split at he
  · rename_i hp
    cases he
    refine inv_of_same_files h rfl rfl hp.1 hp.1 h.sane.mem h.sane.bufw h.sane.buf ?_ (h.up hp.1) (fun _ hx => hx) h.histB h.histC
    exact ⟨hp.1, fun e he => hp.2.2.mem_iff.1 he, fun e he => .inl (hp.2.2.mem_iff.2 he), trivial⟩
  · cases he

theorem exec_flushed {s s' : IxState} (h : Inv s) (he : s.exec .flushed = some s') : Inv s' := by
  simp only [exec] at he
  split at he
  · rename_i hw
    cases he
    have hwo := h.writer
    unfold WriterOk at hwo
    rw [hw] at hwo
    obtain ⟨hp, -, hall, -⟩ := hwo
    refine inv_of_same_files h rfl rfl hp hp h.sane.mem (by simp) Good2.nil trivial ?_ (fun _ hx => hx) ?_ h.histC
    · intro f t d
      rw [h.up hp]
      have hb : has2 s.buf f t d → Stored s f t d := by
        intro hb
        obtain ⟨p, hp, hh⟩ := has2_mem hb
        rcases hall _ hp with hx | hx
        · cases hx
        · exact hx t d hh
      have hn : ¬ has2 [] f t d := by rintro ⟨p, hp, _⟩; simp at hp
      constructor
      · rintro (h1 | h1 | h1)
        · exact .inl h1
        · exact .inl (hb h1)
        · exact .inr (.inr h1)
      · rintro (h1 | h1 | h1)
        · exact .inl h1
        · exact absurd h1 hn
        · exact .inr (.inr h1)
    · rintro f t d ⟨p, hp, _⟩; simp at hp
  · cases he

theorem exec_crash {s s' : IxState} (h : Inv s) (he : s.exec .crash = some s') : Inv s' := by
  simp only [exec] at he
  split at he
  · cases he
  · cases he; exact inv_killed h

/-- `Stored` when the merge is not in the window. -/
theorem stored_iff_onDisk {s : IxState} (h : ∀ f t d, ¬ Window s f t d) (f t d : String) : Stored s f t d ↔ OnDisk s f t d :=
  ⟨fun hs => hs.resolve_right (h f t d), .inl⟩

/-- a change of the merge position only, neither before nor after in the window. -/
theorem inv_merger {s : IxState} (h : Inv s) (m : MergePc) (hw : ∀ f t d, ¬ Window s f t d)
    (hw' : ∀ f t d, ¬ Window { s with merger := m } f t d) (hm : MergerOk { s with merger := m })
    (ho : s.proc = .opening → OpenOk { s with merger := m }) (hnd : s.proc ≠ .down) : Inv { s with merger := m } := by
  have hst : ∀ f t d, Stored { s with merger := m } f t d ↔ Stored s f t d := by
    intro f t d
    rw [stored_iff_onDisk hw', stored_iff_onDisk hw]; rfl
  refine ⟨⟨h.sane.cur, h.sane.temp, h.sane.mem, h.sane.bufw, h.sane.buf, h.sane.tempw⟩, ?_, hm, h.dirs, ho, fun e => absurd e hnd, ?_, ?_, h.histB, h.histC⟩
  · have := h.writer
    unfold WriterOk at *
    split at this
    · rename_i he; simp only [he]
    · rename_i rest tn he
      simp only [he]
      exact ⟨this.1, this.2.1, fun e hb => (this.2.2.1 e hb).imp id fun g t d hh => (hst e.1 t d).2 (g t d hh), this.2.2.2⟩
  · intro hp f t d; rw [hst]; exact h.up hp f t d
  · intro f t d hs; exact h.histS f t d ((hst f t d).1 hs)

theorem exec_startMerge {s s' : IxState} (h : Inv s) (he : s.exec .startMerge = some s') : Inv s' := by
  simp only [exec] at he
  split at he
  · rename_i hp
    cases he
    refine inv_merger h _ (not_window_of hp.2) (fun _ _ _ => id) Good2.nil ?_ (by rw [hp.1]; decide)
    intro e; rw [hp.1] at e; cases e
  · cases he

theorem files_of_not_mem {s : IxState} {f : String} (h : f ∉ GoMap.keys s.dirs) : s.files f = {} := by
  unfold files; rw [(get?_eq_none_iff _ _).2 h]; rfl

theorem exec_open {s s' : IxState} (h : Inv s) (he : s.exec .open_ = some s') : Inv s' := by
  simp only [exec] at he
  split at he
  · rename_i hp
    cases he
    have hd := h.down hp
    have hst : ∀ f t d, Stored { s with proc := .opening, panicked := false, merger := .atField (GoMap.keys s.dirs) [] } f t d
        ↔ Stored s f t d := by
      intro f t d
      rw [stored_iff_onDisk (not_window_of hd.merger), stored_iff_onDisk (fun _ _ _ => id)]; rfl
    refine ⟨⟨h.sane.cur, h.sane.temp, h.sane.mem, h.sane.bufw, h.sane.buf, h.sane.tempw⟩, ?_, Good2.nil, h.dirs, ?_, ?_, ?_, ?_, h.histB, h.histC⟩
    · unfold WriterOk; simp only [hd.writer]
    · intro _
      refine ⟨hd.chan, hd.buf, hd.writer, hd.mem, ⟨by simp, by simp⟩, ?_, h.dirs, trivial⟩
      intro f t d hf
      constructor
      · rintro ⟨p, hp, _⟩; simp [accOf] at hp
      · intro hs
        have hf' : s.files f = {} := files_of_not_mem hf
        have hs' := (hst f t d).1 hs
        rcases hs' with (h1 | ⟨n, h1⟩) | h1
        · rw [hf'] at h1; exact absurd h1 (contentHas_none _ _)
        · rw [hf'] at h1; exact absurd h1 (contentHas_none _ _)
        · exact absurd h1 (not_window_of hd.merger _ _ _)
    · intro e; cases e
    · intro e; cases e
    · intro f t d hs; exact h.histS f t d ((hst f t d).1 hs)
  · cases he

/-- a fragment file changes: `n` was absent or incomplete. -/
structure FragChange (s s' : IxState) (f n : String) (c : Content) : Prop where
  was   : (s.files f).temp.get? n = none ∨ (s.files f).temp.get? n = some .torn
  files : ∀ g, s'.files g = if f = g then { s.files f with temp := (s.files f).temp.set n c } else s.files g
  merger : s'.merger = s.merger
  okc   : c = .torn ∨ OkContent c

namespace FragChange
variable {s s' : IxState} {f n : String} {c : Content}

theorem index (h : FragChange s s' f n c) (g : String) : (s'.files g).index = (s.files g).index := by
  rw [h.files]; split
  · rename_i e; subst e; rfl
  · rfl

theorem tempw (h : FragChange s s' f n c) (hw : ∀ g, (s.files g).temp.WF) (g : String) : (s'.files g).temp.WF := by
  rw [h.files]; split
  · exact (hw f).set n c
  · exact hw g

theorem temp (h : FragChange s s' f n c) (g m : String) :
    (s'.files g).temp.get? m = if f = g ∧ n = m then some c else (s.files g).temp.get? m := by
  rw [h.files]
  by_cases e : f = g
  · subst e; simp [get?_set]
  · simp [e]

/-- a fragment that was complete is still the same. -/
theorem temp_full (h : FragChange s s' f n c) {g m : String} {b : FB.Buf} (hb : (s.files g).temp.get? m = some (.full b)) :
    (s'.files g).temp.get? m = some (.full b) := by
  rw [h.temp, if_neg, hb]
  rintro ⟨rfl, rfl⟩
  rcases h.was with w | w <;> rw [w] at hb <;> cases hb

theorem temp_ne_none (h : FragChange s s' f n c) {g m : String} (hb : (s.files g).temp.get? m ≠ none) :
    (s'.files g).temp.get? m ≠ none := by
  rw [h.temp]; split
  · simp
  · exact hb

theorem contentHas (h : FragChange s s' f n c) (g m t d : String) :
    ContentHas ((s'.files g).temp.get? m) t d ↔
      ContentHas ((s.files g).temp.get? m) t d ∨ (f = g ∧ n = m ∧ ContentHas (some c) t d) := by
  rw [h.temp]
  by_cases e : f = g ∧ n = m
  · obtain ⟨rfl, rfl⟩ := e
    have : ¬ ContentHas ((s.files f).temp.get? n) t d := by
      rcases h.was with w | w <;> rw [w]
      · exact contentHas_none _ _
      · exact contentHas_torn _ _
    simp [this]
  · rw [if_neg e]
    constructor
    · exact .inl
    · rintro (h1 | ⟨h1, h2, _⟩)
      · exact h1
      · exact absurd ⟨h1, h2⟩ e

theorem window (h : FragChange s s' f n c) (g t d : String) : Window s' g t d ↔ Window s g t d := by
  unfold Window; rw [h.merger]

theorem stored (h : FragChange s s' f n c) (g t d : String) :
    Stored s' g t d ↔ Stored s g t d ∨ (f = g ∧ ContentHas (some c) t d) := by
  unfold Stored OnDisk
  rw [h.window, h.index]
  constructor
  · rintro ((h1 | ⟨m, h1⟩) | h1)
    · exact .inl (.inl (.inl h1))
    · rcases (h.contentHas _ _ _ _).1 h1 with h2 | ⟨e, _, h2⟩
      · exact .inl (.inl (.inr ⟨m, h2⟩))
      · exact .inr ⟨e, h2⟩
    · exact .inl (.inr h1)
  · rintro (((h1 | ⟨m, h1⟩) | h1) | ⟨e, h1⟩)
    · exact .inl (.inl h1)
    · exact .inl (.inr ⟨m, (h.contentHas _ _ _ _).2 (.inl h1)⟩)
    · exact .inr h1
    · exact .inl (.inr ⟨n, (h.contentHas _ _ _ _).2 (.inr ⟨e, rfl, h1⟩)⟩)

theorem contentHas_full (h : FragChange s s' f n c) {g m : String} {b : FB.Buf}
    (hb : (s.files g).temp.get? m = some (.full b)) (t d : String) :
    ContentHas ((s'.files g).temp.get? m) t d ↔ ContentHas ((s.files g).temp.get? m) t d := by
  rw [h.temp_full hb, hb]

theorem fullFrags (h : FragChange s s' f n c) {g : String} {ns : List String} (hf : FullFrags s g ns) : FullFrags s' g ns :=
  fun m hm => let ⟨b, hb⟩ := hf m hm; ⟨b, h.temp_full hb⟩

theorem inUnion (h : FragChange s s' f n c) {g : String} {ns : List String} (hf : FullFrags s g ns) (t d : String) :
    InUnion s' g ns t d ↔ InUnion s g ns t d := by
  unfold InUnion
  rw [h.index]
  constructor
  · rintro (h1 | ⟨m, hm, h1⟩)
    · exact .inl h1
    · obtain ⟨b, hb⟩ := hf m hm
      exact .inr ⟨m, hm, (h.contentHas_full hb _ _).1 h1⟩
  · rintro (h1 | ⟨m, hm, h1⟩)
    · exact .inl h1
    · obtain ⟨b, hb⟩ := hf m hm
      exact .inr ⟨m, hm, (h.contentHas_full hb _ _).2 h1⟩

theorem mergerOk (h : FragChange s s' f n c) (hm : MergerOk s) : MergerOk s' := by
  unfold MergerOk at *
  rw [h.merger]
  split at hm
  · trivial
  · trivial
  · exact hm
  · rename_i g _ seen toRead td acc _
    obtain ⟨h1, h2, h3, h4, h5, h6⟩ := hm
    exact ⟨h1, h2, h.fullFrags h3, h4, fun m hm => h.temp_ne_none (h5 m hm), fun t d => by rw [h.inUnion h3]; exact h6 t d⟩
  · rename_i g _ ns td acc b pc _
    obtain ⟨h1, h2, h3, h4, h5, h6, h7⟩ := hm
    refine ⟨h1, h2, h.fullFrags h3, h4, h5, ?_, ?_⟩
    · intro m hm t d hc
      obtain ⟨b', hb'⟩ := h3 m hm
      exact h6 m hm t d ((h.contentHas_full hb' _ _).1 hc)
    · have hu := fun t d => h.inUnion h3 t d
      simp only [hu, h.index]
      exact h7
  · rename_i g _ toDel acc _
    obtain ⟨h1, h3, h4, h6⟩ := hm
    refine ⟨h1, h.fullFrags h3, h4, ?_⟩
    intro m hm t d hc
    obtain ⟨b', hb'⟩ := h3 m hm
    rw [h.index]
    exact h6 m hm t d ((h.contentHas_full hb' _ _).1 hc)

theorem inv (h : FragChange s s' f n c) (hi : Inv s) (hp : s.proc = .up) (hp' : s'.proc = .up) (hmem : s'.mem = s.mem)
    (hbuf : s'.buf = s.buf) (hchan : s'.chan = s.chan) (hhist : s'.hist = s.hist) (hw : WriterOk s')
    (hd : s'.dirs.WF) (hc : ∀ t d, ContentHas (some c) t d → has2 s.buf f t d) : Inv s' := by
  refine ⟨⟨?_, ?_, hmem ▸ hi.sane.mem, hbuf ▸ hi.sane.bufw, hbuf ▸ hi.sane.buf, h.tempw hi.sane.tempw⟩, hw, h.mergerOk hi.merger, hd, ?_, ?_, ?_, ?_, ?_, ?_⟩
  · intro g c' hc'; rw [h.index] at hc'; exact hi.sane.cur g c' hc'
  · intro g m c' hc'
    rw [h.temp] at hc'
    split at hc'
    · cases hc'; exact h.okc
    · exact hi.sane.temp g m c' hc'
  · intro e; rw [hp'] at e; cases e
  · intro e; rw [hp'] at e; cases e
  · intro _ g t d
    rw [h.stored, hmem, hbuf, hchan, hi.up hp]
    constructor
    · rintro (h1 | h1 | h1)
      · exact .inl (.inl h1)
      · exact .inr (.inl h1)
      · exact .inr (.inr h1)
    · rintro ((h1 | ⟨rfl, h1⟩) | h1 | h1)
      · exact .inl h1
      · exact .inr (.inl (hc t d h1))
      · exact .inr (.inl h1)
      · exact .inr (.inr h1)
  · intro g t d hs
    rw [hhist]
    rcases (h.stored g t d).1 hs with h1 | ⟨rfl, h1⟩
    · exact hi.histS g t d h1
    · exact hi.histB _ t d (hc t d h1)
  · rw [hbuf, hhist]; exact hi.histB
  · rw [hchan, hhist]; exact hi.histC

end FragChange

theorem writerOk_flushing {s : IxState} {rest tn} (h : WriterOk s) (hw : s.writer = .flushing rest tn) :
    s.proc = .up ∧ (∀ e ∈ rest, e ∈ s.buf) ∧
      (∀ e ∈ s.buf, e ∈ rest ∨ ∀ t d, hasPosting e.2 t d = true → Stored s e.1 t d) ∧
      (∀ n, tn = some n → ∃ f p r, rest = (f, p) :: r ∧ (s.files f).temp.get? n = some .torn) := by
  unfold WriterOk at h; rw [hw] at h
  refine ⟨h.1, h.2.1, h.2.2.1, ?_⟩
  rintro n rfl
  exact h.2.2.2

theorem exec_create {s s' : IxState} {name : String} (h : Inv s) (he : s.exec (.create name) = some s') : Inv s' := by
  simp only [exec] at he
  split at he
  · rename_i f p rest hw
    obtain ⟨hp, hsub, hall, -⟩ := writerOk_flushing h.writer hw
    split at he
    · rename_i hn
      obtain ⟨b, hb, hdec⟩ := (h.sane.buf _ (hsub (f, p) (by simp))).readBack
      rw [hb] at he
      cases he
      have fc : FragChange s { s.setFiles f { s.files f with temp := (s.files f).temp.set name .torn } with
            writer := .flushing ((f, p) :: rest) (some name) } f name .torn :=
        ⟨.inl hn, fun g => files_setFiles _ _ _ _, rfl, .inl rfl⟩
      refine fc.inv h hp hp rfl rfl rfl rfl ?_ (h.dirs.set _ _) ?_
      · refine ⟨hp, hsub, ?_, f, p, rest, rfl, ?_⟩
        · intro e hb
          exact (hall e hb).imp id fun g t d hh => (fc.stored e.1 t d).2 (.inl (g t d hh))
        · rw [fc.temp, if_pos ⟨rfl, rfl⟩]
      · intro t d hc; exact absurd hc (contentHas_torn _ _)
    · cases he
  · cases he

theorem exec_write {s s' : IxState} (h : Inv s) (he : s.exec .write = some s') : Inv s' := by
  simp only [exec] at he
  split at he
  · rename_i f p rest name hw
    obtain ⟨hp, hsub, hall, hl⟩ := writerOk_flushing h.writer hw
    obtain ⟨f', p', r', hr, htorn⟩ := hl _ rfl
    simp only [List.cons.injEq, Prod.mk.injEq] at hr
    obtain ⟨⟨rfl, rfl⟩, rfl⟩ := hr
    have hmem := hsub (f, p) (by simp)
    have hgood := h.sane.buf _ hmem
    obtain ⟨b, hb, hdec⟩ := hgood.readBack
    rw [hb] at he
    cases he
    have fc : FragChange s { s.setFiles f { s.files f with temp := (s.files f).temp.set name (.full b) } with
          writer := .flushing rest none } f name (.full b) :=
      ⟨.inr htorn, fun g => files_setFiles _ _ _ _, rfl, .inr ⟨b, p, rfl, hdec, hgood⟩⟩
    have hget : s.buf.get? f = some p := get?_of_mem h.sane.bufw hmem
    refine fc.inv h hp hp rfl rfl rfl rfl ?_ (h.dirs.set _ _) ?_
    · refine ⟨hp, fun e he => hsub e (by simp [he]), ?_, trivial⟩
      intro e hb
      rcases hall e hb with h1 | h1
      · rcases List.mem_cons.1 h1 with rfl | h1
        · exact .inr fun t d hh => (fc.stored _ t d).2 (.inr ⟨rfl, (contentHas_full hdec t d).2 hh⟩)
        · exact .inl h1
      · exact .inr fun t d hh => (fc.stored e.1 t d).2 (.inl (h1 t d hh))
    · intro t d hc
      exact ⟨p, hget, (contentHas_full hdec t d).1 hc⟩
  · cases he

theorem exec_mkdir {s s' : IxState} {f : String} (h : Inv s) (he : s.exec (.mkdir f) = some s') : Inv s' := by
  simp only [exec] at he
  split at he
  · rename_i hp
    cases he
    have hf : (s.setFiles f (s.files f)).files = s.files := by
      funext g; rw [files_setFiles]; split
      · rename_i e; rw [e]
      · rfl
    have hst : ∀ g t d, Stored (s.setFiles f (s.files f)) g t d ↔ Stored s g t d := stored_congr hf rfl
    refine ⟨⟨?_, ?_, h.sane.mem, h.sane.bufw, h.sane.buf, by rw [hf]; exact h.sane.tempw⟩, ?_, ?_, h.dirs.set _ _, ?_, ?_, ?_, ?_, h.histB, h.histC⟩
    · rw [hf]; exact h.sane.cur
    · rw [hf]; exact h.sane.temp
    · have := h.writer
      unfold WriterOk at *
      have e : (s.setFiles f (s.files f)).writer = s.writer := rfl
      rw [e, hf]
      simp only [hst]
      exact this
    · have := h.merger
      unfold MergerOk FullFrags InUnion at *
      have e : (s.setFiles f (s.files f)).merger = s.merger := rfl
      rw [e, hf]; exact this
    · intro e; have : s.proc = .opening := e; rw [hp] at this; cases this
    · intro e; have : s.proc = .down := e; rw [hp] at this; cases this
    · intro _ g t d; rw [hst]; exact h.up hp g t d
    · intro g t d hs; exact h.histS g t d ((hst g t d).1 hs)
  · cases he

/-- a merge step that leaves the process alone and keeps what is stored. -/
theorem inv_merge_files {s s' : IxState} (h : Inv s) (hproc : s'.proc = s.proc) (hmem : s'.mem = s.mem) (hbuf : s'.buf = s.buf)
    (hchan : s'.chan = s.chan) (hwr : s'.writer = s.writer) (hhist : s'.hist = s.hist) (hnd : s.proc ≠ .down)
    (hd : s'.dirs.WF) (hst : ∀ f t d, Stored s' f t d ↔ Stored s f t d)
    (hcur : ∀ f c, (s'.files f).index.cur = some c → OkContent c)
    (htemp : ∀ f n c, (s'.files f).temp.get? n = some c → (s.files f).temp.get? n = some c)
    (htorn : ∀ f n, (s.files f).temp.get? n = some .torn → (s'.files f).temp.get? n = some .torn)
    (hm : MergerOk s') (ho : s.proc = .opening → OpenOk s') (htw : ∀ f, (s'.files f).temp.WF) : Inv s' := by
  refine ⟨⟨hcur, ?_, hmem ▸ h.sane.mem, hbuf ▸ h.sane.bufw, hbuf ▸ h.sane.buf, htw⟩, ?_, hm, hd, ?_, ?_, ?_, ?_, ?_, ?_⟩
  · intro f n c hc; exact h.sane.temp f n c (htemp f n c hc)
  · have := h.writer
    unfold WriterOk at *
    rw [hwr]
    split at this
    · trivial
    · obtain ⟨h1, h2, h3, h4⟩ := this
      rw [hproc, hbuf]
      refine ⟨h1, h2, ?_, ?_⟩
      · intro e he; exact (h3 e he).imp id fun g t d hh => (hst e.1 t d).2 (g t d hh)
      · split at h4
        · trivial
        · obtain ⟨f, p, r, hr, ht⟩ := h4
          exact ⟨f, p, r, hr, htorn _ _ ht⟩
  · rw [hproc]; exact ho
  · rw [hproc]; intro e; exact absurd e hnd
  · rw [hproc, hmem, hbuf, hchan]; intro e f t d; rw [hst]; exact h.up e f t d
  · rw [hhist]; intro f t d hs; exact h.histS f t d ((hst f t d).1 hs)
  · rw [hbuf, hhist]; exact h.histB
  · rw [hchan, hhist]; exact h.histC

theorem merger_running {s : IxState} (h : Inv s) (hm : s.merger ≠ .idle) : s.proc ≠ .down :=
  fun e => hm (h.down e).merger

theorem not_window_merger {s : IxState} {m : MergePc} (hm : s.merger = m)
    (h : ∀ f rest ns td acc b, m ≠ .saving f rest ns td acc b .moved) (f t d : String) : ¬ Window s f t d := by
  unfold Window; rw [hm]
  split
  · exact absurd rfl (h _ _ _ _ _ _)
  · exact id

theorem merge_finish {s s' : IxState} {acc} (h : Inv s) (hm : s.merger = .atField [] acc) (he : s.mergeStep = some s') :
    Inv s' ∧ ∀ f t d, Stored s' f t d ↔ Stored s f t d := by
  unfold mergeStep at he
  rw [hm] at he
  have hmo := h.merger
  unfold MergerOk at hmo
  rw [hm] at hmo
  have hw : ∀ f t d, ¬ Window s f t d := not_window_merger hm (by intros; simp)
  simp only at he
  split at he
  · rename_i hp
    cases he
    have ho := h.opening hp
    have hst : ∀ f t d, Stored { s with proc := .up, mem := acc, merger := .idle } f t d ↔ Stored s f t d := by
      intro f t d
      rw [stored_iff_onDisk hw, stored_iff_onDisk (fun _ _ _ => id)]; rfl
    refine ⟨⟨⟨h.sane.cur, h.sane.temp, hmo, h.sane.bufw, h.sane.buf, h.sane.tempw⟩, ?_, trivial, h.dirs, ?_, ?_, ?_, ?_, h.histB, h.histC⟩, hst⟩
    · unfold WriterOk; simp only [ho.writer]
    · intro e; cases e
    · intro e; cases e
    · intro _ f t d
      rw [hst]
      have := ho.acc f t d (by rw [hm]; simp [remaining])
      rw [hm] at this
      show has2 acc f t d ↔ _ ∨ has2 s.buf f t d ∨ _ ∈ s.chan
      rw [ho.buf, ho.chan]
      have hn : ¬ has2 [] f t d := by rintro ⟨p, hp, _⟩; simp at hp
      simp only [hn, List.not_mem_nil, or_false]
      exact this
    · intro f t d hs; exact h.histS f t d ((hst f t d).1 hs)
  · rename_i hp
    cases he
    refine ⟨inv_merger h .idle hw (fun _ _ _ => id) trivial (fun e => absurd e hp) (merger_running h (by simp [hm])), ?_⟩
    intro f t d
    rw [stored_iff_onDisk hw, stored_iff_onDisk (fun _ _ _ => id)]; rfl

/-- moving the merge between positions outside the window changes nothing stored. -/
theorem stored_merger {s : IxState} (m : MergePc) (hw : ∀ f t d, ¬ Window s f t d)
    (hw' : ∀ f t d, ¬ Window { s with merger := m } f t d) (f t d : String) : Stored { s with merger := m } f t d ↔ Stored s f t d := by
  rw [stored_iff_onDisk hw, stored_iff_onDisk hw']; rfl

/-- the first step for a field: the index file has been read. -/
theorem merge_readIndex {s s' : IxState} {f rest acc} (h : Inv s) (hm : s.merger = .atField (f :: rest) acc)
    (he : s.mergeStep = some s') : Inv s' ∧ s'.proc = s.proc ∧ ∀ f t d, Stored s' f t d ↔ Stored s f t d := by
  unfold mergeStep at he
  rw [hm] at he
  have hmo := h.merger
  unfold MergerOk at hmo
  rw [hm] at hmo
  have hw : ∀ f t d, ¬ Window s f t d := not_window_merger hm (by intros; simp)
  have hnd : (GoMap.keys (s.files f).temp).Nodup := h.sane.tempw f
  have key : ∀ td, Good td → (∀ t d, hasPosting td t d = true ↔ ContentHas (s.files f).index.cur t d) →
      Inv { s with merger := .reading f rest [] (GoMap.keys (s.files f).temp) td acc } ∧
      ∀ g t d, Stored { s with merger := .reading f rest [] (GoMap.keys (s.files f).temp) td acc } g t d ↔ Stored s g t d := by
    intro td hg hh
    have hst := stored_merger (s := s) (.reading f rest [] (GoMap.keys (s.files f).temp) td acc) hw (fun _ _ _ => id)
    refine ⟨?_, hst⟩
    refine inv_merger h _ hw (fun _ _ _ => id) ?_ ?_ (merger_running h (by simp [hm]))
    · refine ⟨hmo, hg, by simp [FullFrags], by simpa using hnd, ?_, ?_⟩
      · intro n hn; rw [Ne, get?_eq_none_iff]; exact fun hc => hc hn
      · intro t d; unfold InUnion; rw [hh]; simp; rfl
    · intro hp
      have ho := h.opening hp
      refine ⟨ho.chan, ho.buf, ho.writer, ho.mem, ⟨by simp, by simp⟩, ?_, ?_, ?_⟩
      · intro g t d hg
        rw [hst]
        have := ho.acc g t d (by rw [hm]; exact hg)
        rw [hm] at this
        exact this
      · have := ho.nodup; rw [hm] at this; exact this
      · intro n hn
        rw [Ne, get?_eq_none_iff, Classical.not_not] at hn
        exact hn
  simp only at he
  split at he
  · rename_i hc
    cases he
    obtain ⟨h1, h2⟩ := key [] Good.nil (by intro t d; rw [hc]; simp [hasPosting_nil, contentHas_none])
    exact ⟨h1, rfl, h2⟩
  · rename_i hc
    obtain ⟨b, p, hb, _⟩ := h.sane.cur _ _ hc
    cases hb
  · rename_i b hc
    obtain ⟨b', p, hb, hdec, hgood⟩ := h.sane.cur _ _ hc
    cases hb
    rw [hdec] at he
    cases he
    obtain ⟨h1, h2⟩ := key (loadPostings p) hgood.loadPostings (by
      intro t d; rw [hc, contentHas_full hdec, hasPosting_loadPostings p hgood.1])
    exact ⟨h1, rfl, h2⟩

/-- one fragment has been read. -/
theorem merge_readFrag {s s' : IxState} {f rest seen n ns td acc} (h : Inv s) (hm : s.merger = .reading f rest seen (n :: ns) td acc)
    (he : s.mergeStep = some s') :
    (Inv s' ∧ s'.proc = s.proc ∧ ∀ f t d, Stored s' f t d ↔ Stored s f t d) ∨
      (s' = s.panic ∧ (s.files f).temp.get? n = some .torn) := by
  unfold mergeStep at he
  rw [hm] at he
  have hmo := h.merger
  unfold MergerOk at hmo
  rw [hm] at hmo
  obtain ⟨g1, g2, g3, g4, g5, g6⟩ := hmo
  have hw : ∀ f t d, ¬ Window s f t d := not_window_merger hm (by intros; simp)
  simp only at he
  split at he
  · rename_i hc; exact absurd hc (g5 n (by simp))
  · rename_i hc; cases he; exact .inr ⟨rfl, hc⟩
  · rename_i b hc
    left
    obtain ⟨b', p, hb, hdec, hgood⟩ := (h.sane.temp _ _ _ hc).resolve_left (by simp)
    cases hb
    rw [hdec] at he
    cases he
    have hst := stored_merger (s := s) (.reading f rest (seen ++ [n]) ns (mergeInto td p) acc) hw (fun _ _ _ => id)
    refine ⟨inv_merger h _ hw (fun _ _ _ => id) ?_ ?_ (merger_running h (by simp [hm])), rfl, hst⟩
    · refine ⟨g1, g2.mergeInto hgood, ?_, by simpa using g4, fun m hm => g5 m (by simp [hm]), ?_⟩
      · intro m hm
        rcases List.mem_append.1 hm with hm | hm
        · exact g3 m hm
        · simp at hm; subst hm; exact ⟨b, hc⟩
      · intro t d
        rw [hasPosting_mergeInto _ _ hgood.1, Bool.or_eq_true, g6, ← contentHas_full hdec]
        unfold InUnion
        show (_ ∨ _) ∨ _ ↔ ContentHas (s.files f).index.cur t d ∨ ∃ m ∈ seen ++ [n], ContentHas ((s.files f).temp.get? m) t d
        constructor
        · rintro ((h1 | ⟨m, hm, h1⟩) | h1)
          · exact .inl h1
          · exact .inr ⟨m, by simp [hm], h1⟩
          · exact .inr ⟨n, by simp, hc ▸ h1⟩
        · rintro (h1 | ⟨m, hm, h1⟩)
          · exact .inl (.inl h1)
          · rcases List.mem_append.1 hm with hm | hm
            · exact .inl (.inr ⟨m, hm, h1⟩)
            · simp at hm; subst hm; exact .inr (hc ▸ h1)
    · intro hp
      have ho := h.opening hp
      refine ⟨ho.chan, ho.buf, ho.writer, ho.mem, ⟨by simp, by simp⟩, ?_, ?_, ?_⟩
      · intro g t d hg
        rw [hst]
        have := ho.acc g t d (by rw [hm]; exact hg)
        rw [hm] at this
        exact this
      · have := ho.nodup; rw [hm] at this; exact this
      · intro m hn
        have := ho.cur; rw [hm] at this
        simpa using this m hn

/-- all fragments have been read. -/
theorem merge_readDone {s s' : IxState} {f rest seen td acc} (h : Inv s) (hm : s.merger = .reading f rest seen [] td acc)
    (he : s.mergeStep = some s') : Inv s' ∧ s'.proc = s.proc ∧ ∀ f t d, Stored s' f t d ↔ Stored s f t d := by
  unfold mergeStep at he
  rw [hm] at he
  have hmo := h.merger
  unfold MergerOk at hmo
  rw [hm] at hmo
  obtain ⟨g1, g2, g3, g4, g5, g6⟩ := hmo
  have hw : ∀ f t d, ¬ Window s f t d := not_window_merger hm (by intros; simp)
  obtain ⟨b, hb, hdec⟩ := g2.readBack
  simp only [hb] at he
  cases he
  have hst := stored_merger (s := s) (.saving f rest seen td (acc.set f td) b .start) hw (fun _ _ _ => id)
  refine ⟨inv_merger h _ hw (fun _ _ _ => id) ?_ ?_ (merger_running h (by simp [hm])), rfl, hst⟩
  · refine ⟨g1.set f g2, g2, g3, by simpa using g4, hdec, ?_, g6⟩
    intro n hn t d hc
    exact (g6 t d).2 (.inr ⟨n, hn, hc⟩)
  · intro hp
    have ho := h.opening hp
    have hnd := ho.nodup
    rw [hm] at hnd
    refine ⟨ho.chan, ho.buf, ho.writer, ho.mem, ⟨by simp, by simp⟩, ?_, hnd, ?_⟩
    · intro g t d hg
      rw [hst]
      have := ho.acc g t d (by rw [hm]; exact hg)
      rw [hm] at this
      show has2 (acc.set f td) g t d ↔ _
      rw [has2_set]
      have hfg : f ≠ g := by rintro rfl; exact hg (by simp [remaining])
      simp [hfg]
      exact this
    · have := ho.cur; rw [hm] at this
      exact ⟨fun n hn => by simpa using this n hn, by simp⟩

/-- the merge is over for this field. -/
theorem merge_fieldDone {s s' : IxState} {f rest acc} (h : Inv s) (hm : s.merger = .deleting f rest [] acc)
    (he : s.mergeStep = some s') : Inv s' ∧ s'.proc = s.proc ∧ ∀ f t d, Stored s' f t d ↔ Stored s f t d := by
  unfold mergeStep at he
  rw [hm] at he
  have hmo := h.merger
  unfold MergerOk at hmo
  rw [hm] at hmo
  obtain ⟨g1, g2, g3, g4⟩ := hmo
  have hw : ∀ f t d, ¬ Window s f t d := not_window_merger hm (by intros; simp)
  cases he
  have hst := stored_merger (s := s) (.atField rest acc) hw (fun _ _ _ => id)
  refine ⟨inv_merger h _ hw (fun _ _ _ => id) g1 ?_ (merger_running h (by simp [hm])), rfl, hst⟩
  intro hp
  have ho := h.opening hp
  have hnd := ho.nodup
  rw [hm] at hnd
  refine ⟨ho.chan, ho.buf, ho.writer, ho.mem, ⟨by simp, by simp⟩, ?_, (List.nodup_cons.1 hnd).2, trivial⟩
  intro g t d hg
  rw [hst]
  by_cases hfg : g = f
  · subst hfg
    have := ho.cur; rw [hm] at this
    rw [stored_iff_onDisk hw]
    refine (this.2 t d).trans ?_
    unfold OnDisk
    refine ⟨.inl, fun h1 => ?_⟩
    rcases h1 with h1 | ⟨n, h1⟩
    · exact h1
    · have : n ∈ ([] : List String) := this.1 n (by obtain ⟨b, p, hb, _⟩ := h1; rw [hb]; simp)
      cases this
  · have := ho.acc g t d (by rw [hm]; simp only [remaining, List.mem_cons, not_or]; exact ⟨hfg, hg⟩)
    rw [hm] at this
    exact this

/-- one fragment has been deleted. -/
theorem merge_delete {s s' : IxState} {f rest n ns acc} (h : Inv s) (hm : s.merger = .deleting f rest (n :: ns) acc)
    (he : s.mergeStep = some s') : Inv s' ∧ s'.proc = s.proc ∧ ∀ f t d, Stored s' f t d ↔ Stored s f t d := by
  unfold mergeStep at he
  rw [hm] at he
  have hmo := h.merger
  unfold MergerOk at hmo
  rw [hm] at hmo
  obtain ⟨g1, g2, g3, g4⟩ := hmo
  have hw : ∀ f t d, ¬ Window s f t d := not_window_merger hm (by intros; simp)
  obtain ⟨b, hb⟩ := g2 n (by simp)
  simp only [hb] at he
  cases he
  generalize hs' : ({ s.setFiles f { s.files f with temp := (s.files f).temp.del n } with merger := .deleting f rest ns acc } : IxState) = s'
  have hf : ∀ g, s'.files g = if f = g then { s.files f with temp := (s.files f).temp.del n } else s.files g := by
    intro g; subst hs'; exact files_setFiles _ _ _ _
  have hi : ∀ g, (s'.files g).index = (s.files g).index := by
    intro g; rw [hf]; split
    · rename_i e; subst e; rfl
    · rfl
  have ht : ∀ g m, (s'.files g).temp.get? m = if f = g ∧ n = m then none else (s.files g).temp.get? m := by
    intro g m; rw [hf]
    by_cases e : f = g
    · subst e; simp [get?_del]
    · simp [e]
  have hm' : s'.merger = .deleting f rest ns acc := by subst hs'; rfl
  have hw' : ∀ f t d, ¬ Window s' f t d := not_window_merger hm' (by intros; simp)
  have hst : ∀ g t d, Stored s' g t d ↔ Stored s g t d := by
    intro g t d
    rw [stored_iff_onDisk hw, stored_iff_onDisk hw']
    unfold OnDisk
    rw [hi]
    constructor
    · rintro (h1 | ⟨m, h1⟩)
      · exact .inl h1
      · rw [ht] at h1
        split at h1
        · exact absurd h1 (contentHas_none _ _)
        · exact .inr ⟨m, h1⟩
    · rintro (h1 | ⟨m, h1⟩)
      · exact .inl h1
      · by_cases e : f = g ∧ n = m
        · obtain ⟨rfl, rfl⟩ := e
          exact .inl (g4 n (by simp) t d h1)
        · exact .inr ⟨m, by rw [ht, if_neg e]; exact h1⟩
  have hne : ∀ m ∈ ns, n ≠ m := by
    intro m hm e; subst e; exact (List.nodup_cons.1 g3).1 hm
  have hproc : s'.proc = s.proc := by subst hs'; rfl
  refine ⟨?_, hproc, hst⟩
  refine inv_merge_files h hproc (by subst hs'; rfl) (by subst hs'; rfl) (by subst hs'; rfl) (by subst hs'; rfl) (by subst hs'; rfl)
    (merger_running h (by simp [hm])) (by subst hs'; exact h.dirs.set _ _) hst ?_ ?_ ?_ ?_ ?_ ?_
  · intro g c hc; rw [hi] at hc; exact h.sane.cur g c hc
  · intro g m c hc; rw [ht] at hc; split at hc
    · cases hc
    · exact hc
  · intro g m hc; rw [ht, if_neg, hc]; rintro ⟨rfl, rfl⟩; rw [hb] at hc; cases hc
  · unfold MergerOk; rw [hm']
    refine ⟨g1, ?_, (List.nodup_cons.1 g3).2, ?_⟩
    · intro m hm
      rw [ht, if_neg (fun e => hne m hm e.2)]
      exact g2 m (by simp [hm])
    · intro m hm t d
      rw [ht, if_neg (fun e => hne m hm e.2), hi]
      exact g4 m (by simp [hm]) t d
  · intro hp
    have ho := h.opening hp
    refine ⟨by subst hs'; exact ho.chan, by subst hs'; exact ho.buf, by subst hs'; exact ho.writer, by subst hs'; exact ho.mem, by simp [hm'], ?_, ?_, ?_⟩
    · intro g t d hg
      rw [hst]
      have := ho.acc g t d (by rw [hm]; rw [hm'] at hg; exact hg)
      rw [hm] at this; rw [hm']
      exact this
    · have := ho.nodup; rw [hm] at this; rw [hm']; exact this
    · have := ho.cur
      rw [hm] at this
      rw [hm']
      refine ⟨?_, ?_⟩
      · intro m hmm
        rw [ht] at hmm
        split at hmm
        · exact absurd rfl hmm
        · rename_i e
          have := this.1 m hmm
          rcases List.mem_cons.1 this with h1 | h1
          · exact absurd ⟨rfl, h1.symm⟩ e
          · exact h1
      · intro t d; rw [hi]; exact this.2 t d
  · intro g; rw [hf]; split
    · exact (h.sane.tempw f).del n
    · exact h.sane.tempw g

/-- one step of the SecureSaveFile of the index file. -/
theorem merge_save {s s' : IxState} {f rest ns td acc b pc} (h : Inv s) (hm : s.merger = .saving f rest ns td acc b pc)
    (he : s.mergeStep = some s') : Inv s' ∧ s'.proc = s.proc ∧ ∀ f t d, Stored s' f t d ↔ Stored s f t d := by
  have hmo := h.merger
  unfold MergerOk at hmo
  rw [hm] at hmo
  obtain ⟨g1, g2, g3, g4, g5, g6, g7⟩ := hmo
  by_cases hpc : pc = .done
  · subst hpc
    unfold mergeStep at he
    rw [hm] at he
    cases he
    have hw : ∀ f t d, ¬ Window s f t d := not_window_merger hm (by intros; simp)
    have hst := stored_merger (s := s) (.deleting f rest ns acc) hw (fun _ _ _ => id)
    refine ⟨inv_merger h _ hw (fun _ _ _ => id) ?_ ?_ (merger_running h (by simp [hm])), rfl, hst⟩
    · refine ⟨g1, g3, g4, ?_⟩
      intro n hn t d hc
      show ContentHas (s.files f).index.cur t d
      rw [g7, contentHas_full g5]
      exact g6 n hn t d hc
    · intro hp
      have ho := h.opening hp
      refine ⟨ho.chan, ho.buf, ho.writer, ho.mem, ⟨by simp, by simp⟩, ?_, ?_, ?_⟩
      · intro g t d hg
        rw [hst]
        have := ho.acc g t d (by rw [hm]; exact hg)
        rw [hm] at this
        exact this
      · have := ho.nodup; rw [hm] at this; exact this
      · have := ho.cur; rw [hm] at this
        refine ⟨this.1, ?_⟩
        intro t d
        show _ ↔ ContentHas (s.files f).index.cur t d
        rw [g7, contentHas_full g5]
        unfold has2
        have h2 : acc.get? f = some td := this.2
        rw [h2]; simp
  have hmain : s' = { s.setFiles f { s.files f with index := (s.files f).index.step b pc } with
      merger := .saving f rest ns td acc b pc.next } := by
    unfold mergeStep at he
    rw [hm] at he
    cases pc
    case done => exact absurd rfl hpc
    all_goals (cases he; rfl)
  have hf : ∀ g, s'.files g = if f = g then { s.files f with index := (s.files f).index.step b pc } else s.files g := by
    intro g; subst hmain; exact files_setFiles _ _ _ _
  have hi : (s'.files f).index = (s.files f).index.step b pc := by rw [hf]; simp
  have ht : ∀ g, (s'.files g).temp = (s.files g).temp := by
    intro g; rw [hf]; split
    · rename_i e; subst e; rfl
    · rfl
  have hig : ∀ g, f ≠ g → (s'.files g).index = (s.files g).index := by
    intro g e; rw [hf, if_neg e]
  have hm' : s'.merger = .saving f rest ns td acc b pc.next := by subst hmain; rfl
  have hproc : s'.proc = s.proc := by subst hmain; rfl
  have hnd : s.proc ≠ .down := merger_running h (by simp [hm])
  -- what the index file and the window hold, before and after
  have hwin : ∀ g t d, Window s g t d ↔ pc = .moved ∧ f = g ∧ hasPosting td t d = true := by
    intro g t d; unfold Window; rw [hm]
    cases pc <;> simp
  have hwin' : ∀ g t d, Window s' g t d ↔ pc = .written ∧ f = g ∧ hasPosting td t d = true := by
    intro g t d; unfold Window; rw [hm']
    cases pc <;> simp [SPc.next]
  have hst : ∀ g t d, Stored s' g t d ↔ Stored s g t d := by
    intro g t d
    unfold Stored OnDisk
    rw [hwin, hwin', ht]
    by_cases e : f = g
    · subst e
      rw [hi]
      cases pc with
      | start => simp [SFile.step]
      | writing => simp [SFile.step]
      | written =>
        obtain ⟨g7, g8⟩ := g7
        have hc : ContentHas (((s.files f).index.step b .written).cur) t d → False := by
          intro hc
          cases hcur : (s.files f).index.cur with
          | none => simp [SFile.step, hcur] at hc; exact absurd hc (contentHas_none _ _)
          | some c => simp [SFile.step, hcur] at hc; exact absurd hc (contentHas_none _ _)
        have hcur := (g7 t d)
        unfold InUnion at hcur
        constructor
        · rintro ((h1 | h1) | h1)
          · exact absurd h1 hc
          · exact .inl (.inr h1)
          · rcases hcur.1 h1.2.2 with h2 | ⟨n, _, h2⟩
            · exact .inl (.inl h2)
            · exact .inl (.inr ⟨n, h2⟩)
        · rintro ((h1 | h1) | h1)
          · exact .inr ⟨rfl, rfl, hcur.2 (.inl h1)⟩
          · exact .inl (.inr h1)
          · cases h1.1
      | moved =>
        obtain ⟨g7, g8⟩ := g7
        have e1 : ((s.files f).index.step b .moved).cur = some (.full b) := by simp [SFile.step, g8]
        rw [e1, g7, contentHas_full g5]
        have := contentHas_none t d
        simp only [this, false_or]
        constructor
        · rintro ((h1 | h1) | h1)
          · exact .inr ⟨trivial, trivial, h1⟩
          · exact .inl h1
          · cases h1.1
        · rintro (h1 | h1)
          · exact .inl (.inr h1)
          · exact .inl (.inl h1.2.2)
      | installed => simp [SFile.step]
      | done => exact absurd rfl hpc
    · rw [hig g e]
      simp [e]
  refine ⟨?_, hproc, hst⟩
  have hff : FullFrags s' f ns := by intro n hn; rw [ht]; exact g3 n hn
  refine inv_merge_files h hproc (by subst hmain; rfl) (by subst hmain; rfl) (by subst hmain; rfl) (by subst hmain; rfl)
    (by subst hmain; rfl) hnd (by subst hmain; exact h.dirs.set _ _) hst ?_ ?_ ?_ ?_ ?_ ?_
  · intro g c hc
    by_cases e : f = g
    · subst e
      rw [hi] at hc
      cases pc with
      | start => exact h.sane.cur _ _ hc
      | writing => exact h.sane.cur _ _ hc
      | written =>
        simp only [SFile.step] at hc
        split at hc
        · cases hc
        · exact h.sane.cur _ _ hc
      | moved =>
        have : some (Content.full b) = some c := by rw [← g7.2]; exact hc
        cases this
        exact ⟨b, td, rfl, g5, g2⟩
      | installed => exact h.sane.cur _ _ hc
      | done => exact absurd rfl hpc
    · rw [hig g e] at hc; exact h.sane.cur _ _ hc
  · intro g n c hc; rw [ht] at hc; exact hc
  · intro g n hc; rw [ht]; exact hc
  · unfold MergerOk; rw [hm']
    refine ⟨g1, g2, hff, g4, g5, ?_, ?_⟩
    · intro n hn t d; rw [ht]; exact g6 n hn t d
    · have hu : (s'.files f).index.cur = (s.files f).index.cur → ∀ t d, InUnion s' f ns t d ↔ InUnion s f ns t d := by
        intro e t d; unfold InUnion; rw [e, ht]
      cases pc with
      | start =>
        intro t d; rw [hu (by rw [hi]; rfl)]; exact g7 t d
      | writing =>
        refine ⟨?_, by rw [hi]; rfl⟩
        intro t d; rw [hu (by rw [hi]; rfl)]; exact g7 t d
      | written =>
        refine ⟨?_, ?_⟩ <;> rw [hi]
        · cases hcur : (s.files f).index.cur <;> simp [SFile.step, hcur]
        · have := g7.2
          cases hcur : (s.files f).index.cur <;> simp [SFile.step, hcur, this]
      | moved => show _ = _; rw [hi]; simp [SFile.step, g7.2]
      | installed => show _ = _; rw [hi]; exact g7
      | done => exact absurd rfl hpc
  · intro hp
    have ho := h.opening hp
    refine ⟨by subst hmain; exact ho.chan, by subst hmain; exact ho.buf, by subst hmain; exact ho.writer, by subst hmain; exact ho.mem, by simp [hm'], ?_, ?_, ?_⟩
    · intro g t d hg
      rw [hst]
      have := ho.acc g t d (by rw [hm]; rw [hm'] at hg; exact hg)
      rw [hm] at this; rw [hm']
      exact this
    · have := ho.nodup; rw [hm] at this; rw [hm']; exact this
    · have := ho.cur
      rw [hm] at this; rw [hm']
      refine ⟨?_, this.2⟩
      intro n hn; rw [ht] at hn; exact this.1 n hn
  · intro g; rw [ht]; exact h.sane.tempw g

/-- one step of the merge: the invariant is kept and nothing is gained or lost, or the process panics on a torn fragment. -/
theorem exec_merge {s s' : IxState} (h : Inv s) (he : s.exec .merge = some s') :
    Inv s' ∧ ((s'.proc ≠ .down ∧ ∀ f t d, Stored s' f t d ↔ Stored s f t d) ∨
      (s' = s.panic ∧ (∀ f t d, ¬ Window s f t d) ∧ ∃ f n, (s.files f).temp.get? n = some .torn)) := by
  have he' : s.mergeStep = some s' := he
  have fin : ∀ {P : Prop}, s.merger ≠ .idle → (Inv s' ∧ s'.proc = s.proc ∧ ∀ f t d, Stored s' f t d ↔ Stored s f t d) →
      Inv s' ∧ ((s'.proc ≠ .down ∧ ∀ f t d, Stored s' f t d ↔ Stored s f t d) ∨ P) :=
    fun hm h' => ⟨h'.1, .inl ⟨by rw [h'.2.1]; exact merger_running h hm, h'.2.2⟩⟩
  match hm : s.merger with
  | .idle => unfold mergeStep at he'; rw [hm] at he'; cases he'
  | .dead => unfold mergeStep at he'; rw [hm] at he'; cases he'
  | .atField [] acc =>
    have := merge_finish h hm he'
    refine ⟨this.1, .inl ⟨?_, this.2⟩⟩
    unfold mergeStep at he'
    rw [hm] at he'
    simp only at he'
    split at he'
    · cases he'; simp
    · cases he'; exact show s.proc ≠ .down from merger_running h (by simp [hm])
  | .atField (f :: rest) acc => exact fin (by simp [hm]) (merge_readIndex h hm he')
  | .reading f rest seen (n :: ns) td acc =>
    rcases merge_readFrag h hm he' with h1 | ⟨rfl, h1⟩
    · exact fin (by simp [hm]) h1
    · exact ⟨inv_panic h, .inr ⟨rfl, not_window_merger hm (by intros; simp), f, n, h1⟩⟩
  | .reading f rest seen [] td acc => exact fin (by simp [hm]) (merge_readDone h hm he')
  | .saving f rest ns td acc b pc => exact fin (by simp [hm]) (merge_save h hm he')
  | .deleting f rest [] acc => exact fin (by simp [hm]) (merge_fieldDone h hm he')
  | .deleting f rest (n :: ns) acc => exact fin (by simp [hm]) (merge_delete h hm he')

/-- every action keeps the invariant. -/
theorem exec_inv {s s' : IxState} {a : Act} (h : Inv s) (he : s.exec a = some s') : Inv s' := by
  cases a with
  | touch => exact exec_touch h he
  | post => exact exec_post h he
  | recv => exact exec_recv h he
  | tick => exact exec_tick h he
  | create => exact exec_create h he
  | write => exact exec_write h he
  | flushed => exact exec_flushed h he
  | startMerge => exact exec_startMerge h he
  | merge => exact (exec_merge h he).1
  | mkdir => exact exec_mkdir h he
  | crash => exact exec_crash h he
  | open_ => exact exec_open h he

theorem run_nil (s s' : IxState) : run s [] = some s' ↔ s = s' := by simp [run]

theorem run_cons (s s' : IxState) (a : Act) (as : List Act) :
    run s (a :: as) = some s' ↔ ∃ s₁, s.exec a = some s₁ ∧ run s₁ as = some s' := by
  unfold run; rw [List.foldlM_cons]
  cases s.exec a <;> simp

theorem run_append (s s' : IxState) (as bs : List Act) :
    run s (as ++ bs) = some s' ↔ ∃ s₁, run s as = some s₁ ∧ run s₁ bs = some s' := by
  unfold run; rw [List.foldlM_append]
  cases List.foldlM exec s as <;> simp

/-- every reachable state satisfies the invariant. -/
theorem run_inv {s s' : IxState} {as : List Act} (h : Inv s) (hr : run s as = some s') : Inv s' := by
  induction as generalizing s with
  | nil => rw [run_nil] at hr; exact hr ▸ h
  | cons a as ih =>
    obtain ⟨s₁, h1, h2⟩ := (run_cons _ _ _ _).1 hr
    exact ih (exec_inv h h1) h2

/-! ### Incomplete fragments -/

/-- while the store runs only the index writer has an incomplete fragment; while it opens, finished fields have no fragments. -/
structure Inv2 (s : IxState) : Prop where
  up : s.proc = .up → ∀ f n, (s.files f).temp.get? n = some .torn → ∃ p r, s.writer = .flushing ((f, p) :: r) (some n)
  opening : s.proc = .opening → ∀ f, f ∉ remaining s.merger → ∀ n, (s.files f).temp.get? n = none

theorem init_inv2 : Inv2 {} := ⟨by intro h; (cases h), by intro h; (cases h)⟩

theorem inv2_of_down {s : IxState} (h : s.proc = .down) : Inv2 s := ⟨by rw [h]; intro e; (cases e), by rw [h]; intro e; (cases e)⟩

theorem inv2_merge {s s' : IxState} (h : Inv s) (h2 : Inv2 s) (he : s.mergeStep = some s') : Inv2 s' := by
  match hm : s.merger with
  | .idle => unfold mergeStep at he; rw [hm] at he; cases he
  | .dead => unfold mergeStep at he; rw [hm] at he; cases he
  | .atField [] acc =>
    unfold mergeStep at he; rw [hm] at he
    simp only at he
    split at he
    · rename_i hp
      cases he
      refine ⟨?_, by intro e; cases e⟩
      intro _ f n ht
      have := h2.opening hp f (by simp [hm, remaining]) n
      have e : (s.files f).temp.get? n = some .torn := ht
      rw [this] at e; cases e
    · rename_i hp
      cases he
      exact ⟨h2.up, fun e => absurd e hp⟩
  | .atField (f :: rest) acc =>
    have := (merge_readIndex h hm he).2.1
    unfold mergeStep at he; rw [hm] at he
    simp only at he
    have ho : ∀ e : s.proc = .opening, ∀ g, g ∉ f :: rest → ∀ n, (s.files g).temp.get? n = none := by
      intro e g hg; exact h2.opening e g (by rw [hm]; exact hg)
    split at he
    · cases he; exact ⟨h2.up, ho⟩
    · cases he; exact inv2_of_down rfl
    · split at he
      · cases he; exact inv2_of_down rfl
      · cases he; exact ⟨h2.up, ho⟩
  | .reading f rest seen (n :: ns) td acc =>
    unfold mergeStep at he; rw [hm] at he
    simp only at he
    have ho : ∀ e : s.proc = .opening, ∀ g, g ∉ f :: rest → ∀ n, (s.files g).temp.get? n = none := by
      intro e g hg; exact h2.opening e g (by rw [hm]; exact hg)
    split at he
    · cases he
      unfold loadError
      split
      · exact inv2_of_down rfl
      · rename_i hp; exact ⟨h2.up, fun e => absurd e hp⟩
    · cases he; exact inv2_of_down rfl
    · split at he
      · cases he; exact inv2_of_down rfl
      · cases he; exact ⟨h2.up, ho⟩
  | .reading f rest seen [] td acc =>
    unfold mergeStep at he; rw [hm] at he
    simp only at he
    have ho : ∀ e : s.proc = .opening, ∀ g, g ∉ f :: rest → ∀ n, (s.files g).temp.get? n = none := by
      intro e g hg; exact h2.opening e g (by rw [hm]; exact hg)
    split at he
    · cases he; exact inv2_of_down rfl
    · cases he; exact ⟨h2.up, ho⟩
  | .saving f rest ns td acc b pc =>
    have ho : ∀ e : s.proc = .opening, ∀ g, g ∉ f :: rest → ∀ n, (s.files g).temp.get? n = none := by
      intro e g hg; exact h2.opening e g (by rw [hm]; exact hg)
    by_cases hpc : pc = .done
    · subst hpc
      unfold mergeStep at he; rw [hm] at he
      cases he; exact ⟨h2.up, ho⟩
    · have hmain : s' = { s.setFiles f { s.files f with index := (s.files f).index.step b pc } with
          merger := .saving f rest ns td acc b pc.next } := by
        unfold mergeStep at he
        rw [hm] at he
        cases pc
        case done => exact absurd rfl hpc
        all_goals (cases he; rfl)
      have ht : ∀ g, (s'.files g).temp = (s.files g).temp := by
        intro g
        have : s'.files g = if f = g then { s.files f with index := (s.files f).index.step b pc } else s.files g := by
          subst hmain; exact files_setFiles _ _ _ _
        rw [this]; split
        · rename_i e; subst e; rfl
        · rfl
      have e1 : s'.proc = s.proc := by subst hmain; rfl
      have e2 : s'.writer = s.writer := by subst hmain; rfl
      have e3 : remaining s'.merger = f :: rest := by subst hmain; rfl
      refine ⟨?_, ?_⟩
      · rw [e1, e2]; intro e g n; rw [ht]; exact h2.up e g n
      · rw [e1, e3]; intro e g hg n; rw [ht]; exact ho e g hg n
  | .deleting f rest [] acc =>
    unfold mergeStep at he; rw [hm] at he
    cases he
    refine ⟨h2.up, ?_⟩
    intro e g hg n
    by_cases hfg : g = f
    · subst hfg
      have := (h.opening e).cur; rw [hm] at this
      cases hn : (s.files g).temp.get? n with
      | none => exact hn
      | some c => have := this.1 n (by rw [hn]; simp); cases this
    · exact h2.opening e g (by rw [hm]; simp only [remaining, List.mem_cons, not_or]; exact ⟨hfg, hg⟩) n
  | .deleting f rest (n :: ns) acc =>
    have ho : ∀ e : s.proc = .opening, ∀ g, g ∉ f :: rest → ∀ n, (s.files g).temp.get? n = none := by
      intro e g hg; exact h2.opening e g (by rw [hm]; exact hg)
    unfold mergeStep at he; rw [hm] at he
    simp only at he
    split at he
    · cases he
      unfold loadError
      split
      · exact inv2_of_down rfl
      · rename_i hp; exact ⟨h2.up, fun e => absurd e hp⟩
    · cases he
      have ht : ∀ g m c, (({ s.setFiles f { s.files f with temp := (s.files f).temp.del n } with
          merger := .deleting f rest ns acc } : IxState).files g).temp.get? m = some c → (s.files g).temp.get? m = some c := by
        intro g m c hc
        have : ({ s.setFiles f { s.files f with temp := (s.files f).temp.del n } with
          merger := .deleting f rest ns acc } : IxState).files g = if f = g then { s.files f with temp := (s.files f).temp.del n } else s.files g :=
          files_setFiles _ _ _ _
        rw [this] at hc
        split at hc
        · rename_i e; subst e
          simp only [get?_del] at hc
          split at hc
          · cases hc
          · exact hc
        · exact hc
      refine ⟨fun e g m hm => h2.up e g m (ht g m _ hm), ?_⟩
      intro e g hg m
      cases hc : (({ s.setFiles f { s.files f with temp := (s.files f).temp.del n } with
          merger := .deleting f rest ns acc } : IxState).files g).temp.get? m with
      | none => rfl
      | some c => have := ht g m c hc; rw [ho e g hg m] at this; cases this

theorem exec_inv2 {s s' : IxState} {a : Act} (h : Inv s) (h2 : Inv2 s) (he : s.exec a = some s') : Inv2 s' := by
  cases a with
  | touch f =>
    simp only [exec] at he; split at he
    · cases he; exact ⟨h2.up, h2.opening⟩
    · cases he
  | post f t d =>
    simp only [exec] at he; split at he
    · cases he; exact ⟨h2.up, h2.opening⟩
    · cases he
  | recv =>
    simp only [exec] at he; split at he
    · cases he; exact ⟨h2.up, h2.opening⟩
    · cases he
  | tick o =>
    simp only [exec] at he; split at he
    · rename_i hp
      cases he
      refine ⟨?_, h2.opening⟩
      intro e f n ht
      obtain ⟨p, r, hw⟩ := h2.up e f n ht
      rw [hp.2.1] at hw; cases hw
    · cases he
  | create name =>
    simp only [exec] at he
    split at he
    · rename_i f p rest hw
      have hup := (writerOk_flushing h.writer hw).1
      split at he
      · split at he
        · cases he; exact inv2_of_down rfl
        · cases he
          refine ⟨?_, fun e => absurd (hup ▸ e : Proc.up = .opening) (by simp)⟩
          intro _ g n ht
          have hf : ({ s.setFiles f { s.files f with temp := (s.files f).temp.set name .torn } with
            writer := .flushing ((f, p) :: rest) (some name) } : IxState).files g = _ := files_setFiles _ _ _ _
          rw [hf] at ht
          split at ht
          · rename_i e; subst e
            simp only [get?_set] at ht
            split at ht
            · rename_i e; subst e; exact ⟨p, rest, rfl⟩
            · obtain ⟨p', r', hw'⟩ := h2.up hup _ _ ht
              rw [hw] at hw'; cases hw'
          · obtain ⟨p', r', hw'⟩ := h2.up hup _ _ ht
            rw [hw] at hw'; cases hw'
      · cases he
    · cases he
  | write =>
    simp only [exec] at he
    split at he
    · rename_i f p rest name hw
      have hup := (writerOk_flushing h.writer hw).1
      split at he
      · cases he; exact inv2_of_down rfl
      · rename_i b hb
        cases he
        refine ⟨?_, fun e => absurd (hup ▸ e : Proc.up = .opening) (by simp)⟩
        intro _ g n ht
        exfalso
        have hf : ({ s.setFiles f { s.files f with temp := (s.files f).temp.set name (.full b) } with
          writer := .flushing rest none } : IxState).files g = _ := files_setFiles _ _ _ _
        rw [hf] at ht
        split at ht
        · rename_i e; subst e
          simp only [get?_set] at ht
          split at ht
          · cases ht
          · rename_i e
            obtain ⟨p', r', hw'⟩ := h2.up hup _ _ ht
            rw [hw] at hw'; cases hw'; exact e rfl
        · rename_i e
          obtain ⟨p', r', hw'⟩ := h2.up hup _ _ ht
          rw [hw] at hw'; cases hw'; exact e rfl
    · cases he
  | flushed =>
    simp only [exec] at he
    split at he
    · rename_i hw
      cases he
      refine ⟨?_, h2.opening⟩
      intro e f n ht
      obtain ⟨p', r', hw'⟩ := h2.up e _ _ ht
      rw [hw] at hw'; cases hw'
    · cases he
  | startMerge =>
    simp only [exec] at he
    split at he
    · rename_i hp
      cases he
      exact ⟨h2.up, fun e => absurd (hp.1 ▸ e : Proc.up = .opening) (by simp)⟩
    · cases he
  | merge => exact inv2_merge h h2 he
  | mkdir f =>
    simp only [exec] at he
    split at he
    · rename_i hp
      cases he
      have hf : (s.setFiles f (s.files f)).files = s.files := by
        funext g; rw [files_setFiles]; split
        · rename_i e; rw [e]
        · rfl
      refine ⟨?_, ?_⟩
      · rw [hf]; exact h2.up
      · rw [hf]; exact h2.opening
    · cases he
  | crash =>
    simp only [exec] at he
    split at he
    · cases he
    · cases he; exact inv2_of_down rfl
  | open_ =>
    simp only [exec] at he
    split at he
    · cases he
      refine ⟨(by intro e; cases e), ?_⟩
      intro _ f hf n
      have : s.files f = {} := files_of_not_mem hf
      show (s.files f).temp.get? n = none
      rw [this]; rfl
    · cases he

theorem run_inv2 {s s' : IxState} {as : List Act} (h : Inv s) (h2 : Inv2 s) (hr : run s as = some s') : Inv2 s' := by
  induction as generalizing s with
  | nil => rw [run_nil] at hr; exact hr ▸ h2
  | cons a as ih =>
    obtain ⟨s₁, h1, h3⟩ := (run_cons _ _ _ _).1 hr
    exact ih (exec_inv h h1) (exec_inv2 h h2 h1) h3

/-! ### Opening terminates -/

/-- no incomplete fragment. -/
def NoTorn (s : IxState) : Prop := ∀ f n, (s.files f).temp.get? n ≠ some .torn

/-- steps left in the current phase, phases left, fields left. -/
def mu : MergePc → Nat × Nat × Nat
  | .idle => (0, 0, 0)
  | .dead => (0, 0, 0)
  | .atField rest _ => (rest.length, 4, 0)
  | .reading _ rest _ toRead _ _ => (rest.length + 1, 3, toRead.length)
  | .saving _ rest _ _ _ _ pc => (rest.length + 1, 2, match pc with
    | .start => 5 | .writing => 4 | .written => 3 | .moved => 2 | .installed => 1 | .done => 0)
  | .deleting _ rest toDel _ => (rest.length + 1, 1, toDel.length)

/-- the order in which `mu` decreases. -/
def MuLt : Nat × Nat × Nat → Nat × Nat × Nat → Prop := Prod.Lex (· < ·) (Prod.Lex (· < ·) (· < ·))

theorem muLt_wf : WellFounded MuLt := (Prod.lex ⟨_, Nat.lt_wfRel.wf⟩ (Prod.lex ⟨_, Nat.lt_wfRel.wf⟩ ⟨_, Nat.lt_wfRel.wf⟩)).wf

theorem muLt3 {a b c c' : Nat} (h : c < c') : MuLt (a, b, c) (a, b, c') := .right _ (.right _ h)
theorem muLt2 {a b b' c c' : Nat} (h : b < b') : MuLt (a, b, c) (a, b', c') := .right _ (.left _ _ h)
theorem muLt1 {a a' b b' c c' : Nat} (h : a < a') : MuLt (a, b, c) (a', b', c') := .left _ _ h

/-- while opening without incomplete fragments, the next step of the merge is possible and makes progress. -/
theorem open_progress {s : IxState} (h : Inv s) (hn : NoTorn s) (hp : s.proc = .opening) :
    ∃ s', s.exec .merge = some s' ∧ NoTorn s' ∧ (s'.proc = .up ∨ (s'.proc = .opening ∧ MuLt (mu s'.merger) (mu s.merger))) := by
  have ho := h.opening hp
  have hmo := h.merger
  unfold MergerOk at hmo
  show ∃ s', s.mergeStep = some s' ∧ _
  unfold mergeStep
  match hm : s.merger with
  | .idle => exact absurd hm ho.running.1
  | .dead => exact absurd hm ho.running.2
  | .atField [] acc => simp only [hp, if_true]; exact ⟨_, rfl, hn, .inl rfl⟩
  | .atField (f :: rest) acc =>
    simp only
    match hc : (s.files f).index.cur with
    | none => exact ⟨_, rfl, hn, .inr ⟨hp, muLt2 (by omega)⟩⟩
    | some .torn => obtain ⟨b, p, hb, _⟩ := h.sane.cur _ _ hc; cases hb
    | some (.full b) =>
      obtain ⟨b', p, hb, hdec, _⟩ := h.sane.cur _ _ hc
      cases hb
      simp only [hdec]
      exact ⟨_, rfl, hn, .inr ⟨hp, muLt2 (by omega)⟩⟩
  | .reading f rest seen (n :: ns) td acc =>
    rw [hm] at hmo
    simp only
    match hc : (s.files f).temp.get? n with
    | none => exact absurd hc (hmo.2.2.2.2.1 n (by simp))
    | some .torn => exact absurd hc (hn f n)
    | some (.full b) =>
      obtain ⟨b', p, hb, hdec, _⟩ := (h.sane.temp _ _ _ hc).resolve_left (by simp)
      cases hb
      simp only [hdec]
      exact ⟨_, rfl, hn, .inr ⟨hp, muLt3 (by simp)⟩⟩
  | .reading f rest seen [] td acc =>
    rw [hm] at hmo
    obtain ⟨b, hb, _⟩ := hmo.2.1.readBack
    simp only [hb]
    exact ⟨_, rfl, hn, .inr ⟨hp, muLt2 (by omega)⟩⟩
  | .saving f rest ns td acc b pc =>
    have hns : ∀ ix m, NoTorn ({ s.setFiles f { s.files f with index := ix } with merger := m } : IxState) := by
      intro ix m g n
      have : ({ s.setFiles f { s.files f with index := ix } with merger := m } : IxState).files g = _ := files_setFiles _ _ _ _
      rw [this]; split
      · rename_i e; subst e; exact hn f n
      · exact hn g n
    cases pc
    case done => exact ⟨_, rfl, hn, .inr ⟨hp, muLt2 (by omega)⟩⟩
    all_goals exact ⟨_, rfl, hns _ _, .inr ⟨hp, muLt3 (by simp [SPc.next])⟩⟩
  | .deleting f rest [] acc => exact ⟨_, rfl, hn, .inr ⟨hp, muLt1 (by simp)⟩⟩
  | .deleting f rest (n :: ns) acc =>
    rw [hm] at hmo
    obtain ⟨b, hb⟩ := hmo.2.1 n (by simp)
    simp only [hb]
    refine ⟨_, rfl, ?_, .inr ⟨hp, muLt3 (by simp)⟩⟩
    intro g m
    have : ({ s.setFiles f { s.files f with temp := (s.files f).temp.del n } with merger := .deleting f rest ns acc } : IxState).files g = _ :=
      files_setFiles _ _ _ _
    rw [this]; split
    · rename_i e; subst e
      simp only [get?_del]; split
      · simp
      · exact hn f m
    · exact hn g m

/-- so it completes. -/
theorem open_completes {s : IxState} (h : Inv s) (hn : NoTorn s) (hp : s.proc = .opening) :
    ∃ k s', run s (List.replicate k .merge) = some s' ∧ s'.proc = .up := by
  have : ∀ m, ∀ s : IxState, mu s.merger = m → Inv s → NoTorn s → s.proc = .opening →
      ∃ k s', run s (List.replicate k .merge) = some s' ∧ s'.proc = .up := by
    intro m
    induction m using muLt_wf.induction with
    | _ m ih =>
      intro s hmu h hn hp
      obtain ⟨s₁, he, hn₁, h1⟩ := open_progress h hn hp
      rcases h1 with h1 | ⟨h1, hlt⟩
      · exact ⟨1, s₁, (run_cons _ _ _ _).2 ⟨s₁, he, rfl⟩, h1⟩
      · obtain ⟨k, s₂, hr, h2⟩ := ih _ (hmu ▸ hlt) s₁ rfl (exec_inv h he) hn₁ h1
        exact ⟨k + 1, s₂, by rw [List.replicate_succ, run_cons]; exact ⟨s₁, he, hr⟩, h2⟩
  exact this _ s rfl h hn hp

/-! ### What a client sees -/

theorem has2_iff_getDocuments (s : IxState) (f t d : String) :
    has2 s.mem f t d ↔ GoSet.contains (s.getDocuments f t).1 d = true := by
  unfold has2 getDocuments
  cases hf : s.mem.get? f with
  | none => simp
  | some p =>
    simp only [Option.some.injEq, exists_eq_left', hasPosting]
    cases p.get? t <;> simp

theorem found_iff {s : IxState} (h : Inv s) (f t : String) : (s.getDocuments f t).2 = true ↔ ∃ d, has2 s.mem f t d := by
  unfold has2 getDocuments
  cases hf : s.mem.get? f with
  | none => simp
  | some p =>
    simp only [Option.some.injEq, exists_eq_left', hasPosting]
    cases ht : p.get? t with
    | none => simp
    | some set =>
      have hg := h.sane.mem _ (mem_of_get? hf)
      have hs := hg.2 _ (mem_of_get? ht)
      obtain ⟨e, rest, rfl⟩ := List.exists_cons_of_ne_nil hs.2
      simp only [true_iff]
      exact ⟨e.1, (GoSet.contains_iff_mem_keys _ _).2 (by simp [GoMap.keys])⟩

theorem hist_exec {s s' : IxState} {a : Act} (he : s.exec a = some s') :
    ∀ x ∈ s'.hist, x ∈ s.hist ∨ a = .post x.1 x.2.1 x.2.2 := by
  cases a with
  | post f t d =>
    simp only [exec] at he; split at he
    · cases he
      intro x hx
      rcases List.mem_append.1 hx with hx | hx
      · exact .inl hx
      · simp at hx; subst hx; exact .inr rfl
    · cases he
  | merge =>
    have he' : s.mergeStep = some s' := he
    intro x hx; left
    revert he'
    unfold mergeStep loadError
    (repeat' split) <;> intro he' <;> first | (cases he'; exact hx) | (cases he')
  | _ =>
    intro x hx; left
    revert he
    simp only [exec]
    (repeat' split) <;> intro he <;> first | (cases he; exact hx) | (cases he)

theorem hist_run {s s' : IxState} {as : List Act} (hr : run s as = some s') :
    ∀ x ∈ s'.hist, x ∈ s.hist ∨ .post x.1 x.2.1 x.2.2 ∈ as := by
  induction as generalizing s with
  | nil => rw [run_nil] at hr; subst hr; intro x hx; exact .inl hx
  | cons a as ih =>
    obtain ⟨s₁, h1, h2⟩ := (run_cons _ _ _ _).1 hr
    intro x hx
    rcases ih h2 x hx with h | h
    · rcases hist_exec h1 x h with h | h
      · exact .inl h
      · exact .inr (h ▸ List.mem_cons_self)
    · exact .inr (List.mem_cons_of_mem _ h)

end Goir.IxState
