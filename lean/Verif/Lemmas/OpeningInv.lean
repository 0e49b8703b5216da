import Verif.Lemmas.Opening
/-!
# Opening any folder: the invariant
-/
namespace Goir
open GoMap Spec Spec.Opening

namespace Opening

/-- the paths that opening changes for field `f`. -/
def Mine (root : Path) (f : String) (p : Path) : Prop :=
  p = root ++ [f, "temp"] ∨ (∃ x ∈ ["index", "index_temp", "index_old"], p = root ++ [f, x]) ∨ ∃ n, p = root ++ [f, "temp", n]

theorem Mine.eq {root : Path} {f g : String} {p : Path} (h : Mine root f p) (h' : Mine root g p) : f = g := by
  rcases h with rfl | ⟨x, -, rfl⟩ | ⟨n, rfl⟩ <;> rcases h' with e | ⟨y, -, e⟩ | ⟨m, e⟩ <;> simp at e <;> first | exact e | exact e.1

theorem Mine.not_field {root : Path} {f g : String} : ¬ Mine root f (root ++ [g]) := by
  rintro (e | ⟨x, -, e⟩ | ⟨n, e⟩) <;> simp at e

theorem Mine.part {fs : FS} {root : Path} {f : String} {p : Path} {buf : Bytes} (h : Part fs root f p buf) : Mine root f p := by
  cases h with
  | index h => exact .inr (.inl ⟨"index", by simp, rfl⟩)
  | fragment h => exact .inr (.inr ⟨_, rfl⟩)

theorem part_get {fs : FS} {root : Path} {f : String} {p : Path} {buf : Bytes} (h : Part fs root f p buf) : fs.get? p = some (.file buf) := by
  cases h with
  | index h => exact h
  | fragment h => exact h

theorem part_congr {fs fs' : FS} {root : Path} {f : String} {p : Path} {buf : Bytes} (he : fs'.get? p = fs.get? p) (h : Part fs root f p buf) : Part fs' root f p buf := by
  cases h with
  | index h => exact .index (he.trans h)
  | fragment h => exact .fragment (he.trans h)

theorem says_congr {fs fs' : FS} {root : Path} {f t d : String} (h0 : fs'.get? (root ++ [f]) = fs.get? (root ++ [f])) (h : ∀ p, Mine root f p → fs'.get? p = fs.get? p) :
    Says fs' root f t d ↔ Says fs root f t d := by
  unfold Says IsField
  rw [h0]
  refine and_congr_right fun _ => ⟨?_, ?_⟩ <;> rintro ⟨p, buf, m, ds, hp, hr⟩
  · exact ⟨p, buf, m, ds, part_congr (h p (Mine.part hp)).symm hp, hr⟩
  · exact ⟨p, buf, m, ds, part_congr (h p (Mine.part hp)) hp, hr⟩

/-- the file system differs from the one found only in what belongs to the fields `touched`. -/
structure Base (fs0 : FS) (root : Path) (touched : List String) (fs : FS) : Prop where
  wf : fs.WF
  dirs : ∀ p, fs0.get? p = some .dir → fs.get? p = some .dir
  same : ∀ p, (∀ f ∈ touched, ¬ Mine root f p) → fs.get? p = fs0.get? p

/-- field `f` has been loaded, and its index merged. -/
structure Done (fs0 : FS) (root : Path) (fs : FS) (acc : GoMap String Postings) (f : String) : Prop where
  loaded : ∃ td, acc.get? f = some td ∧ ∀ t d, hasPosting td t d = true ↔ Says fs0 root f t d
  kept : ∀ t d, Says fs root f t d ↔ Says fs0 root f t d
  frags : ∀ n c, fs.get? (root ++ [f, "temp", n]) ≠ some (.file c)
  read : ∀ p buf, Part fs0 root f p buf → ∃ m, HoldsIndex buf m

theorem Done.congr {fs0 fs fs' : FS} {root : Path} {acc acc' : GoMap String Postings} {f : String} (h : Done fs0 root fs acc f) (ha : acc'.get? f = acc.get? f)
    (h0 : fs'.get? (root ++ [f]) = fs.get? (root ++ [f])) (hm : ∀ p, Mine root f p → fs'.get? p = fs.get? p) : Done fs0 root fs' acc' f := by
  refine ⟨by rw [ha]; exact h.loaded, fun t d => (says_congr h0 hm).trans (h.kept t d), fun n c => ?_, h.read⟩
  rw [hm _ (.inr (.inr ⟨n, rfl⟩))]; exact h.frags n c

/-- what has been read of field `f`. -/
structure Gathered (fs0 : FS) (root : Path) (f : String) (seen : List String) (td : Postings) : Prop where
  neat : Neat td
  has : ∀ t d, hasPosting td t d = true ↔
    (∃ buf m, fs0.get? (root ++ [f, "index"]) = some (.file buf) ∧ HoldsIndex buf m ∧ hasPosting m t d = true) ∨
    ∃ n ∈ seen, ∃ buf m, fs0.get? (root ++ [f, "temp", n]) = some (.file buf) ∧ HoldsIndex buf m ∧ hasPosting m t d = true
  index : ∀ buf, fs0.get? (root ++ [f, "index"]) = some (.file buf) → ∃ m, HoldsIndex buf m
  seen : ∀ n ∈ seen, ∃ buf m, fs0.get? (root ++ [f, "temp", n]) = some (.file buf) ∧ HoldsIndex buf m
  terms : ∀ t ∈ GoMap.keys td, ∃ p buf m, Part fs0 root f p buf ∧ HoldsIndex buf m ∧ t ∈ GoMap.keys m

/-- when all fragments have been read, what was read is what the folder says. -/
theorem Gathered.says {fs0 : FS} {root : Path} {f : String} {seen : List String} {td : Postings} (h : Gathered fs0 root f seen td) (hf : IsField fs0 root f)
    (hall : ∀ n, n ∈ seen ↔ ∃ c, fs0.get? (root ++ [f, "temp", n]) = some (.file c)) (t d : String) : hasPosting td t d = true ↔ Says fs0 root f t d := by
  rw [h.has]
  constructor
  · rintro (⟨buf, m, h1, h2, h3⟩ | ⟨n, hn, buf, m, h1, h2, h3⟩)
    · obtain ⟨ds, h4, h5⟩ := (hasPosting_iff m t d).1 h3
      exact ⟨hf, _, buf, m, ds, .index h1, h2, h4, h5⟩
    · obtain ⟨ds, h4, h5⟩ := (hasPosting_iff m t d).1 h3
      exact ⟨hf, _, buf, m, ds, .fragment h1, h2, h4, h5⟩
  · rintro ⟨-, p, buf, m, ds, hp, h2, h4, h5⟩
    have h3 := (hasPosting_iff m t d).2 ⟨ds, h4, h5⟩
    cases hp with
    | index h1 => exact .inl ⟨buf, m, h1, h2, h3⟩
    | fragment h1 => exact .inr ⟨_, (hall _).2 ⟨_, h1⟩, buf, m, h1, h2, h3⟩

theorem Gathered.read {fs0 : FS} {root : Path} {f : String} {seen : List String} {td : Postings} (h : Gathered fs0 root f seen td)
    (hall : ∀ n, n ∈ seen ↔ ∃ c, fs0.get? (root ++ [f, "temp", n]) = some (.file c)) (p : Path) (buf : Bytes) (hp : Part fs0 root f p buf) : ∃ m, HoldsIndex buf m := by
  cases hp with
  | index h1 => exact h.index buf h1
  | fragment h1 =>
    obtain ⟨b, m, h2, h3⟩ := h.seen _ ((hall _).2 ⟨_, h1⟩)
    rw [h1] at h2; cases h2; exact ⟨m, h3⟩

/-- the merge of the fragments of field `f` is being written. -/
structure Writing (root : Path) (z : Bytes → Bytes) (f : String) (td : Postings) (fs : FS) (c : SaveCall) (pc : SavePc) : Prop where
  call : ∃ raw, FBB.serializeIndex td = some raw ∧ c = ⟨root ++ [f], "index", z raw⟩
  now : Saving c fs fs pc

/-- the position of the merge while a store is being opened. -/
def At (fs0 : FS) (root : Path) (z : Bytes → Bytes) (fs : FS) : MergePc → Option (SaveCall × SavePc) → Prop
  | .atField rest acc, none => ∃ done, fs0.listDirectories root = done ++ rest ∧ Base fs0 root done fs ∧ (∀ g ∈ done, Done fs0 root fs acc g) ∧ ∀ g, g ∉ done → acc.get? g = none
  | .reading f rest seen files td acc, sv => ∃ done, fs0.listDirectories root = done ++ f :: rest ∧ Base fs0 root (f :: done) fs ∧ (∀ g ∈ done, Done fs0 root fs acc g) ∧ (∀ g, g ∉ done → acc.get? g = none) ∧
      (∀ n, fs.get? (root ++ [f, "temp", n]) = fs0.get? (root ++ [f, "temp", n])) ∧ (seen ++ files).Nodup ∧ (∀ n, n ∈ seen ++ files ↔ ∃ c, fs0.get? (root ++ [f, "temp", n]) = some (.file c)) ∧ Gathered fs0 root f seen td ∧
      match sv with
      | none => ∀ x ∈ ["index", "index_temp", "index_old"], fs.get? (root ++ [f, x]) = fs0.get? (root ++ [f, x])
      | some (c, pc) => files = [] ∧ Writing root z f td fs c pc
  | .deleting f rest ns acc, none => ∃ done td m buf, fs0.listDirectories root = done ++ f :: rest ∧ Base fs0 root (f :: done) fs ∧ (∀ g ∈ done, Done fs0 root fs acc g) ∧ (∀ g, g ∉ f :: done → acc.get? g = none) ∧
      acc.get? f = some td ∧ (∀ t d, hasPosting td t d = true ↔ Says fs0 root f t d) ∧ (∀ p buf, Part fs0 root f p buf → ∃ m, HoldsIndex buf m) ∧
      fs.get? (root ++ [f, "index"]) = some (.file buf) ∧ HoldsIndex buf m ∧ (∀ t d, hasPosting m t d = hasPosting td t d) ∧
      ns.Nodup ∧ ∀ n, (n ∈ ns → ∃ c, fs.get? (root ++ [f, "temp", n]) = some (.file c) ∧ PlainName n) ∧ (n ∉ ns → ∀ c, fs.get? (root ++ [f, "temp", n]) ≠ some (.file c))
  | _, _ => False

/-- opening has come to its end. -/
structure Loaded (fs0 : FS) (root : Path) (fs : FS) (acc : GoMap String Postings) : Prop where
  base : Base fs0 root (fs0.listDirectories root) fs
  done : ∀ f ∈ fs0.listDirectories root, Done fs0 root fs acc f
  none_ : ∀ f, f ∉ fs0.listDirectories root → acc.get? f = none

theorem listDirectories_nodup {fs : FS} (wf : fs.WF) (q : Path) : (fs.listDirectories q).Nodup := by
  unfold FS.listDirectories
  have hn : (fs : List (Path × Node)).Nodup := List.Nodup.of_map _ wf
  refine List.Nodup.filterMap ?_ hn
  rintro ⟨p, x⟩ ⟨p', x'⟩ b h h'
  simp only [Option.mem_def] at h h'
  split at h
  · rename_i name hl
    split at h
    · rename_i hc
      cases h
      split at h'
      · rename_i name' hl'
        split at h'
        · rename_i hc'
          cases h'
          have e1 := snoc_of_getLast? hl
          have e2 := snoc_of_getLast? hl'
          rw [hc.2.1] at e1
          rw [hc'.2.1] at e2
          rw [Prod.mk.injEq]
          exact ⟨e1.symm.trans e2, hc.1.trans hc'.1.symm⟩
        · cases h'
      · cases h'
    · cases h
  · cases h

theorem listFiles_nodup {fs : FS} (wf : fs.WF) (q : Path) : (fs.listFiles q).Nodup := by
  have : ∀ l : List (Path × Node), (l.map Prod.fst).Nodup → (l.filterMap fun e => match e.1.getLast? with | some name => if e.2 ≠ .dir ∧ e.1.dropLast = q then some name else none | none => none).Nodup := by
    intro l hl
    induction l with
    | nil => simp
    | cons e l ih =>
      rw [List.map_cons, List.nodup_cons] at hl
      have ih := ih hl.2
      rw [List.filterMap_cons]
      split
      · exact ih
      · rename_i b hb
        rw [List.nodup_cons]
        refine ⟨fun hc => hl.1 ?_, ih⟩
        obtain ⟨e', he', hb'⟩ := List.mem_filterMap.1 hc
        have key : ∀ x : Path × Node, (match x.1.getLast? with | some name => if x.2 ≠ .dir ∧ x.1.dropLast = q then some name else none | none => none) = some b → x.1 = q ++ [b] := by
          intro x hx
          split at hx
          · rename_i name hl
            split at hx
            · rename_i hc
              cases hx
              have := snoc_of_getLast? hl
              rw [hc.2] at this; exact this.symm
            · cases hx
          · cases hx
        rw [key e hb, ← key e' hb']
        exact List.mem_map_of_mem he'
  exact this fs wf

theorem Base.above {fs0 fs : FS} {root : Path} {l : List String} (h : Base fs0 root l fs) (h0 : Tree root fs0) : ∀ i < root.length, fs.get? (root.take (i + 1)) = some .dir :=
  fun i hi => h.dirs _ (h0.root i hi)

theorem Base.mono {fs0 fs : FS} {root : Path} {l l' : List String} (h : Base fs0 root l fs) (hl : ∀ x ∈ l, x ∈ l') : Base fs0 root l' fs :=
  ⟨h.wf, h.dirs, fun p hp => h.same p fun f hf => hp f (hl f hf)⟩

/-- a change of the files of field `f` leaves the fields that are done as they are. -/
theorem done_other {fs0 fs fs' : FS} {root : Path} {done : List String} {acc acc' : GoMap String Postings} {f : String} (hfd : f ∉ done) (hd : ∀ g ∈ done, Done fs0 root fs acc g)
    (ha : ∀ g, g ≠ f → acc'.get? g = acc.get? g) (hs : ∀ p, ¬ Mine root f p → fs'.get? p = fs.get? p) : ∀ g ∈ done, Done fs0 root fs' acc' g := fun g hg => by
  have hne : g ≠ f := fun e => hfd (e ▸ hg)
  exact (hd g hg).congr (ha g hne) (hs _ Mine.not_field) fun p hp => hs p fun hp' => hne (Mine.eq hp hp')

/-- a change of the files of field `f` only. -/
theorem Base.change {fs0 fs fs' : FS} {root : Path} {l : List String} {f : String} (h : Base fs0 root l fs) (hf : f ∈ l) (wf : fs'.WF) (hd : ∀ p, fs.get? p = some .dir → fs'.get? p = some .dir)
    (hs : ∀ p, ¬ Mine root f p → fs'.get? p = fs.get? p) : Base fs0 root l fs' :=
  ⟨wf, fun p hp => hd p (h.dirs p hp), fun p hp => (hs p (hp f hf)).trans (h.same p hp)⟩

theorem Frame.mine {root : Path} {f : String} {bs : Bytes} {fs fs' : FS} (h : Frame ⟨root ++ [f], "index", bs⟩ fs fs') (p : Path) (hp : ¬ Mine root f p) : fs'.get? p = fs.get? p := by
  refine h.get p ?_ ?_ ?_ <;> rintro rfl <;> apply hp <;> simp only [List.append_assoc, List.cons_append, List.nil_append]
  · exact .inr (.inl ⟨"index", by simp, rfl⟩)
  · exact .inr (.inl ⟨"index_temp", by simp, rfl⟩)
  · exact .inr (.inl ⟨"index_old", by simp, rfl⟩)

theorem Frame.frag {root : Path} {f : String} {bs : Bytes} {fs fs' : FS} (h : Frame ⟨root ++ [f], "index", bs⟩ fs fs') (g n : String) : fs'.get? (root ++ [g, "temp", n]) = fs.get? (root ++ [g, "temp", n]) := by
  refine h.get _ ?_ ?_ ?_ <;> intro e <;> have := congrArg List.length e <;> simp at this

theorem Saving.self {c : SaveCall} {fs fs' : FS} {pc pc' : SavePc} (hn : PlainName c.name) (h : Saving c fs fs pc) (hs : c.step (fs, pc) = some (fs', pc')) : Frame c fs fs' ∧ Saving c fs' fs' pc' := by
  have h' := h.step hn hs
  refine ⟨h'.1, Frame.refl _ _, ?_⟩
  have := h'.2
  cases pc' with
  | start => rfl
  | _ => exact this

theorem hasPosting_written {td : Postings} (h : Neat td) (t d : String) : hasPosting (td.map fun p => (p.1, p.2.map fun q => (q.1, true))) t d = hasPosting td t d := by
  obtain ⟨-, -⟩ := h
  induction td with
  | nil => rfl
  | cons e td ih =>
    obtain ⟨k, s⟩ := e
    rw [List.map_cons, hasPosting_cons, hasPosting_cons, ih]
    split
    · simp only [GoSet.contains]
      induction s with
      | nil => rfl
      | cons q s ihs =>
        obtain ⟨x, b⟩ := q
        simp only [List.map_cons, GoMap.get?, List.lookup] at ihs ⊢
        split <;> simp_all
    · rfl

variable {fs0 : FS} {root : Path} {z : Bytes → Bytes}

/-- one step of the merge while a store is being opened: the process ends, or the invariant remains, or all is loaded. -/
theorem merge_inv (h0 : Tree root fs0) (hz : ∀ d, Gz.Written d (z d)) {s s' : BDisk} (hop : s.d.ix.proc = .opening) (hup : s.d.up = false) (hi : At fs0 root z s.fs s.d.ix.merger s.saveI) (he : s.mergeStep z root = some s') :
    s'.d.up = false ∧ (s'.d.ix.proc = .down ∨ (s'.d.ix.proc = .opening ∧ At fs0 root z s'.fs s'.d.ix.merger s'.saveI) ∨ (s'.d.ix.proc = .up ∧ Loaded fs0 root s'.fs s'.d.ix.mem)) := by
  have hkill : ∀ t : BDisk, t.kill.d.up = false ∧ t.kill.d.ix.proc = .down := fun t => ⟨rfl, rfl⟩
  have hle : ∀ t : BDisk, t.d.ix.proc = .opening → t.loadError.d.up = false ∧ t.loadError.d.ix.proc = .down := fun t ht => by
    unfold BDisk.loadError; rw [if_pos ht]; exact hkill t
  have hnd := listDirectories_nodup h0.wf root
  have hmem : ∀ f, f ∈ fs0.listDirectories root ↔ IsField fs0 root f := fun f => FS.mem_listDirectories fs0 h0.wf root f
  have pi : PlainName "index" := by decide
  have pt : PlainName "temp" := by decide
  unfold BDisk.mergeStep at he
  split at he
  · -- the last field is done
    rename_i acc hm
    rw [if_pos hop] at he
    cases he
    refine ⟨hup, .inr (.inr ⟨rfl, ?_⟩)⟩
    rw [hm] at hi
    cases hsv : s.saveI with
    | some x => rw [hsv] at hi; exact hi.elim
    | none =>
      rw [hsv] at hi
      obtain ⟨done, e, hb, hd, hn⟩ := hi
      rw [List.append_nil] at e
      exact ⟨by rw [e]; exact hb, by rw [e]; exact hd, by rw [e]; exact hn⟩
  · -- a field is begun
    rename_i f rest acc hm
    rw [hm] at hi
    cases hsv : s.saveI with
    | some x => rw [hsv] at hi; exact hi.elim
    | none =>
    rw [hsv] at hi
    obtain ⟨done, e, hb, hd, hn⟩ := hi
    have hf : IsField fs0 root f := (hmem f).1 (by rw [e]; simp)
    have pf := field_plain h0 hf
    have hfd : f ∉ done := by
      rw [e] at hnd
      intro hc
      exact (List.nodup_append.1 hnd).2.2 f hc f (by simp) rfl
    have etemp : BDisk.tempDir root f = root ++ [f, "temp"] := by unfold BDisk.tempDir; rw [join_plain pf, join_plain pt]; simp
    have eidx : join (join root f) "index" = root ++ [f, "index"] := by rw [join_plain pf, join_plain pi]; simp
    split at he
    · cases he; exact ⟨rfl, .inl rfl⟩
    · rename_i fs' hmk
      rw [etemp] at hmk
      have hfs : fs'.WF ∧ (∀ p, s.fs.get? p = some .dir → fs'.get? p = some .dir) ∧ (∀ p, p ≠ root ++ [f, "temp"] → fs'.get? p = s.fs.get? p) := by
        rcases mkdir_temp (hb.above h0) (hb.dirs _ hf.1) hmk with ⟨rfl, -⟩ | ⟨rfl, hnone⟩
        · exact ⟨hb.wf, fun _ h => h, fun _ _ => rfl⟩
        · refine ⟨hb.wf.set _ _, fun p hp => ?_, fun p hp => ?_⟩
          · rw [get?_set]; split
            · rfl
            · exact hp
          · rw [get?_set, if_neg (Ne.symm hp)]
      obtain ⟨w1, w2, w3⟩ := hfs
      have hu : ∀ p, Mine root f p → p ≠ root ++ [f, "temp"] → fs'.get? p = fs0.get? p := fun p hp hne =>
        (w3 p hne).trans (hb.same p fun g hg hp' => hfd (Mine.eq hp hp' ▸ hg))
      have hothers : ∀ p, ¬ Mine root f p → fs'.get? p = s.fs.get? p := fun p hp => w3 p fun e => hp (.inl e)
      have hidx : fs'.get? (root ++ [f, "index"]) = fs0.get? (root ++ [f, "index"]) := hu _ (.inr (.inl ⟨"index", by simp, rfl⟩)) (by simp)
      have hfr : ∀ n, fs'.get? (root ++ [f, "temp", n]) = fs0.get? (root ++ [f, "temp", n]) := fun n => hu _ (.inr (.inr ⟨n, rfl⟩)) (by simp)
      have hb' : Base fs0 root (f :: done) fs' := (hb.mono fun x hx => List.mem_cons_of_mem _ hx).change (f := f) (by simp) w1 w2 hothers
      have hd' : ∀ g ∈ done, Done fs0 root fs' acc g := done_other hfd hd (fun _ _ => rfl) hothers
      have finish : ∀ td, Gathered fs0 root f [] td → At fs0 root z fs' (.reading f rest [] (fs'.listFiles (BDisk.tempDir root f)) td acc) none := by
        intro td hg
        refine ⟨done, e, hb', hd', hn, hfr, by rw [List.nil_append]; exact listFiles_nodup w1 _, fun n => ?_, hg, fun x hx => hu _ (.inr (.inl ⟨x, hx, rfl⟩)) ?_⟩
        · rw [etemp, List.nil_append, FS.mem_listFiles fs' w1]
          have : root ++ [f, "temp"] ++ [n] = root ++ [f, "temp", n] := by simp
          rw [this, hfr]
        · simp only [List.mem_cons, List.not_mem_nil, or_false] at hx
          rcases hx with rfl | rfl | rfl <;> simp
      split at he
      · cases he; exact ⟨rfl, .inl rfl⟩
      · cases he
        have := hle { s with fs := fs' } hop
        exact ⟨this.1, .inl this.2⟩
      · rename_i td hload
        cases he
        refine ⟨hup, .inr (.inl ⟨hop, ?_⟩)⟩
        show At fs0 root z fs' (.reading f rest [] (fs'.listFiles (BDisk.tempDir root f)) td acc) s.saveI
        rw [hsv]
        refine finish td ?_
        unfold BDisk.loadTerms at hload
        rw [eidx] at hload
        split at hload
        · split at hload
          · cases hload
          · rename_i buf hrd
            obtain ⟨m, hm1, hm2⟩ := Option.map_eq_some_iff.1 hload
            cases hm2
            have hh := decodeIndex_iff.1 hm1
            have hget : fs0.get? (root ++ [f, "index"]) = some (.file buf) := by
              unfold FS.readFile at hrd
              rw [← hidx]
              split at hrd
              · rename_i c hc; cases hrd; exact hc
              · cases hrd
            refine ⟨Neat.loadPostings, fun t d => ?_, fun b hb => ?_, (fun n hn => by cases hn), fun t ht => ⟨_, buf, m, .index hget, hh, mem_keys_loadPostings ht⟩⟩
            · rw [hasPosting_loadPostings m (holdsIndex_neat hh).1]
              constructor
              · exact fun h => .inl ⟨buf, m, hget, hh, h⟩
              · rintro (⟨b, m', h1, h2, h3⟩ | ⟨n, hn, -⟩)
                · rw [hget] at h1; cases h1
                  have := decodeIndex_iff.2 h2
                  rw [hm1] at this; cases this; exact h3
                · cases hn
            · rw [hget] at hb; cases hb; exact ⟨m, hh⟩
        · rename_i hex
          cases hload
          have hnone : fs0.get? (root ++ [f, "index"]) = none := by rw [← hidx]; simpa [FS.exists_] using hex
          refine ⟨neat_nil, fun t d => ?_, fun b hb => ?_, (fun n hn => by cases hn), fun t ht => by cases ht⟩
          · rw [hasPosting_nil]
            constructor
            · intro h; cases h
            · rintro (⟨b, m', h1, -⟩ | ⟨n, hn, -⟩)
              · rw [hnone] at h1; cases h1
              · cases hn
          · rw [hnone] at hb; cases hb
  · -- a fragment is read
    rename_i f rest seen n ns td acc hm
    rw [hm] at hi
    obtain ⟨done, e, hb, hd, hn, hfr, hnn, hall, hg, hsv⟩ := hi
    have hf : IsField fs0 root f := (hmem f).1 (by rw [e]; simp)
    have pf := field_plain h0 hf
    obtain ⟨c, hc⟩ := (hall n).1 (by simp)
    have pn : PlainName n := h0.names _ _ hc n (by simp)
    have epath : join (BDisk.tempDir root f) n = root ++ [f, "temp", n] := by unfold BDisk.tempDir; rw [join_plain pf, join_plain pt, join_plain pn]; simp
    rw [epath] at he
    have hrd : s.fs.readFile (root ++ [f, "temp", n]) = some c := by unfold FS.readFile; rw [hfr, hc]
    rw [hrd] at he
    simp only at he
    split at he
    · cases he; exact ⟨rfl, .inl rfl⟩
    · rename_i m hdec
      cases he
      have hh := decodeIndex_iff.1 hdec
      refine ⟨hup, .inr (.inl ⟨hop, ?_⟩)⟩
      refine ⟨done, e, hb, hd, hn, hfr, by simpa using hnn, fun k => by rw [← hall k]; simp, ⟨hg.neat.mergeInto, fun t d => ?_, hg.index, fun k hk => ?_, fun t ht => ?_⟩, ?_⟩
      · rw [hasPosting_mergeInto td m (holdsIndex_neat hh).1, Bool.or_eq_true, hg.has]
        constructor
        · rintro ((h | ⟨k, hk, h⟩) | h)
          · exact .inl h
          · exact .inr ⟨k, by simp [hk], h⟩
          · exact .inr ⟨n, by simp, c, m, hc, hh, h⟩
        · rintro (h | ⟨k, hk, b, m', h1, h2, h3⟩)
          · exact .inl (.inl h)
          · rcases List.mem_append.1 hk with hk | hk
            · exact .inl (.inr ⟨k, hk, b, m', h1, h2, h3⟩)
            · rw [List.mem_singleton] at hk; subst hk
              rw [hc] at h1; cases h1
              have := decodeIndex_iff.2 h2
              rw [hdec] at this; cases this; exact .inr h3
      · rcases List.mem_append.1 hk with hk | hk
        · exact hg.seen k hk
        · rw [List.mem_singleton] at hk; subst hk; exact ⟨c, m, hc, hh⟩
      · rcases mem_keys_mergeInto ht with ht | ht
        · exact hg.terms t ht
        · exact ⟨_, c, m, .fragment hc, hh, ht⟩
      · cases hs : s.saveI with
        | none =>
          rw [hs] at hsv
          have e2 : (s.setMerger (MergePc.reading f rest (seen ++ [n]) ns (IxState.mergeInto td m) acc)).saveI = none := hs
          rw [e2]; exact hsv
        | some x => rw [hs] at hsv; exact absurd hsv.1 (by simp)
  · -- the merged index is to be written
    rename_i f rest seen td acc hm hsv
    rw [hm, hsv] at hi
    obtain ⟨done, e, hb, hd, hn, hfr, hnn, hall, hg, -⟩ := hi
    have hf : IsField fs0 root f := (hmem f).1 (by rw [e]; simp)
    have pf := field_plain h0 hf
    split at he
    · cases he; exact ⟨rfl, .inl rfl⟩
    · rename_i raw hser
      rw [join_plain pf, mkdir_field (hb.above h0) (hb.dirs _ hf.1)] at he
      cases he
      refine ⟨hup, .inr (.inl ⟨hop, ?_⟩)⟩
      show At fs0 root z s.fs s.d.ix.merger _
      rw [hm]
      exact ⟨done, e, hb, hd, hn, hfr, hnn, hall, hg, rfl, ⟨raw, hser, rfl⟩, Frame.refl _ _, rfl⟩
  · -- the merged index has been written
    rename_i f rest seen td acc c hm hsv
    rw [hm, hsv] at hi
    obtain ⟨done, e, hb, hd, hn, hfr, hnn, hall, hg, -, ⟨raw, hser, rfl⟩, -, hnow⟩ := hi
    have hf : IsField fs0 root f := (hmem f).1 (by rw [e]; simp)
    have hfd : f ∉ done := by
      rw [e] at hnd
      intro hc
      exact (List.nodup_append.1 hnd).2.2 f hc f (by simp) rfl
    rw [List.append_nil] at hall
    cases he
    refine ⟨hup, .inr (.inl ⟨hop, ?_⟩)⟩
    show At fs0 root z s.fs (.deleting f rest seen (acc.set f td)) none
    have hnow : s.fs.get? (root ++ [f, "index"]) = some (.file (z raw)) := by
      have : s.fs.get? (root ++ [f] ++ ["index"]) = some (.file (z raw)) := hnow
      simpa using this
    refine ⟨done, td, _, z raw, e, hb, ?_, fun g hg' => ?_, ?_, hg.says hf hall, hg.read hall, hnow, ⟨raw, (Gzip.c117_reads _ _).1 (Gzip.c117_round_trip (hz raw)), FBB.c111_index_bytes td hg.neat.1 hg.neat.2 hser⟩,
      hasPosting_written hg.neat, by simpa using hnn, fun n => ⟨fun hns => (by obtain ⟨c, hc⟩ := (hall n).1 hns; exact ⟨c, (hfr n).trans hc, h0.names _ _ hc n (by simp)⟩), fun hns c hc => hns ((hall n).2 ⟨c, by rw [← hfr]; exact hc⟩)⟩⟩
    · exact done_other hfd hd (fun g hg => by rw [get?_set, if_neg (Ne.symm hg)]) fun _ _ => rfl
    · rw [List.mem_cons, not_or] at hg'
      rw [get?_set, if_neg (Ne.symm hg'.1)]; exact hn g hg'.2
    · rw [get?_set, if_pos rfl]
  · -- the merged index is being written
    rename_i f rest seen td acc c pc hpc hm hsv
    rw [hm, hsv] at hi
    obtain ⟨done, e, hb, hd, hn, hfr, hnn, hall, hg, hfl, ⟨raw, hser, rfl⟩, hnow⟩ := hi
    have hfd : f ∉ done := by
      rw [e] at hnd
      intro hc
      exact (List.nodup_append.1 hnd).2.2 f hc f (by simp) rfl
    split at he
    · cases he
    · rename_i fs' hst
      cases he
      have := hle { s with fs := fs' } hop
      exact ⟨this.1, .inl this.2⟩
    · rename_i fs' pc' hnf hst
      cases he
      obtain ⟨fr, sv⟩ := Saving.self pi hnow hst
      refine ⟨hup, .inr (.inl ⟨hop, ?_⟩)⟩
      show At fs0 root z fs' s.d.ix.merger _
      rw [hm]
      exact ⟨done, e, hb.change (f := f) (by simp) (fr.wf hb.wf) fr.dir (Frame.mine fr), done_other hfd hd (fun _ _ => rfl) (Frame.mine fr), hn, fun n => (Frame.frag fr f n).trans (hfr n), hnn, hall, hg, hfl, ⟨raw, hser, rfl⟩, sv⟩
  · -- the fragments are gone
    rename_i f rest acc hm
    rw [hm] at hi
    cases hsv : s.saveI with
    | some x => rw [hsv] at hi; exact hi.elim
    | none =>
    rw [hsv] at hi
    obtain ⟨done, td, m, buf, e, hb, hd, hn, htd, hsays, hread, hidx, hh, hmp, hnn, hfr⟩ := hi
    have hf : IsField fs0 root f := (hmem f).1 (by rw [e]; simp)
    cases he
    refine ⟨hup, .inr (.inl ⟨hop, ?_⟩)⟩
    show At fs0 root z s.fs (.atField rest acc) s.saveI
    rw [hsv]
    refine ⟨done ++ [f], by simp [e], hb.mono fun x hx => by simp at hx ⊢; tauto, fun g hg => ?_, fun g hg => hn g (by simp at hg ⊢; tauto)⟩
    rcases List.mem_append.1 hg with hg | hg
    · exact hd g hg
    · rw [List.mem_singleton] at hg; subst hg
      refine ⟨⟨td, htd, hsays⟩, fun t d => ?_, fun n => (hfr n).2 (by simp), hread⟩
      rw [← hsays, ← hmp]
      constructor
      · rintro ⟨-, p, b, m', ds, hp, h2, h4, h5⟩
        cases hp with
        | index h1 =>
          rw [hidx] at h1; cases h1
          have e1 := decodeIndex_iff.2 h2
          rw [decodeIndex_iff.2 hh] at e1
          cases e1
          exact (hasPosting_iff m t d).2 ⟨ds, h4, h5⟩
        | fragment h1 => exact absurd h1 ((hfr _).2 (by simp) _)
      · intro h
        obtain ⟨ds, h4, h5⟩ := (hasPosting_iff m t d).1 h
        exact ⟨⟨hb.dirs _ hf.1, hf.2⟩, _, buf, m, ds, .index hidx, hh, h4, h5⟩
  · -- a fragment is removed
    rename_i f rest n ns acc hm
    rw [hm] at hi
    cases hsv : s.saveI with
    | some x => rw [hsv] at hi; exact hi.elim
    | none =>
    rw [hsv] at hi
    obtain ⟨done, td, m, buf, e, hb, hd, hn, htd, hsays, hread, hidx, hh, hmp, hnn, hfr⟩ := hi
    have hf : IsField fs0 root f := (hmem f).1 (by rw [e]; simp)
    have pf := field_plain h0 hf
    have hfd : f ∉ done := by
      rw [e] at hnd
      intro hc
      exact (List.nodup_append.1 hnd).2.2 f hc f (by simp) rfl
    split at he
    · cases he
      have := hle s hop
      exact ⟨this.1, .inl this.2⟩
    · rename_i fs' hrm
      cases he
      obtain ⟨c, hc, pn⟩ := (hfr n).1 (by simp)
      have epath : join (BDisk.tempDir root f) n = root ++ [f, "temp", n] := by unfold BDisk.tempDir; rw [join_plain pf, join_plain pt, join_plain pn]; simp
      rw [epath] at hrm
      unfold FS.remove at hrm
      rw [hc] at hrm
      cases hrm
      have hothers : ∀ p, p ≠ root ++ [f, "temp", n] → GoMap.get? (GoMap.del s.fs (root ++ [f, "temp", n])) p = s.fs.get? p := fun p hp => by rw [get?_del, if_neg (Ne.symm hp)]
      have hmine : ∀ p, ¬ Mine root f p → GoMap.get? (GoMap.del s.fs (root ++ [f, "temp", n])) p = s.fs.get? p := fun p hp => hothers p fun e => hp (.inr (.inr ⟨n, e⟩))
      rw [List.nodup_cons] at hnn
      refine ⟨hup, .inr (.inl ⟨hop, ?_⟩)⟩
      show At fs0 root z (GoMap.del s.fs (root ++ [f, "temp", n])) (.deleting f rest ns acc) s.saveI
      rw [hsv]
      refine ⟨done, td, m, buf, e, hb.change (f := f) (by simp) (hb.wf.del _) (fun p hp => ?_) hmine, done_other hfd hd (fun _ _ => rfl) hmine, hn, htd, hsays, hread, ?_, hh, hmp, hnn.2, fun k => ⟨fun hk => ?_, fun hk c' => ?_⟩⟩
      · rw [hothers p (by rintro rfl; rw [hc] at hp; cases hp)]; exact hp
      · rw [hothers _ (by simp)]; exact hidx
      · have : k ≠ n := fun e => hnn.1 (e ▸ hk)
        rw [hothers _ (by simpa using this)]
        exact (hfr k).1 (by simp [hk])
      · by_cases hkn : k = n
        · subst hkn; rw [get?_del, if_pos rfl]; simp
        · rw [hothers _ (by simpa using hkn)]
          exact (hfr k).2 (by simp [hk, hkn]) c'
  · cases he

end Opening
end Goir
