import Verif.Lemmas.FS
/-!
# C38–C40, C42–C44: SecureSaveFile, document files and field folders
-/
namespace Goir
open GoMap SaveCall

/-- **C38**: once all its system calls are made, `SecureSaveFile` has returned without error, the new content is under the
name, the two helper names are gone, and every other path is as before.  `Ready` asks that the folder exists, the name is a
single path component and the three names are not directories. -/
theorem c38_secureSave_installs (c : SaveCall) (fs : FS) (hr : c.Ready fs) :
    ∃ n0, ∀ n ≥ n0, ∃ fs', c.after n (fs, .start) = (fs', .done) ∧
      fs'.readFile (c.path ++ [c.name]) = some c.buf ∧
      fs'.get? (c.path ++ [c.name ++ "_temp"]) = none ∧
      fs'.get? (c.path ++ [c.name ++ "_old"]) = none ∧
      ∀ p, p ≠ c.path ++ [c.name] → p ≠ c.path ++ [c.name ++ "_temp"] → p ≠ c.path ++ [c.name ++ "_old"] →
        fs'.get? p = fs.get? p := by
  refine ⟨c.buf.length + 5, fun n hn => ?_⟩
  have h0 : At c fs (fs, .start) := rfl
  have hd := after_done hr n _ h0 hn
  have ha := after_at hr n _ h0
  generalize c.after n (fs, .start) = s at *
  obtain ⟨fs', pc⟩ := s
  simp only at hd; subst hd
  simp only [At] at ha
  have hp := hr.plain
  rw [← cur_eq hp, ← tmp_eq hp, ← old_eq hp]
  refine ⟨fs', rfl, ?_, ?_, ?_, ?_⟩
  · simp [FS.readFile, ha, cur_ne_tmp hp]
  · simp [ha]
  · simp [ha, Ne.symm (tmp_ne_old hp), Ne.symm (cur_ne_old hp)]
  · intro p h1 h2 h3; simp [ha, h1, h2, h3]

/-- the complete version on the disk before the call: the named file or, if it is missing, the left-over `_old` file. -/
def priorVersion (c : SaveCall) (fs : FS) : Option Bytes :=
  match fs.readFile (c.path ++ [c.name]) with
  | some v => some v
  | none => fs.readFile (c.path ++ [c.name ++ "_old"])

/-- **C39**: killed after any number of system calls, the old or the new version is complete under one of the three names. -/
theorem c39_secureSave_never_loses_both (c : SaveCall) (fs : FS) (hr : c.Ready fs) (v : Bytes)
    (hv : priorVersion c fs = some v) (n : Nat) :
    ∃ name ∈ [c.name, c.name ++ "_temp", c.name ++ "_old"],
      ∃ w, (c.after n (fs, .start)).1.readFile (c.path ++ [name]) = some w ∧ (w = v ∨ w = c.buf) := by
  have ha := after_at hr n _ (show At c fs (fs, .start) from rfl)
  have hp := hr.plain
  have r1 := hr.ncur
  unfold priorVersion at hv
  rw [← cur_eq hp, ← old_eq hp] at hv
  rw [← cur_eq hp] at r1
  have e1 := cur_ne_tmp hp
  have e2 := cur_ne_old hp
  have e3 := tmp_ne_old hp
  generalize c.after n (fs, .start) = s at *
  obtain ⟨fs', pc⟩ := s
  simp only [List.mem_cons, List.not_mem_nil, or_false, exists_eq_or_imp, exists_eq_left]
  rw [← cur_eq hp, ← tmp_eq hp, ← old_eq hp]
  -- before the move both `cur` and `old` are as they were
  have before : fs'.get? c.cur = fs.get? c.cur → fs'.get? c.old = fs.get? c.old →
      (∃ w, fs'.readFile c.cur = some w ∧ (w = v ∨ w = c.buf)) ∨
      (∃ w, fs'.readFile c.tmp = some w ∧ (w = v ∨ w = c.buf)) ∨
      ∃ w, fs'.readFile c.old = some w ∧ (w = v ∨ w = c.buf) := by
    intro h1 h2
    unfold FS.readFile at hv ⊢
    rw [h1, h2]
    match h : fs.get? c.cur with
    | none => rw [h] at hv; exact .inr (.inr ⟨v, hv, .inl rfl⟩)
    | some (.file b) => rw [h] at hv; exact .inl ⟨b, rfl, .inl (by simpa using hv)⟩
    | some .dir => exact absurd h r1
  match pc, ha with
  | .start, ha => simp only [At] at ha; subst ha; exact before rfl rfl
  | .writing n, ha =>
    simp only [At] at ha
    exact before (by rw [ha.2, if_neg e1]) (by rw [ha.2, if_neg (Ne.symm e3)])
  | .written, ha =>
    simp only [At] at ha
    exact before (by rw [ha, if_neg e1]) (by rw [ha, if_neg (Ne.symm e3)])
  | .moved, ha =>
    simp only [At] at ha
    exact .inr (.inl ⟨c.buf, by simp [FS.readFile, ha], .inr rfl⟩)
  | .installed, ha =>
    simp only [At] at ha
    exact .inl ⟨c.buf, by simp [FS.readFile, ha, e1], .inr rfl⟩
  | .done, ha =>
    simp only [At] at ha
    exact .inl ⟨c.buf, by simp [FS.readFile, ha, e1], .inr rfl⟩

/-- **C40** is false, and not just in one unlucky case: *every* call on an existing file passes through a point at which
nothing is stored under the name. -/
theorem c40_readable_refuted (c : SaveCall) (fs : FS) (hr : c.Ready fs) :
    ∃ n, (c.after n (fs, .start)).2 = .moved ∧ (c.after n (fs, .start)).1.get? (c.path ++ [c.name]) = none := by
  have hp := hr.plain
  -- follow the machine until only two calls are left
  have key : ∀ k (s : FS × SavePc), At c fs s → left c s.2 = 2 + k → ∃ n, (c.after n s).2 = .moved := by
    intro k
    induction k with
    | zero =>
      intro s hat hl
      refine ⟨0, ?_⟩
      obtain ⟨fs', pc⟩ := s
      match pc with
      | .moved => rfl
      | .start => simp [left] at hl
      | .writing n => simp [left] at hl
      | .written => simp [left] at hl
      | .installed => simp [left] at hl
      | .done => simp [left] at hl
      | .failed => simp [left] at hl
    | succ k ih =>
      intro s hat hl
      obtain ⟨s', hs, hl'⟩ := step_left hr s hat (by omega)
      obtain ⟨n, hn⟩ := ih s' (step_at hr _ _ hat hs) (by omega)
      exact ⟨n + 1, by simp only [after, hs]; exact hn⟩
  obtain ⟨n, hn⟩ := key (c.buf.length + 3) (fs, .start) rfl (by simp [left]; omega)
  refine ⟨n, hn, ?_⟩
  have ha := after_at hr n _ (show At c fs (fs, .start) from rfl)
  generalize c.after n (fs, .start) = s at *
  obtain ⟨fs', pc⟩ := s
  simp only at hn; subst hn
  simp only [At] at ha
  rw [← cur_eq hp, ha, if_neg (cur_ne_tmp hp), if_pos rfl]

/-- **C40**, the true part: between the two renames is the only point at which the named file is not the complete old or the
complete new version. -/
theorem c40_outside_window_partial (c : SaveCall) (fs : FS) (hr : c.Ready fs) (v : Bytes)
    (hv : fs.readFile (c.path ++ [c.name]) = some v) (n : Nat) (hw : (c.after n (fs, .start)).2 ≠ .moved) :
    ∃ w, (c.after n (fs, .start)).1.readFile (c.path ++ [c.name]) = some w ∧ (w = v ∨ w = c.buf) := by
  have ha := after_at hr n _ (show At c fs (fs, .start) from rfl)
  have hp := hr.plain
  rw [← cur_eq hp] at hv ⊢
  have e1 := cur_ne_tmp hp
  generalize c.after n (fs, .start) = s at *
  obtain ⟨fs', pc⟩ := s
  match pc, ha with
  | .start, ha => simp only [At] at ha; subst ha; exact ⟨v, hv, .inl rfl⟩
  | .writing n, ha => simp only [At] at ha; exact ⟨v, by simpa [FS.readFile, ha.2, e1] using hv, .inl rfl⟩
  | .written, ha => simp only [At] at ha; exact ⟨v, by simpa [FS.readFile, ha, e1] using hv, .inl rfl⟩
  | .moved, ha => exact absurd rfl hw
  | .installed, ha => simp only [At] at ha; exact ⟨c.buf, by simp [FS.readFile, ha, e1], .inr rfl⟩
  | .done, ha => simp only [At] at ha; exact ⟨c.buf, by simp [FS.readFile, ha, e1], .inr rfl⟩

/-! ### Non-vacuity -/

/-- a folder `/data/docs/metrics` with a stored document `d1`. -/
def sampleFS : FS :=
  [(["data"], .dir), (["data", "docs"], .dir), (["data", "docs", "metrics"], .dir),
   (["data", "docs", "metrics", "d1"], .file [1, 2]), (["data", "docs", "metrics", "a_old"], .file [9]),
   (["data", "docs", "metrics", "a"], .file [8])]

/-- a save of a document file. -/
def sampleCall (id : String) : SaveCall := ⟨["data", "docs", "metrics"], id, [7, 7, 7]⟩

theorem sample_ready : (sampleCall "d1").Ready sampleFS :=
  ⟨by decide, by decide, by decide, by decide, by decide⟩

example : priorVersion (sampleCall "d1") sampleFS = some [1, 2] := by decide
example : ((sampleCall "d1").after 100 (sampleFS, .start)).1.readFile ["data", "docs", "metrics", "d1"] = some [7, 7, 7] := by
  decide
example : ((sampleCall "d1").after 6 (sampleFS, .start)).1.get? ["data", "docs", "metrics", "d1"] = none := by decide

/-! ### Document files -/

/-- the folder of the document files, `filepath.Join(root, "docs", "metrics")` (/repo/storage/DiskIO.go:207). -/
def docFolder (root : Path) : Path := join (join root "docs") "metrics"

/-- the file of a document: `filepath.Join(root, "docs", "metrics", id)` (/repo/storage/DiskIO.go:63 and, through
SecureSaveFile, 211). -/
def docPath (root : Path) (id : String) : Path := join (docFolder root) id

/-- the call that flushes a document (/repo/storage/DiskIO.go:211). -/
def docSave (root : Path) (id : String) (buf : Bytes) : SaveCall := ⟨docFolder root, id, buf⟩

/-- **C42** is false: flushing document "a" deletes the stored file of document "a_old". -/
theorem c42_other_documents_refuted :
    ¬ ∀ (root : Path) (fs : FS) (d e : String) (buf : Bytes) (n : Nat), d ≠ e → PlainName d → PlainName e →
      (docSave root d buf).Ready fs →
      ((docSave root d buf).after n (fs, .start)).1.readFile (docPath root e) = fs.readFile (docPath root e) := by
  intro h
  have := h ["data"] sampleFS "a" "a_old" [7] 100 (by decide) (by decide) (by decide)
    ⟨by decide, by decide, by decide, by decide, by decide⟩
  revert this; decide

/-- **C42**, the true part: at every point of the flush of `d`, the file of any other document whose id is not `d ++ "_temp"`
or `d ++ "_old"` is unchanged. -/
theorem c42_other_documents_partial (root : Path) (fs : FS) (d e : String) (buf : Bytes) (n : Nat)
    (he : PlainName e) (hr : (docSave root d buf).Ready fs) (h1 : e ≠ d) (h2 : e ≠ d ++ "_temp") (h3 : e ≠ d ++ "_old") :
    ((docSave root d buf).after n (fs, .start)).1.get? (docPath root e) = fs.get? (docPath root e) := by
  have ha := after_at hr n _ (show At _ fs (fs, .start) from rfl)
  have hp := hr.plain
  have inj : ∀ x : String, docFolder root ++ [e] = docFolder root ++ [x] → e = x := by
    intro x h; simpa using (List.append_right_inj _).1 h
  have q1 : docPath root e ≠ (docSave root d buf).cur := by
    rw [cur_eq hp, docPath, join_plain he]; exact fun h => h1 (inj _ h)
  have q2 : docPath root e ≠ (docSave root d buf).tmp := by
    rw [tmp_eq hp, docPath, join_plain he]; exact fun h => h2 (inj _ h)
  have q3 : docPath root e ≠ (docSave root d buf).old := by
    rw [old_eq hp, docPath, join_plain he]; exact fun h => h3 (inj _ h)
  generalize (docSave root d buf).after n (fs, .start) = s at *
  obtain ⟨fs', pc⟩ := s
  match pc, ha with
  | .start, ha => simp only [At] at ha; subst ha; rfl
  | .writing n, ha => simp only [At] at ha; simp [ha.2, q2]
  | .written, ha => simp only [At] at ha; simp [ha, q2]
  | .moved, ha => simp only [At] at ha; simp [ha, q1, q2, q3]
  | .installed, ha => simp only [At] at ha; simp [ha, q1, q2, q3]
  | .done, ha => simp only [At] at ha; simp [ha, q1, q2, q3]

example : (docSave ["data"] "d1" [5]).Ready sampleFS ∧ "a" ≠ "d1" ∧ PlainName "a" :=
  ⟨⟨by decide, by decide, by decide, by decide, by decide⟩, by decide, by decide⟩

/-- **C43** is false, three ways: an id with ".." leaves the folder, two different ids share a file, and the empty id is the
folder itself. -/
theorem c43_ids_confined_refuted (root : Path) :
    docPath root "../../title/index" = root ++ ["title", "index"] ∧
    docPath root "x/../y" = docPath root "y" ∧
    docPath root "" = docFolder root := by
  have hf : docFolder root = root ++ ["docs", "metrics"] := by
    unfold docFolder
    rw [join_plain (by decide), join_plain (by decide)]; simp
  refine ⟨?_, ?_, ?_⟩
  · rw [docPath, hf, join, show components "../../title/index" = ["..", "..", "title", "index"] from by decide]
    have h1 : cleanStep (root ++ ["docs", "metrics"]) ".." = root ++ ["docs"] := by
      have : root ++ ["docs", "metrics"] = (root ++ ["docs"]) ++ ["metrics"] := by simp
      rw [this, cleanStep, if_neg (by decide), if_pos rfl, List.dropLast_concat]
    have h2 : cleanStep (root ++ ["docs"]) ".." = root := by
      rw [cleanStep, if_neg (by decide), if_pos rfl, List.dropLast_concat]
    simp only [List.foldl_cons, List.foldl_nil, h1, h2]
    simp [cleanStep]
  · rw [docPath, docPath, hf, join, join, show components "x/../y" = ["x", "..", "y"] from by decide,
      show components "y" = ["y"] from by decide]
    have h1 : cleanStep (root ++ ["docs", "metrics"]) "x" = (root ++ ["docs", "metrics"]) ++ ["x"] := by
      simp [cleanStep]
    have h2 : cleanStep ((root ++ ["docs", "metrics"]) ++ ["x"]) ".." = root ++ ["docs", "metrics"] := by
      rw [cleanStep, if_neg (by decide), if_pos rfl, List.dropLast_concat]
    simp only [List.foldl_cons, List.foldl_nil, h1, h2]
  · rw [docPath, hf, join, show components "" = [""] from by decide]
    simp [cleanStep]

/-- **C43**, the true part: ids that are single path components are stored directly in the document folder, each in its own
file. -/
theorem c43_ids_confined_partial (root : Path) (d e : String) (hd : PlainName d) (he : PlainName e) :
    (docPath root d).dropLast = docFolder root ∧ (docPath root d = docPath root e ↔ d = e) := by
  rw [docPath, docPath, join_plain hd, join_plain he]
  refine ⟨by simp, ?_⟩
  constructor
  · intro h; simpa using (List.append_right_inj _).1 h
  · rintro rfl; rfl

example : PlainName "doc 1" ∧ ¬ PlainName "a/b" ∧ ¬ PlainName ".." := by decide

/-! ### Field folders -/

/-- what the metrics writer does for one field (/repo/storage/DiskIO.go:288-294): `MkdirAll(root/field)` and then a complete
`SecureSaveFile(root/field, "metrics", buf)`. -/
def saveFieldMetrics (root : Path) (fs : FS) (field : String) (buf : Bytes) : Option FS := do
  let path := join root field
  let fs ← fs.mkdirAll path
  let c : SaveCall := ⟨path, "metrics", buf⟩
  let s := c.after (buf.length + 5) (fs, .start)
  if s.2 = .done then some s.1 else none

/-- the metrics files found when the folder is opened (/repo/storage/DiskIO.go:40-60), with the field name they are found
under. -/
def loadFieldMetrics (root : Path) (fs : FS) : List (String × Bytes) :=
  (fs.listDirectories root).filterMap fun field =>
    (fs.readFile (join (join root field) "metrics")).map fun b => (field, b)

/-- a folder that exists together with all its parents. -/
def FolderExists (fs : FS) (root : Path) : Prop := ∀ i < root.length, fs.get? (root.take (i + 1)) = some .dir

/-- C44: `ListFiles` gives the names of the plain files of a folder, `ListDirectories` those of its folders except "docs"; nothing
deeper, nothing twice. -/
theorem c44_listings_exact (fs : FS) (wf : fs.WF) (p : Path) :
    (∀ name, name ∈ fs.listFiles p ↔ ∃ b, fs.readFile (p ++ [name]) = some b) ∧
    (∀ name, name ∈ fs.listDirectories p ↔ fs.get? (p ++ [name]) = some .dir ∧ name ≠ "docs") ∧
    (fs.listFiles p).Nodup ∧ (fs.listDirectories p).Nodup := by
  have key : ∀ (q : Path) (name : String), q.getLast? = some name → q.dropLast = p → q = p ++ [name] := by
    intro q name h1 h2
    obtain ⟨l, rfl⟩ := List.getLast?_eq_some_iff.1 h1
    simp only [List.dropLast_concat] at h2
    rw [h2]
  have nd : ∀ (P : Node → Path → String → Bool), (List.filterMap (fun e : Path × Node =>
      match e.1.getLast? with
      | some name => if P e.2 e.1 name = true ∧ e.1.dropLast = p then some name else none
      | none => none) fs).Nodup := by
    intro P
    have hnd : (fs.map Prod.fst).Nodup := wf
    clear wf
    induction fs with
    | nil => simp
    | cons e fs ih =>
      simp only [List.map_cons, List.nodup_cons] at hnd
      rw [List.filterMap_cons]
      split
      · exact ih hnd.2
      · rename_i name he
        rw [List.nodup_cons]
        refine ⟨fun hm => ?_, ih hnd.2⟩
        obtain ⟨e', he', hn'⟩ := List.mem_filterMap.1 hm
        have get : ∀ (e : Path × Node), (match e.1.getLast? with
            | some name => if P e.2 e.1 name = true ∧ e.1.dropLast = p then some name else none
            | none => none) = some name → e.1 = p ++ [name] := by
          intro e he
          cases hq : e.1.getLast? with
          | none => rw [hq] at he; cases he
          | some n =>
            rw [hq] at he
            simp only at he
            split at he
            · rename_i hc; cases he; exact key _ _ hq hc.2
            · cases he
        exact hnd.1 (by rw [get e he, ← get e' hn']; exact List.mem_map_of_mem he')
  refine ⟨fun name => ?_, fun name => ?_, ?_, ?_⟩
  · simp only [FS.listFiles, List.mem_filterMap, FS.readFile]
    constructor
    · rintro ⟨e, he, h⟩
      cases hq : e.1.getLast? with
      | none => rw [hq] at h; cases h
      | some n =>
        rw [hq] at h
        simp only at h
        split at h
        · rename_i hc; cases h
          have := GoMap.get?_of_mem wf (show (e.1, e.2) ∈ fs from he)
          rw [← key _ _ hq hc.2, this]
          cases h2 : e.2 with
          | dir => exact absurd h2 hc.1
          | file c => exact ⟨c, rfl⟩
        · cases h
    · rintro ⟨b, hb⟩
      cases hg : fs.get? (p ++ [name]) with
      | none => rw [hg] at hb; cases hb
      | some n =>
        rw [hg] at hb
        cases n with
        | dir => cases hb
        | file c => exact ⟨(p ++ [name], .file c), GoMap.mem_of_get? hg, by simp⟩
  · simp only [FS.listDirectories, List.mem_filterMap]
    constructor
    · rintro ⟨e, he, h⟩
      cases hq : e.1.getLast? with
      | none => rw [hq] at h; cases h
      | some n =>
        rw [hq] at h
        simp only at h
        split at h
        · rename_i hc; cases h
          have := GoMap.get?_of_mem wf (show (e.1, e.2) ∈ fs from he)
          rw [← key _ _ hq hc.2.1, this]
          exact ⟨by rw [hc.1], hc.2.2⟩
        · cases h
    · rintro ⟨hg, hn⟩
      exact ⟨(p ++ [name], .dir), GoMap.mem_of_get? hg, by simp [hn]⟩
  · have := nd (fun n _ _ => decide (n ≠ .dir))
    refine (congrArg List.Nodup ?_).mp this
    unfold FS.listFiles
    congr 1; funext e
    cases e.1.getLast? with
    | none => rfl
    | some n => simp only [decide_eq_true_eq]
  · have := nd (fun n _ name => decide (n = .dir ∧ name ≠ "docs"))
    refine (congrArg List.Nodup ?_).mp this
    unfold FS.listDirectories
    congr 1; funext e
    cases e.1.getLast? with
    | none => rfl
    | some n =>
      simp only [decide_eq_true_eq]
      congr 1
      simp only [eq_iff_iff]
      exact ⟨fun ⟨⟨a, b⟩, c⟩ => ⟨a, c, b⟩, fun ⟨a, c, b⟩ => ⟨⟨a, b⟩, c⟩⟩

example : FS.listFiles [(["d"], .dir), (["d", "x"], .file [1]), (["d", "e"], .dir), (["d", "docs"], .dir), (["d", "e", "y"], .file [])] ["d"]
    = ["x"] ∧
    FS.listDirectories [(["d"], .dir), (["d", "x"], .file [1]), (["d", "e"], .dir), (["d", "docs"], .dir), (["d", "e", "y"], .file [])] ["d"]
    = ["e"] := by decide

/-- **C44** is false: the metrics of a field named "docs" and of a field named "a/b" are written but never found again. -/
theorem c44_field_names_refuted :
    ¬ ∀ (fs : FS) (field : String) (buf : Bytes), FolderExists fs ["data"] →
      ∀ fs', saveFieldMetrics ["data"] fs field buf = some fs' → (field, buf) ∈ loadFieldMetrics ["data"] fs' := by
  intro h
  have hex : FolderExists [(["data"], Node.dir)] ["data"] := by
    intro i hi; have : i = 0 := by simpa using hi
    subst this; rfl
  have := h [(["data"], .dir)] "docs" [1] hex _ rfl
  revert this; decide

/-- the second way C44 fails. -/
theorem c44_slash_refuted :
    ∃ fs', saveFieldMetrics ["data"] [(["data"], .dir)] "a/b" [1] = some fs' ∧ loadFieldMetrics ["data"] fs' = [] :=
  ⟨_, rfl, by decide⟩

theorem mkdirAll_child {fs : FS} {root : Path} {f : String} (hex : FolderExists fs root)
    (hnf : ∀ b, fs.get? (root ++ [f]) ≠ some (.file b)) :
    ∃ fs', fs.mkdirAll (root ++ [f]) = some fs' ∧ fs'.get? (root ++ [f]) = some .dir ∧
      ∀ p, p ≠ root ++ [f] → fs'.get? p = fs.get? p := by
  have hpre : ∀ k ≤ root.length,
      (List.range k).foldlM (fun (fs : FS) i => fs.mkdir1 ((root ++ [f]).take (i + 1))) fs = some fs := by
    intro k hk
    induction k with
    | zero => rfl
    | succ k ih =>
      rw [List.range_succ, List.foldlM_append, ih (by omega)]
      have ht : (root ++ [f]).take (k + 1) = root.take (k + 1) := by
        rw [List.take_append_of_le_length (by omega)]
      simp [ht, FS.mkdir1, hex k (by omega)]
  have hall : fs.mkdirAll (root ++ [f]) = fs.mkdir1 (root ++ [f]) := by
    unfold FS.mkdirAll
    simp only [List.length_append, List.length_cons, List.length_nil, Nat.zero_add]
    rw [List.range_succ, List.foldlM_append, hpre _ (Nat.le_refl _)]
    have ht : (root ++ [f]).take (root.length + 1) = root ++ [f] := List.take_of_length_le (by simp)
    simp [ht]
  rw [hall, FS.mkdir1]
  match h : fs.get? (root ++ [f]) with
  | some .dir => exact ⟨fs, rfl, h, fun _ _ => rfl⟩
  | some (.file b) => exact absurd h (hnf b)
  | none =>
    refine ⟨_, rfl, by simp, ?_⟩
    intro p hp; rw [get?_set_ne _ _ (Ne.symm hp)]

/-- **C44**, the true part: a field name that is a single path component other than "docs" is stored and found again, for
every state of the folder in which the field's place is not taken by files or directories of the wrong kind. -/
theorem c44_field_names_partial (root : Path) (fs : FS) (field : String) (buf : Bytes) (hp : PlainName field)
    (hnd : field ≠ "docs") (hex : FolderExists fs root)
    (hnf : ∀ b, fs.get? (root ++ [field]) ≠ some (.file b))
    (hfiles : ∀ s ∈ ["metrics", "metrics_temp", "metrics_old"], fs.get? (root ++ [field] ++ [s]) ≠ some .dir) :
    ∃ fs', saveFieldMetrics root fs field buf = some fs' ∧ (field, buf) ∈ loadFieldMetrics root fs' := by
  obtain ⟨fs1, h1, h2, h3⟩ := mkdirAll_child hex hnf
  have hpm : PlainName "metrics" := by decide
  have frame : ∀ s, fs1.get? (root ++ [field] ++ [s]) = fs.get? (root ++ [field] ++ [s]) := by
    intro s; apply h3; intro h; have := congrArg List.length h; simp at this
  have hr : SaveCall.Ready ⟨root ++ [field], "metrics", buf⟩ fs1 := by
    refine ⟨hpm, ?_, ?_, ?_, ?_⟩
    · show fs1.isDir (root ++ [field]) = true
      simp [FS.isDir, h2]
    · show fs1.get? (root ++ [field] ++ ["metrics"]) ≠ some .dir
      rw [frame]; exact hfiles _ (by simp)
    · show fs1.get? (root ++ [field] ++ ["metrics_temp"]) ≠ some .dir
      rw [frame]; exact hfiles _ (by simp)
    · show fs1.get? (root ++ [field] ++ ["metrics_old"]) ≠ some .dir
      rw [frame]; exact hfiles _ (by simp)
  have h0 : At ⟨root ++ [field], "metrics", buf⟩ fs1 (fs1, .start) := rfl
  have hd := after_done hr (buf.length + 5) _ h0 (Nat.le_refl _)
  have ha := after_at hr (buf.length + 5) _ h0
  generalize hs : SaveCall.after ⟨root ++ [field], "metrics", buf⟩ (buf.length + 5) (fs1, .start) = s at *
  obtain ⟨fs', pc⟩ := s
  simp only at hd; subst hd
  simp only [At] at ha
  refine ⟨fs', ?_, ?_⟩
  · simp [saveFieldMetrics, join_plain hp, h1, hs]
  · have hdir : fs'.get? (root ++ [field]) = some .dir := by
      rw [ha]
      have q : ∀ x, root ++ [field] ≠ (root ++ [field]) ++ [x] := by
        intro x h; have := congrArg List.length h; simp at this
      rw [tmp_eq hr.plain, cur_eq hr.plain, old_eq hr.plain, if_neg (q _), if_neg (q _), if_neg (q _)]
      exact h2
    have hfile : fs'.readFile (root ++ [field] ++ ["metrics"]) = some buf := by
      have := ha (root ++ [field] ++ ["metrics"])
      rw [tmp_eq hr.plain, cur_eq hr.plain] at this
      have hne : root ++ [field] ++ ["metrics"] ≠ root ++ [field] ++ ["metrics" ++ "_temp"] := by
        intro h; have := (List.append_right_inj _).1 h; revert this; decide
      rw [if_neg hne, if_pos rfl] at this
      unfold FS.readFile; rw [this]
    unfold loadFieldMetrics
    rw [List.mem_filterMap]
    refine ⟨field, ?_, ?_⟩
    · unfold FS.listDirectories
      rw [List.mem_filterMap]
      exact ⟨(root ++ [field], .dir), mem_of_get? hdir, by simp [hnd]⟩
    · rw [join_plain hp, join_plain hpm, hfile]; rfl

example : FolderExists sampleFS ["data"] ∧ PlainName "title" ∧ "title" ≠ "docs" ∧
    ∃ fs', saveFieldMetrics ["data"] sampleFS "title" [3] = some fs' ∧ ("title", [3]) ∈ loadFieldMetrics ["data"] fs' := by
  refine ⟨?_, by decide, by decide, _, rfl, by decide⟩
  intro i hi; have : i = 0 := by simpa using hi
  subst this; rfl

end Goir
