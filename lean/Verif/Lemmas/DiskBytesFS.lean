import Verif.Lemmas.FS
import Verif.Model.SFile
import Verif.Props.Gzip
/-!
# The file system under a store: what its operations do to the listings, and SecureSaveFile among others
-/
namespace Goir
open GoMap

/-! ### maps as lists -/

theorem GoMap.keys_set {K V : Type} [DecidableEq K] (m : GoMap K V) (k : K) (v : V) : (m.set k v).keys = if k ∈ m.keys then m.keys else m.keys ++ [k] := by
  induction m with
  | nil => simp [GoMap.set, keys]
  | cons e m ih =>
    obtain ⟨k', v'⟩ := e
    unfold GoMap.set
    by_cases h : k' = k
    · subst h; simp [keys]
    · have h' : ¬ k = k' := fun e => h e.symm
      simp only [h, if_false, keys, List.map_cons, List.mem_cons, h', false_or]
      have := ih
      simp only [keys] at this
      rw [this]
      by_cases hm : k ∈ m.map Prod.fst <;> simp [hm]

theorem GoMap.keys_del {K V : Type} [DecidableEq K] (m : GoMap K V) (k : K) : (m.del k).keys = m.keys.filter (fun j => j ≠ k) := by
  induction m with
  | nil => rfl
  | cons e m ih =>
    obtain ⟨k', v'⟩ := e
    unfold GoMap.del
    have := ih
    simp only [keys] at this
    by_cases h : k' = k
    · subst h; simp [keys, this]
    · simp only [h, if_false, keys, List.map_cons, this]; simp [h]

theorem snoc_of_getLast? {α : Type} {l : List α} {x : α} (h : l.getLast? = some x) : l.dropLast ++ [x] = l := by
  obtain ⟨l', rfl⟩ := List.getLast?_eq_some_iff.1 h
  simp

section
variable {K V W : Type} [DecidableEq K] (g : K × V → Option W)

theorem filterMap_set_same (m : GoMap K V) (k : K) (v : V) (h : ∀ u, m.get? k = some u → g (k, u) = g (k, v)) (h' : m.get? k = none → g (k, v) = none) : (m.set k v).filterMap g = m.filterMap g := by
  induction m with
  | nil => simp [GoMap.set, h' rfl]
  | cons e m ih =>
    obtain ⟨k', v'⟩ := e
    unfold GoMap.set
    by_cases hk : k' = k
    · subst hk
      have := h v' (by simp [get?])
      simp [List.filterMap_cons, this]
    · simp only [hk, if_false, List.filterMap_cons]
      rw [ih (fun u hu => h u (by simp [get?, hk, hu])) (fun hu => h' (by simp [get?, hk, hu]))]

theorem filterMap_set_new (m : GoMap K V) (k : K) (v : V) (h : m.get? k = none) : (m.set k v).filterMap g = m.filterMap g ++ (g (k, v)).toList := by
  rw [set_eq_append ((get?_eq_none_iff m k).1 h), List.filterMap_append]
  cases hg : g (k, v) <;> simp [hg]

theorem filterMap_del_same (m : GoMap K V) (wf : m.WF) (k : K) (h : ∀ u, m.get? k = some u → g (k, u) = none) : (m.del k).filterMap g = m.filterMap g := by
  induction m with
  | nil => rfl
  | cons e m ih =>
    obtain ⟨k', v'⟩ := e
    unfold GoMap.del
    by_cases hk : k' = k
    · subst hk
      have h1 := h v' (by simp [get?])
      have hn : k' ∉ GoMap.keys m := by
        have := wf; simp only [WF, keys, List.map_cons, List.nodup_cons] at this; exact this.1
      simp only [if_true, List.filterMap_cons, h1]
      rw [del_of_not_mem hn]
    · simp only [hk, if_false, List.filterMap_cons]
      rw [ih wf.tail (fun u hu => h u (by simp [get?, hk, hu]))]

end

namespace FS

/-! ### listings -/

theorem listDirectories_set_file (fs : FS) (p q : Path) (c : Bytes) (h : fs.get? p ≠ some .dir) : FS.listDirectories (fs.set p (.file c)) q = fs.listDirectories q := by
  unfold listDirectories
  apply filterMap_set_same
  · intro u hu
    cases u with
    | dir => exact absurd hu h
    | file x => simp
  · intro _
    simp
    cases p.getLast? <;> rfl

theorem listDirectories_del (fs : FS) (wf : fs.WF) (p q : Path) (h : fs.get? p ≠ some .dir) : FS.listDirectories (fs.del p) q = fs.listDirectories q := by
  unfold listDirectories
  apply filterMap_del_same _ _ wf
  intro u hu
  cases u with
  | dir => exact absurd hu h
  | file x => simp; cases p.getLast? <;> rfl

theorem listFiles_set_other (fs : FS) (p q : Path) (n : Node) (h : p.dropLast ≠ q) : FS.listFiles (fs.set p n) q = fs.listFiles q := by
  have e : ∀ u : Node, (match p.getLast? with | some name => if u ≠ .dir ∧ p.dropLast = q then some name else none | none => none) = none := by
    intro u; cases p.getLast? <;> simp [h]
  unfold listFiles
  apply filterMap_set_same
  · intro u hu; exact (e u).trans (e n).symm
  · intro _; exact e n

theorem listFiles_del_other (fs : FS) (wf : fs.WF) (p q : Path) (h : p.dropLast ≠ q) : FS.listFiles (fs.del p) q = fs.listFiles q := by
  unfold listFiles
  apply filterMap_del_same _ _ wf
  intro u hu
  cases p.getLast? <;> simp [h]

theorem listFiles_new (fs : FS) (q : Path) (name : String) (c : Bytes) (h : fs.get? (q ++ [name]) = none) : FS.listFiles (fs.set (q ++ [name]) (.file c)) q = fs.listFiles q ++ [name] := by
  unfold listFiles
  rw [filterMap_set_new _ _ _ _ h]
  simp

theorem listFiles_same (fs : FS) (q : Path) (name : String) (c c' : Bytes) (h : fs.get? (q ++ [name]) = some (.file c')) : FS.listFiles (fs.set (q ++ [name]) (.file c)) q = fs.listFiles q := by
  unfold listFiles
  apply filterMap_set_same
  · intro u hu
    rw [h] at hu; cases hu
    simp
  · intro hn; rw [h] at hn; cases hn

theorem listFiles_del (fs : FS) (q : Path) (name : String) : FS.listFiles (fs.del (q ++ [name])) q = (fs.listFiles q).filter (fun n => n ≠ name) := by
  unfold listFiles
  induction fs with
  | nil => rfl
  | cons e m ih =>
    obtain ⟨k', v'⟩ := e
    unfold GoMap.del
    by_cases hk : k' = q ++ [name]
    · subst hk
      simp only [if_true, List.filterMap_cons, ih]
      cases v' <;> simp
    · simp only [hk, if_false, List.filterMap_cons, ih]
      cases hl : k'.getLast? with
      | none => simp
      | some x =>
        by_cases hc : v' ≠ .dir ∧ k'.dropLast = q
        · have hx : x ≠ name := by
            rintro rfl
            apply hk
            rw [← hc.2]
            exact (snoc_of_getLast? hl).symm
          simp [hc, hx]
        · simp only [hc, if_false]

theorem listDirectories_new (fs : FS) (q : Path) (name : String) (h : fs.get? (q ++ [name]) = none) (hd : name ≠ "docs") : FS.listDirectories (fs.set (q ++ [name]) .dir) q = fs.listDirectories q ++ [name] := by
  unfold listDirectories
  rw [filterMap_set_new _ _ _ _ h]
  simp [hd]

theorem listDirectories_mkdir_other (fs : FS) (p q : Path) (h : fs.get? p = none) (hd : p.dropLast ≠ q ∨ p.getLast? = some "docs") : FS.listDirectories (fs.set p .dir) q = fs.listDirectories q := by
  unfold listDirectories
  rw [filterMap_set_new _ _ _ _ h]
  rcases hd with hd | hd
  · cases p.getLast? <;> simp [hd]
  · simp [hd]

theorem listFiles_mkdir (fs : FS) (p q : Path) (h : fs.get? p = none) : FS.listFiles (fs.set p .dir) q = fs.listFiles q := by
  unfold listFiles
  rw [filterMap_set_new _ _ _ _ h]
  cases p.getLast? <;> simp

theorem mem_listDirectories (fs : FS) (wf : fs.WF) (q : Path) (name : String) : name ∈ fs.listDirectories q ↔ fs.get? (q ++ [name]) = some .dir ∧ name ≠ "docs" := by
  unfold listDirectories
  rw [List.mem_filterMap]
  constructor
  · rintro ⟨⟨k, v⟩, hm, he⟩
    cases hl : k.getLast? with
    | none => simp [hl] at he
    | some x =>
      simp only [hl] at he
      split at he
      · rename_i hc
        cases he
        refine ⟨?_, hc.2.2⟩
        have : k = q ++ [name] := by rw [← hc.2.1]; exact (snoc_of_getLast? hl).symm
        rw [← this, get?_of_mem wf hm, hc.1]
      · cases he
  · rintro ⟨h1, h2⟩
    exact ⟨_, mem_of_get? h1, by simp [h2]⟩

theorem mem_listFiles (fs : FS) (wf : fs.WF) (q : Path) (name : String) : name ∈ fs.listFiles q ↔ ∃ c, fs.get? (q ++ [name]) = some (.file c) := by
  unfold listFiles
  rw [List.mem_filterMap]
  constructor
  · rintro ⟨⟨k, v⟩, hm, he⟩
    cases hl : k.getLast? with
    | none => simp [hl] at he
    | some x =>
      simp only [hl] at he
      split at he
      · rename_i hc
        cases he
        have : k = q ++ [name] := by rw [← hc.2]; exact (snoc_of_getLast? hl).symm
        rw [← this, get?_of_mem wf hm]
        cases v with
        | dir => exact absurd rfl hc.1
        | file c => exact ⟨c, rfl⟩
      · cases he
  · rintro ⟨c, h1⟩
    exact ⟨_, mem_of_get? h1, by simp⟩

/-! ### directories -/

theorem mkdirAll_snoc (fs : FS) (p : Path) (x : String) : fs.mkdirAll (p ++ [x]) = (fs.mkdirAll p).bind fun fs' => FS.mkdir1 fs' (p ++ [x]) := by
  unfold mkdirAll
  rw [List.length_append, List.length_singleton, List.range_succ, List.foldlM_append]
  have e : (List.range p.length).foldlM (fun (fs : FS) i => fs.mkdir1 ((p ++ [x]).take (i + 1))) fs = (List.range p.length).foldlM (fun (fs : FS) i => fs.mkdir1 (p.take (i + 1))) fs := by
    have : ∀ (l : List Nat), (∀ i ∈ l, i < p.length) → ∀ fs, l.foldlM (fun (fs : FS) i => fs.mkdir1 ((p ++ [x]).take (i + 1))) fs = l.foldlM (fun (fs : FS) i => fs.mkdir1 (p.take (i + 1))) fs := by
      intro l
      induction l with
      | nil => intro _ fs; rfl
      | cons i l ih =>
        intro hl fs
        rw [List.foldlM_cons, List.foldlM_cons]
        have hi := hl i (by simp)
        rw [List.take_append_of_le_length (by omega)]
        cases fs.mkdir1 (p.take (i + 1)) with
        | none => rfl
        | some fs' => exact ih (fun j hj => hl j (by simp [hj])) fs'
    exact this _ (fun i hi => List.mem_range.1 hi) fs
  rw [e]
  simp only [List.foldlM_cons, List.foldlM_nil]
  cases (List.range p.length).foldlM (fun (fs : FS) i => fs.mkdir1 (p.take (i + 1))) fs with
  | none => rfl
  | some fs' =>
    simp only [Option.bind_eq_bind, Option.bind_some]
    rw [List.take_of_length_le (by simp)]
    cases fs'.mkdir1 (p ++ [x]) <;> rfl

theorem mkdirAll_existing (fs : FS) (p : Path) (h : ∀ i < p.length, fs.get? (p.take (i + 1)) = some .dir) : fs.mkdirAll p = some fs := by
  unfold mkdirAll
  have : ∀ (l : List Nat), (∀ i ∈ l, i < p.length) → l.foldlM (fun (fs : FS) i => fs.mkdir1 (p.take (i + 1))) fs = some fs := by
    intro l
    induction l with
    | nil => intro _; rfl
    | cons i l ih =>
      intro hl
      rw [List.foldlM_cons]
      have : fs.mkdir1 (p.take (i + 1)) = some fs := by simp [mkdir1, h i (hl i (by simp))]
      rw [this]
      exact ih (fun j hj => hl j (by simp [hj]))
  exact this _ (fun i hi => List.mem_range.1 hi)

end FS

/-! ### contents -/

/-- the content of a file in the model with objects, and the node of the file system that stands for it. -/
def CRel (ag : FB.Buf → Bytes → Prop) : Option Content → Option Node → Prop
  | none, none => True
  | some .torn, some (.file bs) => Gzip.decompressData bs = none
  | some (.full b), some (.file bs) => ∃ raw, Gzip.decompressData bs = some raw ∧ ag b raw
  | _, _ => False

theorem CRel.not_dir {ag : FB.Buf → Bytes → Prop} {c : Option Content} {n : Option Node} (h : CRel ag c n) : n ≠ some .dir := by
  rintro rfl
  match c, h with
  | none, h => exact h
  | some .torn, h => exact h
  | some (.full _), h => exact h

theorem CRel.none_iff {ag : FB.Buf → Bytes → Prop} {c : Option Content} {n : Option Node} (h : CRel ag c n) : c = none ↔ n = none := by
  match c, n, h with
  | none, none, _ => simp
  | some .torn, some (.file _), _ => simp
  | some (.full _), some (.file _), _ => simp

/-- the three names of a target of SecureSaveFile. -/
structure SRel (ag : FB.Buf → Bytes → Prop) (fs : FS) (dir : Path) (name : String) (f : SFile) : Prop where
  cur : CRel ag f.cur (fs.get? (dir ++ [name]))
  old : CRel ag f.old (fs.get? (dir ++ [name ++ "_old"]))
  tmp : CRel ag f.tmp (fs.get? (dir ++ [name ++ "_temp"]))

theorem SRel.congr {ag : FB.Buf → Bytes → Prop} {fs fs' : FS} {dir : Path} {name : String} {f : SFile} (h : SRel ag fs dir name f)
    (h1 : fs'.get? (dir ++ [name]) = fs.get? (dir ++ [name])) (h2 : fs'.get? (dir ++ [name ++ "_old"]) = fs.get? (dir ++ [name ++ "_old"]))
    (h3 : fs'.get? (dir ++ [name ++ "_temp"]) = fs.get? (dir ++ [name ++ "_temp"])) : SRel ag fs' dir name f :=
  ⟨by rw [h1]; exact h.cur, by rw [h2]; exact h.old, by rw [h3]; exact h.tmp⟩

/-- a call of SecureSaveFile at `pc`, and the model with objects saving `b` at `apc`. -/
def SaveRel (ag : FB.Buf → Bytes → Prop) (fs : FS) (c : SaveCall) (pc : SavePc) (b : FB.Buf) (apc : SPc) : Prop :=
  (∃ raw, Spec.Gz.Written raw c.buf ∧ ag b raw) ∧ fs.isDir c.path = true ∧
  match pc with
  | .start => apc = .start
  | .writing n => n ≤ c.buf.length ∧ fs.get? (c.path ++ [c.name ++ "_temp"]) = some (.file (c.buf.take n)) ∧ apc = if n < c.buf.length then .writing else .written
  | .written => fs.get? (c.path ++ [c.name ++ "_temp"]) = some (.file c.buf) ∧ apc = .written
  | .moved => fs.get? (c.path ++ [c.name ++ "_temp"]) = some (.file c.buf) ∧ fs.get? (c.path ++ [c.name]) = none ∧ apc = .moved
  | .installed => fs.get? (c.path ++ [c.name]) = some (.file c.buf) ∧ apc = .installed
  | .done => apc = .done
  | .failed => False

/-- nothing but the three names has changed. -/
structure Frame (c : SaveCall) (fs fs' : FS) : Prop where
  get : ∀ p, p ≠ c.path ++ [c.name] → p ≠ c.path ++ [c.name ++ "_temp"] → p ≠ c.path ++ [c.name ++ "_old"] → fs'.get? p = fs.get? p
  dir : ∀ p, fs.get? p = some .dir → fs'.get? p = some .dir
  wf : fs.WF → fs'.WF
  dirs : fs.WF → ∀ q, fs'.listDirectories q = fs.listDirectories q
  files : fs.WF → ∀ q, q ≠ c.path → fs'.listFiles q = fs.listFiles q

theorem Frame.refl (c : SaveCall) (fs : FS) : Frame c fs fs := ⟨fun _ _ _ _ => rfl, fun _ h => h, id, fun _ _ => rfl, fun _ _ _ => rfl⟩

theorem Frame.trans {c : SaveCall} {fs fs' fs'' : FS} (h : Frame c fs fs') (h' : Frame c fs' fs'') : Frame c fs fs'' :=
  ⟨fun p a b e => (h'.get p a b e).trans (h.get p a b e), fun p e => h'.dir p (h.dir p e), fun w => h'.wf (h.wf w), fun w q => (h'.dirs (h.wf w) q).trans (h.dirs w q),
   fun w q hq => (h'.files (h.wf w) q hq).trans (h.files w q hq)⟩

theorem Frame.set {c : SaveCall} {fs : FS} {x : String} (hx : x = c.name ∨ x = c.name ++ "_temp" ∨ x = c.name ++ "_old") (hd : fs.get? (c.path ++ [x]) ≠ some .dir) (bs : Bytes) :
    Frame c fs (GoMap.set fs (c.path ++ [x]) (.file bs)) := by
  refine ⟨fun p h1 h2 h3 => ?_, fun p hp => ?_, fun w => w.set _ _, fun w q => FS.listDirectories_set_file _ _ _ _ hd, fun w q hq => FS.listFiles_set_other _ _ _ _ (by simpa using Ne.symm hq)⟩
  · rw [get?_set, if_neg]
    rintro rfl
    rcases hx with rfl | rfl | rfl
    exacts [h1 rfl, h2 rfl, h3 rfl]
  · rw [get?_set, if_neg]
    · exact hp
    · rintro rfl; exact hd hp

theorem Frame.del {c : SaveCall} {fs : FS} {x : String} (hx : x = c.name ∨ x = c.name ++ "_temp" ∨ x = c.name ++ "_old") (hd : fs.get? (c.path ++ [x]) ≠ some .dir) :
    Frame c fs (GoMap.del fs (c.path ++ [x])) := by
  refine ⟨fun p h1 h2 h3 => ?_, fun p hp => ?_, fun w => w.del _, fun w q => FS.listDirectories_del _ w _ _ hd, fun w q hq => FS.listFiles_del_other _ w _ _ (by simpa using Ne.symm hq)⟩
  · rw [get?_del, if_neg]
    rintro rfl
    rcases hx with rfl | rfl | rfl
    exacts [h1 rfl, h2 rfl, h3 rfl]
  · rw [get?_del, if_neg]
    · exact hp
    · rintro rfl; exact hd hp

theorem isDir_mono {fs fs' : FS} (h : ∀ p, fs.get? p = some .dir → fs'.get? p = some .dir) {p : Path} (hp : fs.isDir p = true) : fs'.isDir p = true := by
  simp only [FS.isDir, Bool.or_eq_true, decide_eq_true_eq, beq_iff_eq] at hp ⊢
  exact hp.imp id (h p)

theorem SaveRel.congr {ag : FB.Buf → Bytes → Prop} {fs fs' : FS} {c : SaveCall} {pc : SavePc} {b : FB.Buf} {apc : SPc} (h : SaveRel ag fs c pc b apc)
    (h1 : fs'.get? (c.path ++ [c.name]) = fs.get? (c.path ++ [c.name])) (h3 : fs'.get? (c.path ++ [c.name ++ "_temp"]) = fs.get? (c.path ++ [c.name ++ "_temp"]))
    (hd : ∀ p, fs.get? p = some .dir → fs'.get? p = some .dir) : SaveRel ag fs' c pc b apc := by
  refine ⟨h.1, isDir_mono hd h.2.1, ?_⟩
  have := h.2.2
  cases pc <;> simp only [h1, h3] at this ⊢ <;> exact this

theorem Written.ne_nil {data bytes : Bytes} (h : Spec.Gz.Written data bytes) : 0 < bytes.length := by
  cases bytes with
  | nil =>
    have h1 := Gzip.c117_round_trip h
    have h2 : Gzip.decompressData [] = none := by decide
    rw [h2] at h1; cases h1
  | cons => simp

/-- one system call of SecureSaveFile: the model with objects follows it, and no other file changes. -/
theorem save_step {ag : FB.Buf → Bytes → Prop} {fs fs' : FS} {c : SaveCall} {pc pc' : SavePc} {b : FB.Buf} {apc : SPc} {f : SFile} (hn : PlainName c.name)
    (hs : SRel ag fs c.path c.name f) (hv : SaveRel ag fs c pc b apc) (h : c.step (fs, pc) = some (fs', pc')) :
    pc' ≠ .failed ∧ Frame c fs fs' ∧ ∃ apc' f', SRel ag fs' c.path c.name f' ∧ SaveRel ag fs' c pc' b apc' ∧
      ((apc' = apc ∧ f' = f) ∨ (apc ≠ .done ∧ apc' = apc.next ∧ f' = f.step b apc)) := by
  have e1 := SaveCall.cur_ne_tmp hn
  have e2 := SaveCall.cur_ne_old hn
  have e3 := SaveCall.tmp_ne_old hn
  have c1 := SaveCall.cur_eq hn
  have c2 := SaveCall.tmp_eq hn
  have c3 := SaveCall.old_eq hn
  rw [c1, c2] at e1
  rw [c1, c3] at e2
  rw [c2, c3] at e3
  have r1 := hs.cur.not_dir
  have r2 := hs.tmp.not_dir
  have r3 := hs.old.not_dir
  obtain ⟨⟨raw, hw, hag⟩, hdir, hv⟩ := hv
  have hpos := Written.ne_nil hw
  have hround := Gzip.c117_round_trip hw
  have dl : ∀ x : String, (c.path ++ [x]).dropLast = c.path := fun x => by simp
  have nn : ∀ x : String, c.path ++ [x] ≠ [] := fun x => by simp
  unfold SaveCall.step at h
  rw [c1, c2, c3] at h
  cases pc with
  | start =>
    simp only [FS.create, dl, hdir, nn, r2, ne_eq, not_false_eq_true, and_self, if_true, Option.some.injEq, Prod.mk.injEq] at h
    obtain ⟨rfl, rfl⟩ := h
    have fr := Frame.set (c := c) (.inr (.inl rfl)) r2 []
    refine ⟨by simp, fr, .writing, f.step b .start, ⟨?_, ?_, ?_⟩, ⟨⟨raw, hw, hag⟩, isDir_mono fr.dir hdir, ?_⟩, .inr ?_⟩
    · rw [get?_set, if_neg e1.symm]; exact hs.cur
    · rw [get?_set, if_neg e3]; exact hs.old
    · rw [get?_set, if_pos rfl]
      have := Gzip.c117_truncated hw 0 hpos
      simpa [SFile.step, CRel] using this
    · simp [hpos]
    · simp only at hv; subst hv; simp [SPc.next]
  | writing n =>
    simp only at hv h
    obtain ⟨hle, ht, ha⟩ := hv
    by_cases hlt : n < c.buf.length
    · simp only [hlt, if_true, Option.some.injEq, Prod.mk.injEq] at h ha
      obtain ⟨rfl, rfl⟩ := h
      subst ha
      have fr := Frame.set (c := c) (.inr (.inl rfl)) r2 (c.buf.take (n + 1))
      have g1 : GoMap.get? (fs.writeTo (c.path ++ [c.name ++ "_temp"]) (c.buf.take (n + 1))) (c.path ++ [c.name]) = fs.get? (c.path ++ [c.name]) := by
        rw [FS.writeTo, get?_set, if_neg e1.symm]
      have g2 : GoMap.get? (fs.writeTo (c.path ++ [c.name ++ "_temp"]) (c.buf.take (n + 1))) (c.path ++ [c.name ++ "_old"]) = fs.get? (c.path ++ [c.name ++ "_old"]) := by
        rw [FS.writeTo, get?_set, if_neg e3]
      have g3 : GoMap.get? (fs.writeTo (c.path ++ [c.name ++ "_temp"]) (c.buf.take (n + 1))) (c.path ++ [c.name ++ "_temp"]) = some (.file (c.buf.take (n + 1))) := by
        rw [FS.writeTo, get?_set, if_pos rfl]
      by_cases hl2 : n + 1 < c.buf.length
      · refine ⟨by simp, fr, .writing, f, ⟨?_, ?_, ?_⟩, ⟨⟨raw, hw, hag⟩, isDir_mono fr.dir hdir, ?_⟩, .inl ⟨rfl, rfl⟩⟩
        · rw [g1]; exact hs.cur
        · rw [g2]; exact hs.old
        · have ho := hs.tmp
          rw [ht] at ho
          rw [g3]
          match hf : f.tmp with
          | none => rw [hf] at ho; exact ho.elim
          | some .torn => exact Gzip.c117_truncated hw _ hl2
          | some (.full _) =>
            rw [hf] at ho
            obtain ⟨x, hx, -⟩ := ho
            rw [Gzip.c117_truncated hw _ hlt] at hx; cases hx
        · exact ⟨hlt, g3, by simp [hl2]⟩
      · have hE : c.buf.take (n + 1) = c.buf := List.take_of_length_le (by omega)
        refine ⟨by simp, fr, .written, f.step b .writing, ⟨?_, ?_, ?_⟩, ⟨⟨raw, hw, hag⟩, isDir_mono fr.dir hdir, ?_⟩, .inr ⟨by simp, rfl, rfl⟩⟩
        · rw [g1]; exact hs.cur
        · rw [g2]; exact hs.old
        · rw [g3, hE]; exact ⟨raw, hround, hag⟩
        · exact ⟨hlt, g3, by simp [hl2]⟩
    · simp only [hlt, if_false, Option.some.injEq, Prod.mk.injEq] at h ha
      obtain ⟨rfl, rfl⟩ := h
      subst ha
      have : n = c.buf.length := by omega
      refine ⟨by simp, Frame.refl _ _, .written, f, hs, ⟨⟨raw, hw, hag⟩, hdir, ?_⟩, .inl ⟨rfl, rfl⟩⟩
      refine ⟨?_, rfl⟩
      rw [ht, this, List.take_length]
  | written =>
    simp only at hv h
    obtain ⟨ht, rfl⟩ := hv
    have hco := hs.cur
    by_cases hex : fs.exists_ (c.path ++ [c.name]) = true
    · obtain ⟨old, ho⟩ := SaveCall.file_of r1 hex
      simp only [hex, if_true, FS.rename, ho, dl, hdir, nn, r3, ne_eq, not_false_eq_true, and_self, Option.some.injEq, Prod.mk.injEq] at h
      obtain ⟨rfl, rfl⟩ := h
      have fr1 := Frame.del (c := c) (.inl rfl) r1
      have r3' : GoMap.get? (GoMap.del fs (c.path ++ [c.name])) (c.path ++ [c.name ++ "_old"]) ≠ some .dir := by rw [get?_del, if_neg e2]; exact r3
      have fr := fr1.trans (Frame.set (c := c) (.inr (.inr rfl)) r3' old)
      have hsome : f.cur.isSome = true := by
        rw [ho] at hco
        cases hf : f.cur with
        | none => rw [hf] at hco; exact hco.elim
        | some _ => rfl
      have hst : f.step b .written = { f with old := f.cur, cur := none } := by simp [SFile.step, hsome]
      refine ⟨by simp, fr, .moved, f.step b .written, ?_, ⟨⟨raw, hw, hag⟩, isDir_mono fr.dir hdir, ?_⟩, .inr ⟨by simp, rfl, rfl⟩⟩
      · rw [hst]
        refine ⟨?_, ?_, ?_⟩
        · rw [get?_set, if_neg e2.symm, get?_del, if_pos rfl]; trivial
        · rw [get?_set, if_pos rfl, ← ho]; exact hco
        · rw [get?_set, if_neg e3.symm, get?_del, if_neg e1]; exact hs.tmp
      · refine ⟨?_, ?_, rfl⟩
        · rw [get?_set, if_neg e3.symm, get?_del, if_neg e1]; exact ht
        · rw [get?_set, if_neg e2.symm, get?_del, if_pos rfl]
    · simp only [hex, Bool.false_eq_true, if_false, Option.some.injEq, Prod.mk.injEq] at h
      obtain ⟨rfl, rfl⟩ := h
      have hnone : fs.get? (c.path ++ [c.name]) = none := by
        simpa [FS.exists_] using hex
      have hfn : f.cur = none := hco.none_iff.2 hnone
      have hst : f.step b .written = f := by simp [SFile.step, hfn]
      refine ⟨by simp, Frame.refl _ _, .moved, f.step b .written, by rw [hst]; exact hs, ⟨⟨raw, hw, hag⟩, hdir, ht, hnone, rfl⟩, .inr ⟨by simp, rfl, rfl⟩⟩
  | moved =>
    simp only at hv h
    obtain ⟨ht, hnone, rfl⟩ := hv
    have hto := hs.tmp
    simp only [FS.rename, ht, dl, hdir, nn, r1, ne_eq, not_false_eq_true, and_self, if_true, Option.some.injEq, Prod.mk.injEq] at h
    obtain ⟨rfl, rfl⟩ := h
    have fr1 := Frame.del (c := c) (.inr (.inl rfl)) r2
    have r1' : GoMap.get? (GoMap.del fs (c.path ++ [c.name ++ "_temp"])) (c.path ++ [c.name]) ≠ some .dir := by rw [get?_del, if_neg e1.symm]; exact r1
    have fr := fr1.trans (Frame.set (c := c) (.inl rfl) r1' c.buf)
    refine ⟨by simp, fr, .installed, f.step b .moved, ⟨?_, ?_, ?_⟩, ⟨⟨raw, hw, hag⟩, isDir_mono fr.dir hdir, ?_⟩, .inr ⟨by simp, rfl, rfl⟩⟩
    · rw [get?_set, if_pos rfl, ← ht]; exact hto
    · rw [get?_set, if_neg e2, get?_del, if_neg e3]; exact hs.old
    · rw [get?_set, if_neg e1, get?_del, if_pos rfl]; trivial
    · exact ⟨by rw [get?_set, if_pos rfl], rfl⟩
  | installed =>
    simp only at hv h
    obtain ⟨ht, rfl⟩ := hv
    by_cases hex : fs.exists_ (c.path ++ [c.name ++ "_old"]) = true
    · obtain ⟨old, ho⟩ := SaveCall.file_of r3 hex
      simp only [hex, if_true, FS.remove, ho, Option.some.injEq, Prod.mk.injEq] at h
      obtain ⟨rfl, rfl⟩ := h
      have fr := Frame.del (c := c) (.inr (.inr rfl)) r3
      refine ⟨by simp, fr, .done, f.step b .installed, ⟨?_, ?_, ?_⟩, ⟨⟨raw, hw, hag⟩, isDir_mono fr.dir hdir, rfl⟩, .inr ⟨by simp, rfl, rfl⟩⟩
      · rw [get?_del, if_neg e2.symm]; exact hs.cur
      · rw [get?_del, if_pos rfl]; trivial
      · rw [get?_del, if_neg e3.symm]; exact hs.tmp
    · simp only [hex, Bool.false_eq_true, if_false, Option.some.injEq, Prod.mk.injEq] at h
      obtain ⟨rfl, rfl⟩ := h
      have hnone : fs.get? (c.path ++ [c.name ++ "_old"]) = none := by simpa [FS.exists_] using hex
      refine ⟨by simp, Frame.refl _ _, .done, f.step b .installed, ⟨hs.cur, ?_, hs.tmp⟩, ⟨⟨raw, hw, hag⟩, hdir, rfl⟩, .inr ⟨by simp, rfl, rfl⟩⟩
      rw [hnone]; trivial
  | done => cases h
  | failed => exact hv.elim

end Goir
