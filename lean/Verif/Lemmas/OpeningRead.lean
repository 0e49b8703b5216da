import Verif.Lemmas.OpeningDamage
import Verif.Lemmas.ConcurrentDiskRead
/-!
# Reading the documents of any folder: the invariant of a process whose clients only read
-/
namespace Goir
open GoMap Spec Spec.Opening

namespace Opening
open BDisk

variable {root : Path} {z : Bytes → Bytes} {fs0 : FS}

/-- a directory of a field. -/
def Fld (root : Path) (fs : FS) (g : String) : Prop := PlainName g ∧ g ≠ "docs" ∧ fs.get? (root ++ [g]) = some .dir

/-- where the merge is: it works on the directories of fields. -/
def Aside (root : Path) (fs : FS) : MergePc → Option (SaveCall × SavePc) → Prop
  | .atField rest _, none => ∀ g ∈ rest, Fld root fs g
  | .reading g rest seen files _ _, sv => Fld root fs g ∧ (∀ g ∈ rest, Fld root fs g) ∧ (∀ n ∈ seen ++ files, PlainName n) ∧
      match sv with
      | none => True
      | some (c, pc) => files = [] ∧ (∃ bs, c = ⟨root ++ [g], "index", bs⟩) ∧ Saving c fs fs pc
  | .deleting g rest ns _, none => Fld root fs g ∧ (∀ g ∈ rest, Fld root fs g) ∧ ∀ n ∈ ns, PlainName n
  | .idle, none => True
  | .dead, none => True
  | _, _ => False

/-- the files. -/
structure Folder (fs0 : FS) (root : Path) (fs : FS) (m : MergePc) (sv : Option (SaveCall × SavePc)) : Prop where
  tree : Tree root fs
  docs : ∀ id, fs.get? (root ++ ["docs", "metrics", id]) = fs0.get? (root ++ ["docs", "metrics", id])
  aside : Aside root fs m sv

/-- no goroutine has anything to write. -/
structure Still (s : BDisk) : Prop where
  mb : s.d.mx.buf = []
  mp : s.d.mx.pc = .idle ∨ s.d.mx.pc = .flushing []
  ms : s.saveM = none
  nb : s.d.nf.buf = []
  np : s.d.nf.pc = .idle ∨ s.d.nf.pc = .flushing []
  ns : s.saveN = none
  db : s.d.fl.buf = []
  dp : s.d.fl.pc = .idle ∨ s.d.fl.pc = .flushing []
  ds : s.saveD = none
  chan : s.d.ix.chan = []
  ib : s.d.ix.buf = []
  iw : s.d.ix.writer = .idle ∨ s.d.ix.writer = .flushing [] none

/-- the fields of a document. -/
def doc0 (fs0 : FS) (root : Path) (id : String) : GoMap String Field := ((loadDoc fs0 root id).bind fun o => o).getD []

/-- the reference is to the fields of the document. -/
def RefOk (fs0 : FS) (root : Path) (m : CMem) (id : String) (r : Ref String) : Prop := r.n < m.next ∧ (PlainName id → m.docCells r = doc0 fs0 root id ∧ loadDoc fs0 root id ≠ none)

/-- the answer so far: exactly the documents in `done`. -/
def OutOk (fs0 : FS) (root : Path) (name : String) (done : List String) (out : GoMap String Field) : Prop :=
  ∀ id, PlainName id → (out.get? id = if id ∈ done then (doc0 fs0 root id).get? name else none) ∧ (id ∈ done → loadDoc fs0 root id ≠ none)

/-- where a client is inside GetFields. -/
def Reading (fs0 : FS) (root : Path) (m : CMem) (ids : List String) (name : String) : RLoc → Prop
  | .get todo out => ∃ done, ids = done ++ todo ∧ OutOk fs0 root name done out
  | .field id r todo out => ∃ done, ids = done ++ id :: todo ∧ OutOk fs0 root name done out ∧ RefOk fs0 root m id r
  | .load id todo out => ∃ done, ids = done ++ id :: todo ∧ OutOk fs0 root name done out
  | .put id r todo out => ∃ done, ids = done ++ id :: todo ∧ OutOk fs0 root name (done ++ [id]) out ∧ RefOk fs0 root m id r

/-- a client that only reads. -/
structure Reader (fs0 : FS) (root : Path) (m : CMem) (cl : DClient) : Prop where
  todo : ∀ op ∈ cl.todo, ∃ ids name, op = .getFields ids name
  cur : ∀ c, cl.cur = some c → ∃ ids name loc, c = .read ids name loc ∧ Reading fs0 root m ids name loc

/-- the clients only read, and what they have read is what the files say. -/
structure Readers (fs0 : FS) (root : Path) (d : CDisk) : Prop where
  cacheOk : d.cache.Ok
  cache : ∀ id r, d.cache.val id = some r → RefOk fs0 root d.mem id r
  clients : ∀ cl ∈ d.clients, Reader fs0 root d.mem cl
  answers : ∀ x ∈ d.answers, OutOk fs0 root x.2.1 x.1 x.2.2

structure Calm (fs0 : FS) (root : Path) (s : BDisk) : Prop where
  folder : Folder fs0 root s.fs s.d.ix.merger s.saveI
  still : Still s
  readers : Readers fs0 root s.d
  down : s.d.ix.proc = .down → s.d.ix.merger = .idle

theorem Calm.kill {s : BDisk} (ht : Tree root s.fs) (hd : ∀ id, s.fs.get? (root ++ ["docs", "metrics", id]) = fs0.get? (root ++ ["docs", "metrics", id])) : Calm fs0 root s.kill :=
  ⟨⟨ht, hd, trivial⟩, ⟨rfl, .inl rfl, rfl, rfl, .inl rfl, rfl, rfl, .inl rfl, rfl, rfl, rfl, .inl rfl⟩, ⟨LRU.ok_new _, (fun id r h => by rw [show LRU.val (s.kill.d.cache) id = none from LRU.val_new 0 id] at h; cases h), (fun cl h => by cases h), (fun x h => by cases h)⟩, fun _ => rfl⟩

theorem Still.of {s s' : BDisk} (h : Still s) (e1 : s'.d.mx = s.d.mx) (e2 : s'.d.nf = s.d.nf) (e3 : s'.d.fl = s.d.fl) (e4 : s'.saveM = s.saveM) (e5 : s'.saveN = s.saveN) (e6 : s'.saveD = s.saveD)
    (e7 : s'.d.ix.chan = s.d.ix.chan) (e8 : s'.d.ix.buf = s.d.ix.buf) (e9 : s'.d.ix.writer = s.d.ix.writer) : Still s' := by
  obtain ⟨a, b, c, d, e, f, g, h, i, j, k, l⟩ := h
  exact ⟨e1 ▸ a, e1 ▸ b, e4 ▸ c, e2 ▸ d, e2 ▸ e, e5 ▸ f, e3 ▸ g, e3 ▸ h, e6 ▸ i, e7 ▸ j, e8 ▸ k, e9 ▸ l⟩

theorem Readers.of {d d' : CDisk} (h : Readers fs0 root d) (e1 : d'.cache = d.cache) (e2 : d'.mem = d.mem) (e3 : d'.clients = d.clients) (e4 : d'.answers = d.answers) : Readers fs0 root d' := by
  obtain ⟨a, b, c, e⟩ := h
  exact ⟨e1 ▸ a, by rw [e1, e2]; exact b, by rw [e2, e3]; exact c, by rw [e4]; exact e⟩

/-- LoadIndexOnHD ends with an error. -/
theorem Calm.loadError {s : BDisk} (ht : Tree root s.fs) (hd : ∀ id, s.fs.get? (root ++ ["docs", "metrics", id]) = fs0.get? (root ++ ["docs", "metrics", id])) (hs : Still s) (hr : Readers fs0 root s.d) (hn : s.d.ix.proc ≠ .down) : Calm fs0 root s.loadError := by
  unfold BDisk.loadError
  split
  · exact Calm.kill ht hd
  · exact ⟨⟨ht, hd, trivial⟩, hs.of rfl rfl rfl rfl rfl rfl rfl rfl rfl, hr.of rfl rfl rfl rfl, fun e => absurd e hn⟩

theorem Fld.keep {fs fs' : FS} (h : ∀ p, fs.get? p = some .dir → fs'.get? p = some .dir) {g : String} (hg : Fld root fs g) : Fld root fs' g := ⟨hg.1, hg.2.1, h _ hg.2.2⟩

/-- one step of the merge. -/
theorem merge_calm {s s' : BDisk} (h : Calm fs0 root s) (he : s.mergeStep z root = some s') : Calm fs0 root s' := by
  obtain ⟨⟨ht, hdoc, ha⟩, hs, hr, hdn⟩ := h
  have hnd : s.d.ix.proc ≠ .down := fun e => by
    unfold BDisk.mergeStep at he
    rw [hdn e] at he
    cases he
  have hkill : Calm fs0 root s.kill := Calm.kill ht hdoc
  have hle : Calm fs0 root s.loadError := Calm.loadError ht hdoc hs hr hnd
  have pi : PlainName "index" := by decide
  have pt : PlainName "temp" := by decide
  unfold BDisk.mergeStep at he
  split at he
  · rename_i acc hm
    cases hsv : s.saveI with
    | some x => rw [hm, hsv] at ha; exact ha.elim
    | none =>
    split at he
    · cases he
      refine ⟨⟨ht, hdoc, ?_⟩, hs.of rfl rfl rfl rfl rfl rfl rfl rfl rfl, hr.of rfl rfl rfl rfl, fun e => by first | exact absurd e hnd | cases e⟩
      show Aside root s.fs .idle s.saveI
      rw [hsv]; trivial
    · cases he
      refine ⟨⟨ht, hdoc, ?_⟩, hs.of rfl rfl rfl rfl rfl rfl rfl rfl rfl, hr.of rfl rfl rfl rfl, fun e => by first | exact absurd e hnd | cases e⟩
      show Aside root s.fs .idle s.saveI
      rw [hsv]; trivial
  · rename_i f rest acc hm
    rw [hm] at ha
    cases hsv : s.saveI with
    | some x => rw [hsv] at ha; exact ha.elim
    | none =>
    rw [hsv] at ha
    have hall : ∀ g ∈ f :: rest, Fld root s.fs g := ha
    obtain ⟨pf, fnd, hfd⟩ := hall f (by simp)
    have etemp : BDisk.tempDir root f = root ++ [f, "temp"] := by unfold BDisk.tempDir; rw [join_plain pf, join_plain pt]; simp
    have hroot : ∀ x ∈ root, PlainName x := fun x hx => ht.names _ _ hfd x (by simp [hx])
    split at he
    · cases he; exact hkill
    · rename_i fs' hmk
      rw [etemp] at hmk
      have hfs : Tree root fs' ∧ (∀ p, s.fs.get? p = some .dir → fs'.get? p = some .dir) ∧ (∀ p, p ≠ root ++ [f, "temp"] → fs'.get? p = s.fs.get? p) := by
        rcases mkdir_temp ht.root hfd hmk with ⟨rfl, -⟩ | ⟨rfl, hnone⟩
        · exact ⟨ht, fun _ h => h, fun _ _ => rfl⟩
        · refine ⟨Tree.set ht _ _ (fun x hx => ?_) (fun _ => rfl), fun p hp => ?_, fun p hp => ?_⟩
          · simp only [List.mem_append, List.mem_cons, List.not_mem_nil, or_false] at hx
            rcases hx with hx | rfl | rfl
            exacts [hroot x hx, pf, pt]
          · rw [get?_set]; split
            · rfl
            · exact hp
          · rw [get?_set, if_neg (Ne.symm hp)]
      obtain ⟨w1, w2, w3⟩ := hfs
      have hdoc' : ∀ id, fs'.get? (root ++ ["docs", "metrics", id]) = fs0.get? (root ++ ["docs", "metrics", id]) := fun id => (w3 _ (by simp)).trans (hdoc id)
      split at he
      · cases he; exact Calm.kill (s := { s with fs := fs' }) w1 hdoc'
      · cases he; exact Calm.loadError (s := { s with fs := fs' }) w1 hdoc' (hs.of rfl rfl rfl rfl rfl rfl rfl rfl rfl) hr hnd
      · rename_i td hload
        cases he
        refine ⟨⟨w1, hdoc', ?_⟩, hs.of rfl rfl rfl rfl rfl rfl rfl rfl rfl, hr.of rfl rfl rfl rfl, fun e => by first | exact absurd e hnd | cases e⟩
        show Aside root fs' (.reading f rest [] (fs'.listFiles (BDisk.tempDir root f)) td acc) s.saveI
        rw [hsv, etemp]
        refine ⟨(hall f (by simp)).keep w2, fun g hg => (hall g (List.mem_cons_of_mem _ hg)).keep w2, fun n hn => ?_, trivial⟩
        rw [List.nil_append] at hn
        obtain ⟨c, hc⟩ := (FS.mem_listFiles fs' w1.wf _ n).1 hn
        exact w1.names _ _ hc n (by simp)
  · rename_i g rest seen n ns td acc hm
    rw [hm] at ha
    obtain ⟨hg, hrest, hn, hsv⟩ := ha
    split at he
    · cases he; exact hle
    · split at he
      · cases he; exact hkill
      · rename_i m hdec
        cases he
        refine ⟨⟨ht, hdoc, ?_⟩, hs.of rfl rfl rfl rfl rfl rfl rfl rfl rfl, hr.of rfl rfl rfl rfl, fun e => by first | exact absurd e hnd | cases e⟩
        show Aside root s.fs (.reading g rest (seen ++ [n]) ns (IxState.mergeInto td m) acc) s.saveI
        have hsn : s.saveI = none := by
          cases hs : s.saveI with
          | none => rfl
          | some x => rw [hs] at hsv; exact absurd hsv.1 (by simp)
        rw [hsn]
        exact ⟨hg, hrest, fun k hk => hn k (by simpa using hk), trivial⟩
  · rename_i g rest seen td acc hm hsv
    rw [hm, hsv] at ha
    obtain ⟨hg, hrest, hn, -⟩ := ha
    split at he
    · cases he; exact hkill
    · rename_i raw hser
      rw [join_plain hg.1, mkdir_field ht.root hg.2.2] at he
      cases he
      refine ⟨⟨ht, hdoc, ?_⟩, hs.of rfl rfl rfl rfl rfl rfl rfl rfl rfl, hr.of rfl rfl rfl rfl, fun e => by first | exact absurd e hnd | cases e⟩
      show Aside root s.fs s.d.ix.merger _
      rw [hm]
      exact ⟨hg, hrest, hn, rfl, ⟨_, rfl⟩, Frame.refl _ _, rfl⟩
  · rename_i g rest seen td acc c hm hsv
    rw [hm, hsv] at ha
    obtain ⟨hg, hrest, hn, -⟩ := ha
    cases he
    refine ⟨⟨ht, hdoc, ?_⟩, hs.of rfl rfl rfl rfl rfl rfl rfl rfl rfl, hr.of rfl rfl rfl rfl, fun e => by first | exact absurd e hnd | cases e⟩
    exact ⟨hg, hrest, fun k hk => hn k (by simp [hk])⟩
  · rename_i g rest seen td acc c pc hpc hm hsv
    rw [hm, hsv] at ha
    obtain ⟨hg, hrest, hn, hfl, ⟨bs, rfl⟩, hnow⟩ := ha
    have moved : ∀ fs' : FS, Frame ⟨root ++ [g], "index", bs⟩ s.fs fs' → Tree root fs' ∧ ∀ id, fs'.get? (root ++ ["docs", "metrics", id]) = fs0.get? (root ++ ["docs", "metrics", id]) := by
      intro fs' fr
      refine ⟨Tree.of_frame ht hg.1 hg.2.2 fr, fun id => ?_⟩
      rw [← hdoc id]
      refine fr.get _ ?_ ?_ ?_ <;> intro e <;> have := congrArg List.length e <;> simp at this
    split at he
    · cases he
    · rename_i fs' hst
      cases he
      obtain ⟨fr, -⟩ := Saving.self pi hnow hst
      obtain ⟨m1, m2⟩ := moved fs' fr
      exact Calm.loadError (s := { s with fs := fs' }) m1 m2 (hs.of rfl rfl rfl rfl rfl rfl rfl rfl rfl) hr hnd
    · rename_i fs' pc' hnf hst
      cases he
      obtain ⟨fr, sv⟩ := Saving.self pi hnow hst
      obtain ⟨m1, m2⟩ := moved fs' fr
      refine ⟨⟨m1, m2, ?_⟩, hs.of rfl rfl rfl rfl rfl rfl rfl rfl rfl, hr.of rfl rfl rfl rfl, fun e => by first | exact absurd e hnd | cases e⟩
      show Aside root fs' s.d.ix.merger _
      rw [hm]
      exact ⟨hg.keep fr.dir, fun x hx => (hrest x hx).keep fr.dir, hn, hfl, ⟨bs, rfl⟩, sv⟩
  · rename_i g rest acc hm
    rw [hm] at ha
    cases hsv : s.saveI with
    | some x => rw [hsv] at ha; exact ha.elim
    | none =>
    rw [hsv] at ha
    obtain ⟨hg, hrest, hn⟩ := ha
    cases he
    refine ⟨⟨ht, hdoc, ?_⟩, hs.of rfl rfl rfl rfl rfl rfl rfl rfl rfl, hr.of rfl rfl rfl rfl, fun e => by first | exact absurd e hnd | cases e⟩
    show Aside root s.fs (.atField rest acc) s.saveI
    rw [hsv]
    exact hrest
  · rename_i g rest n ns acc hm
    rw [hm] at ha
    cases hsv : s.saveI with
    | some x => rw [hsv] at ha; exact ha.elim
    | none =>
    rw [hsv] at ha
    obtain ⟨hg, hrest, hn⟩ := ha
    have pn := hn n (by simp)
    have epath : join (BDisk.tempDir root g) n = root ++ [g, "temp", n] := by unfold BDisk.tempDir; rw [join_plain hg.1, join_plain pt, join_plain pn]; simp
    rw [epath] at he
    split at he
    · cases he; exact hle
    · rename_i fs' hrm
      cases he
      unfold FS.remove at hrm
      split at hrm
      · rename_i c hc
        cases hrm
        have hdirs : ∀ q, s.fs.get? q = some .dir → GoMap.get? (GoMap.del s.fs (root ++ [g, "temp", n])) q = some .dir := fun q hq => by
          rw [get?_del, if_neg]
          · exact hq
          · rintro rfl; rw [hc] at hq; cases hq
        refine ⟨⟨⟨ht.wf.del _, fun q k hq => ?_, fun i hi => hdirs _ (ht.root i hi)⟩, fun id => ?_, ?_⟩, hs.of rfl rfl rfl rfl rfl rfl rfl rfl rfl, hr.of rfl rfl rfl rfl, fun e => by first | exact absurd e hnd | cases e⟩
        · have hq : GoMap.get? (GoMap.del s.fs (root ++ [g, "temp", n])) q = some k := hq
          rw [get?_del] at hq
          split at hq
          · cases hq
          · exact ht.names _ _ hq
        · show GoMap.get? (GoMap.del s.fs (root ++ [g, "temp", n])) (root ++ ["docs", "metrics", id]) = _
          rw [get?_del, if_neg (by simp), hdoc]
        · show Aside root (GoMap.del s.fs (root ++ [g, "temp", n])) (.deleting g rest ns acc) s.saveI
          rw [hsv]
          exact ⟨hg.keep hdirs, fun x hx => (hrest x hx).keep hdirs, fun k hk => hn k (by simp [hk])⟩
      · cases hrm
  · cases he

/-! ### the clients -/

theorem docPath {id : String} (h : PlainName id) : join (docDir root) id = root ++ ["docs", "metrics", id] := by
  unfold docDir
  rw [join_plain (s := "docs") (by decide), join_plain (s := "metrics") (by decide), join_plain h]; simp

theorem loadDoc_eq {fs fs' : FS} (h : ∀ id, fs'.get? (root ++ ["docs", "metrics", id]) = fs.get? (root ++ ["docs", "metrics", id])) {id : String} (hp : PlainName id) : loadDoc fs' root id = loadDoc fs root id := by
  unfold loadDoc FS.readFile
  rw [docPath hp, h]

theorem outOk_found {name id : String} {done : List String} {out : GoMap String Field} {m : GoMap String Field} (h : OutOk fs0 root name done out) (hm : PlainName id → m = doc0 fs0 root id ∧ loadDoc fs0 root id ≠ none) :
    OutOk fs0 root name (done ++ [id]) (CDisk.found out id (m.get? name)) := by
  intro j hj
  obtain ⟨h1, h2⟩ := h j hj
  by_cases e : j = id
  · subst e
    obtain ⟨rfl, h3⟩ := hm hj
    refine ⟨?_, fun _ => h3⟩
    rw [if_pos (by simp)]
    cases hq : GoMap.get? (doc0 fs0 root j) name with
    | none =>
      rw [CDisk.found, h1, hq]; split <;> rfl
    | some x => rw [CDisk.found, get?_set, if_pos rfl]
  · refine ⟨?_, fun hd => h2 (by simpa [e] using hd)⟩
    have : (j ∈ done ++ [id]) ↔ j ∈ done := by simp [e]
    simp only [this]
    rw [← h1]
    cases GoMap.get? m name with
    | none => rfl
    | some x => rw [CDisk.found, get?_set, if_neg (Ne.symm e)]

theorem outOk_skip {name id : String} {done : List String} {out : GoMap String Field} (h : OutOk fs0 root name done out) (hm : PlainName id → loadDoc fs0 root id = some none) : OutOk fs0 root name (done ++ [id]) out := by
  intro j hj
  obtain ⟨h1, h2⟩ := h j hj
  by_cases e : j = id
  · subst e
    have h3 := hm hj
    have h4 : doc0 fs0 root j = [] := by unfold doc0; rw [h3]; rfl
    refine ⟨?_, fun _ => by rw [h3]; simp⟩
    rw [if_pos (by simp), h1, h4]
    split <;> rfl
  · refine ⟨?_, fun hd => h2 (by simpa [e] using hd)⟩
    have : (j ∈ done ++ [id]) ↔ j ∈ done := by simp [e]
    simp only [this]
    exact h1

/-- the cells change only at a new reference. -/
theorem RefOk.upd {m : CMem} {id j : String} {r : Ref String} {v : GoMap String Field} (h : RefOk fs0 root m id r) : RefOk fs0 root { m with docCells := Ref.upd m.docCells ⟨j, m.next⟩ v, next := m.next + 1 } id r := by
  refine ⟨Nat.lt_succ_of_lt h.1, fun hp => ?_⟩
  obtain ⟨h1, h2⟩ := h.2 hp
  refine ⟨?_, h2⟩
  rw [← h1]
  simp only [Ref.upd]
  rw [if_neg]
  rintro rfl
  exact absurd h.1 (by simp)

theorem Reading.upd {m : CMem} {ids : List String} {name j : String} {v : GoMap String Field} {loc : RLoc} (h : Reading fs0 root m ids name loc) : Reading fs0 root { m with docCells := Ref.upd m.docCells ⟨j, m.next⟩ v, next := m.next + 1 } ids name loc := by
  cases loc with
  | get todo out => exact h
  | load id todo out => exact h
  | field id r todo out => obtain ⟨done, h1, h2, h3⟩ := h; exact ⟨done, h1, h2, h3.upd⟩
  | put id r todo out => obtain ⟨done, h1, h2, h3⟩ := h; exact ⟨done, h1, h2, h3.upd⟩

theorem mem_set_of {α : Type} {l : List α} {i : Nat} {x y : α} (h : y ∈ l.set i x) : y = x ∨ y ∈ l := by
  rcases List.mem_or_eq_of_mem_set h with h | h
  · exact .inr h
  · exact .inl h

theorem mem_modify_of {α : Type} {l : List α} {i : Nat} {f : α → α} {y : α} (h : y ∈ l.modify i f) : (∃ x, l[i]? = some x ∧ y = f x) ∨ y ∈ l := by
  obtain ⟨j, hj⟩ := List.mem_iff_getElem?.1 h
  rw [List.getElem?_modify] at hj
  obtain ⟨a, ha, e⟩ := Option.map_eq_some_iff.1 hj
  by_cases hij : i = j
  · subst hij; rw [if_pos rfl] at e; exact .inl ⟨a, ha, e.symm⟩
  · rw [if_neg hij] at e; exact .inr (e ▸ List.mem_of_getElem? ha)

/-- a client that is in GetFields has read the file of a document. -/
theorem read_calm {s : BDisk} {i : Nat} {ids : List String} {name id : String} {todo : List String} {out : GoMap String Field} (h : Calm fs0 root s) (hc : s.d.curOf i = some (.read ids name (.load id todo out))) :
    Calm fs0 root (s.readDoc root i ids name id todo out) := by
  obtain ⟨⟨ht, hdoc, ha⟩, hs, hr, hdn⟩ := h
  unfold CDisk.curOf at hc
  obtain ⟨cl, hcl, hcur⟩ := Option.bind_eq_some_iff.1 hc
  have hcm := hr.clients cl (List.mem_of_getElem? hcl)
  obtain ⟨ids', name', loc', e, hloc⟩ := hcm.cur _ hcur
  cases e
  obtain ⟨done, e1, e2⟩ := hloc
  have put : ∀ (m : CMem) (loc : RLoc), Reading fs0 root m ids name loc → (∀ cl ∈ s.d.clients, Reader fs0 root m cl) → ∀ c ∈ s.d.clients.modify i (fun cl => { cl with cur := some (.read ids name loc) }), Reader fs0 root m c := by
    intro m loc hl hall c hc
    rcases mem_modify_of hc with ⟨x, hx, rfl⟩ | hc
    · exact ⟨(hall x (List.mem_of_getElem? hx)).todo, fun c hc => by cases hc; exact ⟨_, _, _, rfl, hl⟩⟩
    · exact hall c hc
  unfold BDisk.readDoc
  split
  · exact Calm.kill ht hdoc
  · rename_i hl
    refine ⟨⟨ht, hdoc, ha⟩, hs.of rfl rfl rfl rfl rfl rfl rfl rfl rfl, ⟨hr.cacheOk, hr.cache, put s.d.mem _ ⟨done ++ [id], by simp [e1], outOk_skip e2 fun hp => ?_⟩ hr.clients, hr.answers⟩, hdn⟩
    rw [← loadDoc_eq hdoc hp]; exact hl
  · rename_i fd hl
    have hval : PlainName id → fd = doc0 fs0 root id ∧ loadDoc fs0 root id ≠ none := fun hp => by
      have : loadDoc fs0 root id = some (some fd) := by rw [← loadDoc_eq hdoc hp]; exact hl
      exact ⟨by unfold doc0; rw [this]; rfl, by rw [this]; simp⟩
    refine ⟨⟨ht, hdoc, ha⟩, hs.of rfl rfl rfl rfl rfl rfl rfl rfl rfl, ⟨hr.cacheOk, fun j r hj => (hr.cache j r hj).upd, put _ _ ⟨done, e1, outOk_found e2 hval, Nat.lt_succ_self _, fun hp => ?_⟩ fun c hc => ?_, hr.answers⟩, hdn⟩
    · refine ⟨?_, (hval hp).2⟩
      show Ref.upd s.d.mem.docCells ⟨id, s.d.mem.next⟩ fd ⟨id, s.d.mem.next⟩ = _
      simp [Ref.upd, (hval hp).1]
    · have := hr.clients c hc
      exact ⟨this.todo, fun x hx => by obtain ⟨a, b, l, e, hl⟩ := this.cur x hx; exact ⟨a, b, l, e, hl.upd⟩⟩

/-- a step of a client. -/
theorem client_calm {s : BDisk} {d' : CDisk} {i k : Nat} (h : Calm fs0 root s) (hn : ∀ ids name id todo out, s.d.curOf i ≠ some (.read ids name (.load id todo out))) (he : s.d.client i k = some d') : Calm fs0 root { s with d := d' } := by
  obtain ⟨⟨ht, hdoc, ha⟩, hs, hr, hdn⟩ := h
  unfold CDisk.client at he
  split at he
  · cases he
  · rename_i cl hcl
    have hcm := hr.clients cl (List.mem_of_getElem? hcl)
    split at he
    · rename_i hcur
      split at he
      · cases he
      · rename_i op rest htodo
        obtain ⟨_, _, e⟩ := hcm.todo (.write op) (by rw [htodo]; simp)
        cases e
      · rename_i ids name rest htodo
        cases he
        refine ⟨⟨ht, hdoc, ha⟩, hs.of rfl rfl rfl rfl rfl rfl rfl rfl rfl, ⟨hr.cacheOk, hr.cache, fun c hc => ?_, hr.answers⟩, hdn⟩
        rcases mem_set_of hc with rfl | hc
        · exact ⟨fun op hop => hcm.todo op (by rw [htodo]; simp [hop]), fun c hc => by cases hc; exact ⟨_, _, _, rfl, [], rfl, fun id _ => ⟨by simp, by simp⟩⟩⟩
        · exact hr.clients c hc
    · rename_i op loc hcur
      obtain ⟨_, _, _, e, -⟩ := hcm.cur _ hcur
      cases e
    · rename_i ids name loc hcur
      obtain ⟨ids', name', loc', e, hloc⟩ := hcm.cur _ hcur
      cases e
      have hcof : s.d.curOf i = some (.read ids name loc) := by unfold CDisk.curOf; rw [hcl]; exact hcur
      have put : ∀ (m : CMem) (cur : Option DCur), (∀ c, cur = some c → ∃ ids name loc, c = .read ids name loc ∧ Reading fs0 root m ids name loc) → (∀ cl ∈ s.d.clients, Reader fs0 root m cl) →
          ∀ c ∈ s.d.clients.set i { cl with cur := cur }, Reader fs0 root m c := by
        intro m cur hl hall c hc
        rcases mem_set_of hc with rfl | hc
        · exact ⟨hcm.todo, hl⟩
        · exact hall c hc
      cases loc with
      | load id todo out => exact absurd hcof (hn _ _ _ _ _)
      | get todo out =>
        obtain ⟨done, e1, e2⟩ := hloc
        cases todo with
        | nil =>
          simp only [CDisk.rexec] at he
          cases he
          refine ⟨⟨ht, hdoc, ha⟩, hs.of rfl rfl rfl rfl rfl rfl rfl rfl rfl, ⟨hr.cacheOk, hr.cache, put s.d.mem none (fun c hc => by cases hc) hr.clients, fun x hx => ?_⟩, hdn⟩
          rcases List.mem_append.1 hx with hx | hx
          · exact hr.answers x hx
          · rw [List.mem_singleton] at hx; subst hx
            rw [List.append_nil] at e1; subst e1; exact e2
        | cons id todo =>
          simp only [CDisk.rexec] at he
          have hg := LRU.get_spec hr.cacheOk id
          split at he
          · cases he
          · rename_i s1 loc1 hx
            split at hx
            · rename_i c r hc
              cases hx; cases he
              have hv : s.d.cache.val id = some r := by unfold LRU.val; rw [hc]
              rw [hc] at hg
              exact ⟨⟨ht, hdoc, ha⟩, hs.of rfl rfl rfl rfl rfl rfl rfl rfl rfl, ⟨hg.1, fun j x hj => hr.cache j x (by rw [← hg.2.1 j]; exact hj), put s.d.mem _ (fun c hc => by cases hc; exact ⟨_, _, _, rfl, done, e1, e2, hr.cache id r hv⟩) hr.clients, hr.answers⟩, hdn⟩
            · rename_i c hc
              cases hx; cases he
              rw [hc] at hg
              exact ⟨⟨ht, hdoc, ha⟩, hs.of rfl rfl rfl rfl rfl rfl rfl rfl rfl, ⟨hg.1, fun j x hj => hr.cache j x (by rw [← hg.2.1 j]; exact hj), put s.d.mem _ (fun c hc => by cases hc; exact ⟨_, _, _, rfl, done, e1, e2⟩) hr.clients, hr.answers⟩, hdn⟩
          · rename_i s1 out1 hx
            split at hx <;> cases hx
      | field id r todo out =>
        obtain ⟨done, e1, e2, e3⟩ := hloc
        simp only [CDisk.rexec] at he
        cases he
        exact ⟨⟨ht, hdoc, ha⟩, hs.of rfl rfl rfl rfl rfl rfl rfl rfl rfl, ⟨hr.cacheOk, hr.cache, put s.d.mem _ (fun c hc => by cases hc; exact ⟨_, _, _, rfl, done ++ [id], by simp [e1], outOk_found e2 e3.2⟩) hr.clients, hr.answers⟩, hdn⟩
      | put id r todo out =>
        obtain ⟨done, e1, e2, e3⟩ := hloc
        simp only [CDisk.rexec] at he
        cases hp : s.d.cache.put id r with
        | none => rw [hp] at he; cases he
        | some c =>
          rw [hp] at he
          cases he
          refine ⟨⟨ht, hdoc, ha⟩, hs.of rfl rfl rfl rfl rfl rfl rfl rfl rfl, ⟨(LRU.put_spec hr.cacheOk hp).1, fun j x hj => ?_, put s.d.mem _ (fun c hc => by cases hc; exact ⟨_, _, _, rfl, done ++ [id], by simp [e1], e2⟩) hr.clients, hr.answers⟩, hdn⟩
          rcases CDisk.val_put hr.cacheOk hp hj with ⟨rfl, rfl⟩ | hj
          · exact e3
          · exact hr.cache j x hj

end Opening
end Goir
