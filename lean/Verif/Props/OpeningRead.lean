import Verif.Lemmas.OpeningRead
import Verif.Props.OpeningCases
/-!
# C128: what GetFields returns from any folder
-/
namespace Goir
open GoMap Spec Spec.Opening

namespace Opening
open BDisk

variable {root : Path} {z : Bytes → Bytes} {fs0 : FS}

/-- if the action opens a store, its clients only call GetFields. -/
def OnlyReads : CDisk.Act → Prop
  | .openRest _ progs => ∀ p ∈ progs, ∀ op ∈ p, ∃ ids name, op = DOp.getFields ids name
  | _ => True

theorem flush_still {B : Type} {dir : String → Path} {name : String → String} {ser : String → B → Option Bytes} {fs : FS} {fl : Flusher B} {o : Option (SaveCall × SavePc)} {x : FS × Option (Flusher B × Option (SaveCall × SavePc))}
    (hp : fl.pc = .idle ∨ fl.pc = .flushing []) (ho : o = none) (h : flush z dir name ser fs fl o = some x) : x = (fs, some ({ fl with pc := .idle }, none)) := by
  subst ho
  unfold flush at h
  rcases hp with hp | hp <;> rw [hp] at h
  · cases h
  · cases h; rfl

/-- every action. -/
theorem exec_calm {s s' : BDisk} {act : CDisk.Act} (h : Calm fs0 root s) (ho : OnlyReads act) (he : s.exec z root act = some s') : Calm fs0 root s' := by
  have hcur : ∀ i c, s.d.curOf i = some c → ∃ ids name loc, c = .read ids name loc := fun i c hc => by
    unfold CDisk.curOf at hc
    obtain ⟨cl, hcl, hcur⟩ := Option.bind_eq_some_iff.1 hc
    obtain ⟨ids, name, loc, e, -⟩ := (h.readers.clients cl (List.mem_of_getElem? hcl)).cur _ hcur
    exact ⟨ids, name, loc, e⟩
  have hkill : Calm fs0 root s.kill := Calm.kill h.folder.tree h.folder.docs
  cases act with
  | client i k =>
    simp only [BDisk.exec] at he
    split at he
    · rename_i ids name id todo out hc
      split at he
      · cases he; exact read_calm h hc
      · cases he
    · rename_i hn
      obtain ⟨d', h1, rfl⟩ := Option.map_eq_some_iff.1 he
      simp only [CDisk.exec] at h1
      split at h1
      · exact client_calm h (fun ids name id todo out hc => hn ids name id todo out hc) h1
      · cases h1
  | recvM i =>
    obtain ⟨d', h1, -⟩ := Option.map_eq_some_iff.1 he
    simp only [CDisk.exec] at h1
    split at h1
    · rename_i hc; obtain ⟨_, _, _, e⟩ := hcur _ _ hc; cases e
    · cases h1
  | recvN i =>
    obtain ⟨d', h1, -⟩ := Option.map_eq_some_iff.1 he
    simp only [CDisk.exec] at h1
    split at h1
    · rename_i hc; obtain ⟨_, _, _, e⟩ := hcur _ _ hc; cases e
    · cases h1
  | recvD i =>
    obtain ⟨d', h1, -⟩ := Option.map_eq_some_iff.1 he
    simp only [CDisk.exec] at h1
    split at h1
    · rename_i hc; obtain ⟨_, _, _, e⟩ := hcur _ _ hc; cases e
    · cases h1
  | tickM o =>
    obtain ⟨d', h1, rfl⟩ := Option.map_eq_some_iff.1 he
    simp only [CDisk.exec] at h1
    split at h1
    · obtain ⟨mx, h2, rfl⟩ := Option.map_eq_some_iff.1 h1
      unfold Flusher.tick at h2
      split at h2
      · rename_i hc
        cases h2
        have : o = [] := by have := hc.2; rw [h.still.mb] at this; exact List.perm_nil.1 this
        subst this
        exact ⟨h.folder, { h.still with mp := .inr rfl }, h.readers.of rfl rfl rfl rfl, h.down⟩
      · cases h2
    · cases h1
  | tickN o =>
    obtain ⟨d', h1, rfl⟩ := Option.map_eq_some_iff.1 he
    simp only [CDisk.exec] at h1
    split at h1
    · obtain ⟨mx, h2, rfl⟩ := Option.map_eq_some_iff.1 h1
      unfold Flusher.tick at h2
      split at h2
      · rename_i hc
        cases h2
        have : o = [] := by have := hc.2; rw [h.still.nb] at this; exact List.perm_nil.1 this
        subst this
        exact ⟨h.folder, { h.still with np := .inr rfl }, h.readers.of rfl rfl rfl rfl, h.down⟩
      · cases h2
    · cases h1
  | tickD o =>
    obtain ⟨d', h1, rfl⟩ := Option.map_eq_some_iff.1 he
    simp only [CDisk.exec] at h1
    split at h1
    · obtain ⟨mx, h2, rfl⟩ := Option.map_eq_some_iff.1 h1
      unfold Flusher.tick at h2
      split at h2
      · rename_i hc
        cases h2
        have : o = [] := by have := hc.2; rw [h.still.db] at this; exact List.perm_nil.1 this
        subst this
        exact ⟨h.folder, { h.still with dp := .inr rfl }, h.readers.of rfl rfl rfl rfl, h.down⟩
      · cases h2
    · cases h1
  | stepM =>
    simp only [BDisk.exec] at he
    obtain ⟨x, h1, h2⟩ := Option.map_eq_some_iff.1 he
    obtain rfl := flush_still h.still.mp h.still.ms h1
    cases h2
    exact ⟨h.folder, { h.still with mp := .inl rfl, ms := rfl }, h.readers.of rfl rfl rfl rfl, h.down⟩
  | stepN =>
    simp only [BDisk.exec] at he
    obtain ⟨x, h1, h2⟩ := Option.map_eq_some_iff.1 he
    obtain rfl := flush_still h.still.np h.still.ns h1
    cases h2
    exact ⟨h.folder, { h.still with np := .inl rfl, ns := rfl }, h.readers.of rfl rfl rfl rfl, h.down⟩
  | stepD =>
    simp only [BDisk.exec] at he
    obtain ⟨x, h1, h2⟩ := Option.map_eq_some_iff.1 he
    obtain rfl := flush_still h.still.dp h.still.ds h1
    cases h2
    exact ⟨h.folder, { h.still with dp := .inl rfl, ds := rfl }, h.readers.of rfl rfl rfl rfl, h.down⟩
  | ix a =>
    simp only [BDisk.exec] at he
    split at he
    · cases a with
      | merge => exact merge_calm h he
      | create name => rcases h.still.iw with hw | hw <;> simp [BDisk.ixExec, BDisk.create, hw] at he
      | write => rcases h.still.iw with hw | hw <;> simp [BDisk.ixExec, BDisk.write, hw] at he
      | startMerge =>
        simp only [BDisk.ixExec] at he
        split at he
        · rename_i hc
          cases he
          refine ⟨⟨h.folder.tree, h.folder.docs, ?_⟩, h.still.of rfl rfl rfl rfl rfl rfl rfl rfl rfl, h.readers.of rfl rfl rfl rfl, fun e => by rw [show s.d.ix.proc = .down from e] at hc; cases hc.1⟩
          have ha := h.folder.aside
          rw [hc.2] at ha
          show Aside root s.fs (.atField (s.fs.listDirectories root) []) s.saveI
          cases hsv : s.saveI with
          | some x => rw [hsv] at ha; exact ha.elim
          | none =>
            intro g hg
            have := (FS.mem_listDirectories s.fs h.folder.tree.wf root g).1 hg
            exact ⟨field_plain h.folder.tree this, this.2, this.1⟩
        · cases he
      | recv =>
        obtain ⟨d', h1, rfl⟩ := Option.map_eq_some_iff.1 he
        simp only [CDisk.exec] at h1
        split at h1
        · obtain ⟨ix, h2, -⟩ := Option.map_eq_some_iff.1 h1
          simp [IxState.exec, h.still.chan] at h2
        · cases h1
      | tick o =>
        obtain ⟨d', h1, rfl⟩ := Option.map_eq_some_iff.1 he
        simp only [CDisk.exec] at h1
        split at h1
        · obtain ⟨ix, h2, h3⟩ := Option.map_eq_some_iff.1 h1
          simp only [IxState.exec] at h2
          split at h2
          · rename_i hc
            cases h2
            have : o = [] := by have := hc.2.2; rw [h.still.ib] at this; exact List.perm_nil.1 this
            subst this
            rw [if_neg (by rw [hc.1]; simp)] at h3
            subst h3
            exact ⟨h.folder, { h.still with iw := .inr rfl }, h.readers.of rfl rfl rfl rfl, h.down⟩
          · cases h2
        · cases h1
      | flushed =>
        obtain ⟨d', h1, rfl⟩ := Option.map_eq_some_iff.1 he
        simp only [CDisk.exec] at h1
        split at h1
        · obtain ⟨ix, h2, h3⟩ := Option.map_eq_some_iff.1 h1
          simp only [IxState.exec] at h2
          split at h2
          · cases h2
            split at h3
            · subst h3
              have := Calm.kill (s := { s with d := { s.d with ix := { s.d.ix with buf := [], writer := .idle } } }) h.folder.tree h.folder.docs
              refine ⟨⟨h.folder.tree, h.folder.docs, h.folder.aside⟩, ?_, ?_, h.down⟩
              · exact { this.still with ms := h.still.ms, ns := h.still.ns, ds := h.still.ds, chan := h.still.chan, ib := rfl, iw := .inl rfl }
              · exact this.readers.of rfl rfl rfl rfl
            · subst h3
              exact ⟨h.folder, { h.still with ib := rfl, iw := .inl rfl }, h.readers.of rfl rfl rfl rfl, h.down⟩
          · cases h2
        · cases h1
      | _ => cases he
    · cases he
  | crash =>
    simp only [BDisk.exec] at he
    split at he
    · cases he
    · cases he; exact hkill
  | open_ =>
    simp only [BDisk.exec] at he
    split at he
    · rename_i hdn
      cases he
      have ha := h.folder.aside
      rw [h.down hdn] at ha
      have hsv : s.saveI = none := by
        cases hsv : s.saveI with
        | some x => rw [hsv] at ha; exact ha.elim
        | none => rfl
      refine ⟨⟨h.folder.tree, h.folder.docs, ?_⟩, h.still.of rfl rfl rfl rfl rfl rfl rfl rfl rfl, h.readers.of rfl rfl rfl rfl, fun e => by cases e⟩
      show Aside root s.fs (.atField (s.fs.listDirectories root) []) s.saveI
      rw [hsv]
      intro g hg
      have := (FS.mem_listDirectories s.fs h.folder.tree.wf root g).1 hg
      exact ⟨field_plain h.folder.tree this, this.2, this.1⟩
    · cases he
  | openRest n progs =>
    simp only [BDisk.exec] at he
    split at he
    · split at he
      · cases he
        refine ⟨h.folder, h.still.of rfl rfl rfl rfl rfl rfl rfl rfl rfl, ⟨LRU.ok_new _, (fun id r hv => by rw [LRU.val_new] at hv; cases hv), fun cl hcl => ?_, h.readers.answers⟩, h.down⟩
        obtain ⟨p, hp, rfl⟩ := List.mem_map.1 hcl
        exact ⟨ho p hp, fun c hc => by cases hc⟩
      · cases he; exact hkill
    · cases he

theorem decodeFields_iff {buf : Bytes} {m : GoMap String Field} : decodeFields buf = some m ↔ HoldsFields buf m := by
  unfold decodeFields HoldsFields
  simp only [Option.bind_eq_some_iff, Gzip.c117_reads]

theorem loadDoc_some {fs : FS} {id : String} (hp : PlainName id) (h : loadDoc fs root id ≠ none) (name : String) (fd : Field) : (doc0 fs root id).get? name = some fd ↔ Stored fs root id name fd := by
  unfold doc0 Stored
  unfold loadDoc at h ⊢
  rw [docPath hp] at h ⊢
  cases hr : fs.readFile (root ++ ["docs", "metrics", id]) with
  | none =>
    simp only [Option.bind_some, Option.getD_none]
    constructor
    · intro hc; cases hc
    · rintro ⟨buf, m, h1, -⟩
      simp [FS.readFile, h1] at hr
  | some buf =>
    rw [hr] at h
    simp only at h ⊢
    cases hd : decodeFields buf with
    | none => rw [hd] at h; exact absurd rfl h
    | some m =>
      simp only [Option.map_some, Option.bind_some, Option.getD_some]
      constructor
      · exact fun hm => ⟨buf, m, file_of_get hr, decodeFields_iff.1 hd, hm⟩
      · rintro ⟨buf', m', h1, h2, h3⟩
        rw [file_of_get hr] at h1; cases h1
        rw [decodeFields_iff.2 h2] at hd; cases hd
        exact h3

theorem run_calm {t s : BDisk} {as : List CDisk.Act} (h0 : Tree root t.fs) (h : t.kill.run z root as = some s) (ho : ∀ a ∈ as, OnlyReads a) : Calm t.fs root s := by
  have : ∀ (as : List CDisk.Act) (u : BDisk), (∀ a ∈ as, OnlyReads a) → Calm t.fs root u → u.run z root as = some s → Calm t.fs root s := by
    intro as
    induction as with
    | nil => intro u _ hu hr; cases hr; exact hu
    | cons a as ih =>
      intro u ho hu hr
      obtain ⟨v, h1, h2⟩ := brun_cons.1 hr
      exact ih v (fun b hb => ho b (List.mem_cons_of_mem _ hb)) (exec_calm hu (ho a (by simp)) h1) h2
  exact this as t.kill ho (Calm.kill h0 fun _ => rfl) h

/-- **C128, GetFields.** The folder is any folder.  Processes open it, their clients only read, side by side, while the store merges its index in the background; they are killed and started again, anywhere and any number
of times.  Every call of GetFields that has returned has returned exactly the fields that the files of the documents hold, and no file of a document that it was asked for is damaged. -/
theorem c128_fields {t s : BDisk} {as : List CDisk.Act} (h0 : Tree root t.fs) (h : t.kill.run z root as = some s) (ho : ∀ a ∈ as, OnlyReads a) {ids : List String} {name : String} {out : GoMap String Field}
    (ha : (ids, name, out) ∈ s.d.answers) {id : String} (hp : PlainName id) :
    (∀ fd, out.get? id = some fd ↔ id ∈ ids ∧ Stored t.fs root id name fd) ∧ (id ∈ ids → ¬ DamagedDocument t.fs root id) := by
  obtain ⟨h1, h2⟩ := (run_calm h0 h ho).readers.answers _ ha id hp
  refine ⟨fun fd => ?_, fun hi => ?_⟩
  · simp only at h1 h2
    rw [h1]
    by_cases hi : id ∈ ids
    · rw [if_pos hi, loadDoc_some hp (h2 hi)]; simp [hi]
    · simp [hi]
  · rintro ⟨buf, h3, h4⟩
    refine h2 hi ?_
    unfold loadDoc
    rw [docPath hp, show t.fs.readFile (root ++ ["docs", "metrics", id]) = some buf by simp [FS.readFile, h3]]
    simp only [none_of_iff (fun m => decodeFields_iff) h4, Option.map_none]

/-- **C128, the documents stay.** Such processes change no file of a document. -/
theorem c128_documents_stay {t s : BDisk} {as : List CDisk.Act} (h0 : Tree root t.fs) (h : t.kill.run z root as = some s) (ho : ∀ a ∈ as, OnlyReads a) (id : String) :
    s.fs.get? (root ++ ["docs", "metrics", id]) = t.fs.get? (root ++ ["docs", "metrics", id]) := (run_calm h0 h ho).folder.docs id

/-! ### cases -/

/-- a folder with the file of one document; `c` is its content. -/
def lone (c : Bytes) : FS := [(["data"], .dir), (["data", "docs"], .dir), (["data", "docs", "metrics"], .dir), (["data", "docs", "metrics", "a"], .file c)]

theorem lone_tree (c : Bytes) : Tree ["data"] (lone c) := by
  refine ⟨by simp [lone, GoMap.WF, GoMap.keys], fun p n hp => ?_, fun i hi => ?_⟩
  · have := GoMap.mem_of_get? hp
    simp only [lone, List.mem_cons, Prod.mk.injEq, List.not_mem_nil, or_false] at this
    intro x hx
    rcases this with h | h | h | h <;> (obtain ⟨rfl, -⟩ := h; simp only [List.mem_cons, List.not_mem_nil, or_false] at hx) <;> aesop (add safe (by decide))
  · obtain rfl : i = 0 := by simp at hi; omega
    rfl

/-- the bytes of the file of a document. -/
def fieldsBytes (m : GoMap String Field) : Bytes := storedFile ((FBB.serializeFieldMap m).getD [])

/-- a process opens the folder, a client asks for the documents `a` and `b`; a merge runs in between. -/
def asks : List CDisk.Act :=
  [.open_, .ix .merge, .openRest 5 [[.getFields ["a", "b"] "title"]], .client 0 0, .client 0 0, .ix .startMerge, .client 0 0, .ix .merge, .client 0 0, .client 0 0, .client 0 0, .client 0 0]

set_option maxRecDepth 100000 in
/-- the hypotheses of `c128_fields` are met, and the answer is what the file holds. -/
example : (∀ a ∈ asks, OnlyReads a) ∧ ∃ s, ({ fs := lone (fieldsBytes [("title", ⟨"title", 1, [("x", 1)]⟩)]) } : BDisk).kill.run packer ["data"] asks = some s ∧ s.d.answers = [(["a", "b"], "title", [("a", ⟨"title", 1, [("x", 1)]⟩)])] := by
  refine ⟨fun a ha => ?_, ?_⟩
  · simp only [asks, List.mem_cons, List.not_mem_nil, or_false] at ha
    rcases ha with rfl | rfl | rfl | rfl | rfl | rfl | rfl | rfl | rfl | rfl | rfl | rfl
    all_goals try trivial
    intro p hp op hop
    simp only [List.mem_cons, List.not_mem_nil, or_false] at hp
    subst hp
    simp only [List.mem_cons, List.not_mem_nil, or_false] at hop
    exact ⟨_, _, hop⟩
  · obtain ⟨s, h1, h2⟩ : ∃ s, ({ fs := lone (fieldsBytes [("title", ⟨"title", 1, [("x", 1)]⟩)]) } : BDisk).kill.run packer ["data"] asks = some s ∧
      decide (s.d.answers = [(["a", "b"], "title", [("a", ⟨"title", 1, [("x", 1)]⟩)])]) = true := exists_of (by decide +kernel)
    exact ⟨s, h1, of_decide_eq_true h2⟩

/-- a file that is damaged … -/
theorem lone_damaged : DamagedDocument (lone [1, 2, 3]) ["data"] "a" := ⟨[1, 2, 3], rfl, fun m hm => by
  have := decodeFields_iff.2 hm
  rw [show decodeFields [1, 2, 3] = none by decide +kernel] at this
  cases this⟩

set_option maxRecDepth 100000 in
/-- … is noticed when a client asks for it, not when the store is opened: the process ends. -/
example : ∃ s s', ({ fs := lone [1, 2, 3] } : BDisk).kill.run packer ["data"] (asks.take 5) = some s ∧ s.d.up = true ∧ s.run packer ["data"] [.client 0 0] = some s' ∧ s'.d.up = false ∧ s'.d.ix.proc = .down := by
  obtain ⟨s, h1, h2⟩ : ∃ s, ({ fs := lone [1, 2, 3] } : BDisk).kill.run packer ["data"] (asks.take 5) = some s ∧
    (decide (s.d.up = true) && (s.run packer ["data"] [.client 0 0]).any fun s' => decide (s'.d.up = false ∧ s'.d.ix.proc = .down)) = true := exists_of (by decide +kernel)
  rw [Bool.and_eq_true, Option.any_eq_true] at h2
  obtain ⟨h2, s', h3, h4⟩ := h2
  exact ⟨s, s', h1, of_decide_eq_true h2, h3, of_decide_eq_true h4⟩

end Opening
end Goir
