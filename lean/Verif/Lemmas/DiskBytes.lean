import Verif.Lemmas.DiskBytesFS
import Verif.Model.DiskBytes
/-!
# The files of a store in one file system

`Slot`: the targets of SecureSaveFile.  `FRel`: a file system and the files of the model with objects agree.
-/
namespace Goir
open GoMap

/-- a field name that is one path component and not the folder of the documents. -/
def FieldName (f : String) : Prop := PlainName f ∧ f ≠ "docs"

/-- document ids that are path components and of which none is another one followed by `_temp` or `_old`. -/
structure Ids (D : String → Prop) : Prop where
  plain : ∀ d, D d → PlainName d
  apart : ∀ d e, D d → D e → d ≠ e ++ "_temp" ∧ d ≠ e ++ "_old"

/-- a target of SecureSaveFile. -/
inductive Slot where
  | mx (f : String)
  | nf (f : String)
  | ix (f : String)
  | doc (d : String)
deriving DecidableEq

namespace Slot

/-- its folder. -/
def dir (root : Path) : Slot → Path
  | mx f => root ++ [f]
  | nf f => root ++ [f]
  | ix f => root ++ [f]
  | doc _ => root ++ ["docs", "metrics"]

/-- its name. -/
def name : Slot → String
  | mx _ => "metrics"
  | nf _ => "nfterm"
  | ix _ => "index"
  | doc d => d

/-- the object and the bytes are the same to the reader of this file. -/
def ag : Slot → FB.Buf → Bytes → Prop
  | mx _ => fun b raw => FBB.deserializeFieldSizeLength raw = deserializeFieldSizeLength b
  | nf _ => fun b raw => FBB.deserializeNumberFieldTerm raw = deserializeNumberFieldTerm b
  | ix _ => fun b raw => FBB.deserializeIndex raw = deserializeIndex b
  | doc _ => fun b raw => FBB.deserializeFieldMap raw = deserializeFieldMap b

/-- its field or document is one of the given. -/
def Valid (D : String → Prop) : Slot → Prop
  | mx f => FieldName f
  | nf f => FieldName f
  | ix f => FieldName f
  | doc d => D d

/-- `p` is one of its three paths. -/
def Owns (root : Path) (σ : Slot) (p : Path) : Prop := p = σ.dir root ++ [σ.name] ∨ p = σ.dir root ++ [σ.name ++ "_temp"] ∨ p = σ.dir root ++ [σ.name ++ "_old"]

theorem suffix_ne (d e : String) : d ++ "_temp" ≠ e ++ "_old" := by
  intro h
  have := congrArg (fun s : String => s.toList.getLast?) h
  simp only [String.toList_append] at this
  rw [show "_temp".toList = ['_','t','e','m'] ++ ['p'] from by decide, show "_old".toList = ['_','o','l'] ++ ['d'] from by decide, ← List.append_assoc, ← List.append_assoc, List.getLast?_concat, List.getLast?_concat] at this
  exact absurd this (by decide)

theorem apart {D : String → Prop} (hD : Ids D) (root : Path) {σ τ : Slot} (hσ : σ.Valid D) (hτ : τ.Valid D) (hne : σ ≠ τ) {p : Path} (h1 : σ.Owns root p) (h2 : τ.Owns root p) : False := by
  have key : ∀ f g : String, ∀ x y : String, root ++ [f] ++ [x] = root ++ [g] ++ [y] → f = g ∧ x = y := by
    intro f g x y h
    simpa using h
  have nodoc : ∀ f x y : String, root ++ [f] ++ [x] = root ++ ["docs", "metrics"] ++ [y] → False := by
    intro f x y h
    have := congrArg List.length h
    simp at this
  cases σ <;> cases τ <;> simp only [Owns, dir, name] at h1 h2
  case doc.doc d e =>
    have hde : d ≠ e := fun h => hne (by rw [h])
    obtain ⟨a1, a2⟩ := hD.apart d e hσ hτ
    obtain ⟨a3, a4⟩ := hD.apart e d hτ hσ
    rcases h1 with rfl | rfl | rfl <;> rcases h2 with h | h | h <;> simp at h
    · exact hde h
    · exact a1 h
    · exact a2 h
    · exact a3 h.symm
    · exact hde h
    · exact suffix_ne _ _ h
    · exact a4 h.symm
    · exact suffix_ne _ _ h.symm
    · exact hde h
  case doc.mx => rcases h1 with rfl | rfl | rfl <;> rcases h2 with h | h | h <;> exact nodoc _ _ _ h.symm
  case doc.nf => rcases h1 with rfl | rfl | rfl <;> rcases h2 with h | h | h <;> exact nodoc _ _ _ h.symm
  case doc.ix => rcases h1 with rfl | rfl | rfl <;> rcases h2 with h | h | h <;> exact nodoc _ _ _ h.symm
  case mx.doc => rcases h1 with rfl | rfl | rfl <;> rcases h2 with h | h | h <;> exact nodoc _ _ _ h
  case nf.doc => rcases h1 with rfl | rfl | rfl <;> rcases h2 with h | h | h <;> exact nodoc _ _ _ h
  case ix.doc => rcases h1 with rfl | rfl | rfl <;> rcases h2 with h | h | h <;> exact nodoc _ _ _ h
  all_goals
    first
    | (rcases h1 with rfl | rfl | rfl <;> rcases h2 with h | h | h <;> first | exact absurd (key _ _ _ _ h).2 (by decide) | exact hne (by rw [(key _ _ _ _ h).1]))

theorem plain {D : String → Prop} (hD : Ids D) {σ : Slot} (h : σ.Valid D) : PlainName σ.name := by
  cases σ with
  | mx f => exact (by decide : PlainName "metrics")
  | nf f => exact (by decide : PlainName "nfterm")
  | ix f => exact (by decide : PlainName "index")
  | doc d => exact hD.plain d h

end Slot

/-- the path of a fragment. -/
def fragPath (root : Path) (f n : String) : Path := root ++ [f, "temp", n]

theorem Slot.not_frag (root : Path) (σ : Slot) {D : String → Prop} (h : σ.Valid D) (f n : String) (hf : FieldName f) {p : Path} (hp : σ.Owns root p) : p ≠ fragPath root f n := by
  rintro rfl
  cases σ <;> simp only [Slot.Owns, Slot.dir, Slot.name, fragPath] at hp
  case doc d => rcases hp with h | h | h <;> simp at h <;> exact absurd h.1 hf.2
  all_goals rcases hp with h | h | h <;> (have := congrArg List.length h; simp at this)

/-- the folders of a store. -/
inductive Folder (root : Path) : Path → Prop
  | above {i : Nat} (h : i < root.length) : Folder root (root.take (i + 1))
  | field {f : String} (h : FieldName f) : Folder root (root ++ [f])
  | temp {f : String} (h : FieldName f) : Folder root (root ++ [f, "temp"])
  | docs : Folder root (root ++ ["docs"])
  | docs' : Folder root (root ++ ["docs", "metrics"])

/-- a file system `fs` and the files of the model with objects: the targets of SecureSaveFile, the fragments, the directories of fields. -/
structure FRel (root : Path) (D : String → Prop) (fs : FS) (A : Slot → SFile) (T : String → GoMap String Content) (K : List String) : Prop where
  wf : fs.WF
  above : ∀ i < root.length, fs.get? (root.take (i + 1)) = some .dir
  folder : ∀ p, Folder root p → fs.get? p = none ∨ fs.get? p = some .dir
  slot : ∀ σ : Slot, σ.Valid D → SRel σ.ag fs (σ.dir root) σ.name (A σ)
  frags : ∀ f, FieldName f → fs.listFiles (root ++ [f, "temp"]) = (T f).keys
  frag : ∀ f n, FieldName f → CRel (Slot.ix f).ag ((T f).get? n) (fs.get? (fragPath root f n))
  dirs : fs.listDirectories root = K
  names : ∀ f ∈ K, FieldName f
  absent : ∀ f, f ∉ K → A (.mx f) = {} ∧ A (.nf f) = {} ∧ T f = []

namespace FRel
variable {root : Path} {D : String → Prop} {fs fs' : FS} {A A' : Slot → SFile} {T T' : String → GoMap String Content} {K : List String}

theorem mem_dirs (h : FRel root D fs A T K) (f : String) (hf : FieldName f) : f ∈ K ↔ fs.get? (root ++ [f]) = some .dir := by
  rw [← h.dirs, FS.mem_listDirectories _ h.wf]
  exact ⟨fun x => x.1, fun x => ⟨x, hf.2⟩⟩

theorem owns_not_folder (hD : Ids D) {σ : Slot} (hσ : σ.Valid D) {p : Path} (hp : σ.Owns root p) : ¬ Folder root p := by
  intro hf
  have key : ∀ f x : String, ∀ i, root ++ [f] ++ [x] ≠ root.take i := by
    intro f x i h
    have := congrArg List.length h
    simp only [List.length_append, List.length_take, List.length_cons, List.length_nil] at this
    omega
  have key2 : ∀ f g x : String, ∀ i, root ++ [f, g] ++ [x] ≠ root.take i := by
    intro f g x i h
    have := congrArg List.length h
    simp only [List.length_append, List.length_take, List.length_cons, List.length_nil] at this
    omega
  cases σ <;> simp only [Slot.Owns, Slot.dir, Slot.name] at hp
  case doc d =>
    cases hf with
    | above h => rcases hp with h | h | h <;> exact key2 _ _ _ _ h.symm
    | field => rcases hp with h | h | h <;> (have := congrArg List.length h; simp at this)
    | temp => rcases hp with h | h | h <;> (have := congrArg List.length h; simp at this)
    | docs => rcases hp with h | h | h <;> (have := congrArg List.length h; simp at this)
    | docs' => rcases hp with h | h | h <;> (have := congrArg List.length h; simp at this)
  all_goals
    cases hf with
    | above h => rcases hp with h | h | h <;> exact key _ _ _ h.symm
    | field => rcases hp with h | h | h <;> (have := congrArg List.length h; simp at this)
    | temp => rcases hp with h | h | h <;> simp at h <;> revert h <;> decide +revert
    | docs => rcases hp with h | h | h <;> (have := congrArg List.length h; simp at this)
    | docs' =>
      have hne : ∀ f : String, FieldName f → "docs" = f → False := fun f h e => h.2 e.symm
      rcases hp with h | h | h <;> simp at h <;> exact hne _ hσ h

theorem owns_not_dir (h : FRel root D fs A T K) {σ : Slot} (hσ : σ.Valid D) {p : Path} (hp : σ.Owns root p) : fs.get? p ≠ some .dir := by
  have := h.slot σ hσ
  rcases hp with rfl | rfl | rfl
  exacts [this.cur.not_dir, this.tmp.not_dir, this.old.not_dir]

end FRel

/-- the targets of SecureSaveFile other than those in `P` are as before, and no directory has gone. -/
structure Keeps (root : Path) (D : String → Prop) (P : Slot → Prop) (fs fs' : FS) : Prop where
  get : ∀ τ : Slot, τ.Valid D → ¬ P τ → ∀ p, τ.Owns root p → fs'.get? p = fs.get? p
  dir : ∀ p, fs.get? p = some .dir → fs'.get? p = some .dir

theorem Keeps.refl (root : Path) (D : String → Prop) (P : Slot → Prop) (fs : FS) : Keeps root D P fs fs := ⟨fun _ _ _ _ _ => rfl, fun _ h => h⟩

theorem Keeps.trans {root : Path} {D : String → Prop} {P : Slot → Prop} {fs fs' fs'' : FS} (h : Keeps root D P fs fs') (h' : Keeps root D P fs' fs'') : Keeps root D P fs fs'' :=
  ⟨fun τ hτ hp p ho => (h'.get τ hτ hp p ho).trans (h.get τ hτ hp p ho), fun p hp => h'.dir p (h.dir p hp)⟩

theorem Keeps.mono {root : Path} {D : String → Prop} {P Q : Slot → Prop} {fs fs' : FS} (h : Keeps root D P fs fs') (hq : ∀ σ, P σ → Q σ) : Keeps root D Q fs fs' :=
  ⟨fun τ hτ hp => h.get τ hτ fun x => hp (hq τ x), h.dir⟩

theorem Keeps.save {root : Path} {D : String → Prop} {P : Slot → Prop} {fs fs' : FS} (h : Keeps root D P fs fs') {τ : Slot} (hτ : τ.Valid D) (hp : ¬ P τ) {c : SaveCall}
    (h1 : c.path = τ.dir root) (h2 : c.name = τ.name) {ag : FB.Buf → Bytes → Prop} {pc : SavePc} {b : FB.Buf} {apc : SPc} (hs : SaveRel ag fs c pc b apc) : SaveRel ag fs' c pc b apc :=
  hs.congr (by rw [h1, h2]; exact h.get τ hτ hp _ (.inl rfl)) (by rw [h1, h2]; exact h.get τ hτ hp _ (.inr (.inl rfl))) h.dir

namespace FRel
variable {root : Path} {D : String → Prop} {fs fs' : FS} {A A' : Slot → SFile} {T T' : String → GoMap String Content} {K : List String}

/-- a system call of SecureSaveFile. -/
theorem save (hD : Ids D) (h : FRel root D fs A T K) {σ : Slot} (hσ : σ.Valid D) {c : SaveCall} (h1 : c.path = σ.dir root) (h2 : c.name = σ.name) (fr : Frame c fs fs')
    (hs : SRel σ.ag fs' (σ.dir root) σ.name (A' σ)) (ho : ∀ τ, τ ≠ σ → A' τ = A τ) (hk : ∀ f, (σ = .mx f ∨ σ = .nf f) → f ∈ K) :
    FRel root D fs' A' T K ∧ Keeps root D (fun τ => τ = σ) fs fs' := by
  have fr1 : ∀ p, ¬ σ.Owns root p → fs'.get? p = fs.get? p := fun p hp => fr.get p (fun e => hp (.inl (by rw [e, h1, h2]))) (fun e => hp (.inr (.inl (by rw [e, h1, h2])))) (fun e => hp (.inr (.inr (by rw [e, h1, h2]))))
  have other : ∀ τ : Slot, τ.Valid D → ¬ τ = σ → ∀ p, τ.Owns root p → fs'.get? p = fs.get? p := fun τ hτ hne p hp => fr1 p fun ho => Slot.apart hD root hτ hσ hne hp ho
  refine ⟨⟨fr.wf h.wf, fun i hi => fr.dir _ (h.above i hi), fun p hp => ?_, fun τ hτ => ?_, fun f hf => ?_, fun f n hf => ?_, (fr.dirs h.wf root).trans h.dirs, h.names, fun f hf => ?_⟩, ⟨other, fr.dir⟩⟩
  · rw [fr1 p fun ho => owns_not_folder hD hσ ho hp]; exact h.folder p hp
  · by_cases e : τ = σ
    · subst e; exact hs
    · rw [ho τ e]
      exact (h.slot τ hτ).congr (other τ hτ e _ (.inl rfl)) (other τ hτ e _ (.inr (.inr rfl))) (other τ hτ e _ (.inr (.inl rfl)))
  · rw [fr.files h.wf _ ?_]
    · exact h.frags f hf
    · rw [h1]
      intro e
      cases σ <;> simp [Slot.dir] at e
  · rw [fr1 _ fun ho => Slot.not_frag root σ hσ f n hf ho rfl]; exact h.frag f n hf
  · obtain ⟨a1, a2, a3⟩ := h.absent f hf
    refine ⟨?_, ?_, a3⟩
    · rw [ho, a1]; intro e; exact hf (hk f (.inl e.symm))
    · rw [ho, a2]; intro e; exact hf (hk f (.inr e.symm))

/-- the directories of fields, when that of `f` has been made. -/
def withDir (K : List String) (f : String) : List String := if f ∈ K then K else K ++ [f]

theorem above_ne (i : Nat) (h : i < root.length) (l : Path) : root.take (i + 1) ≠ root ++ l ∨ l = [] := by
  by_cases e : l = []
  · exact .inr e
  · left
    intro he
    have := congrArg List.length he
    have : 0 < l.length := List.length_pos_iff.2 e
    simp only [List.length_take, List.length_append] at *
    omega

/-- one directory is made. -/
theorem mkdir1 (hD : Ids D) (h : FRel root D fs A T K) {p : Path} (hp : Folder root p) {K' : List String}
    (hK : (∃ f, FieldName f ∧ p = root ++ [f] ∧ K' = withDir K f) ∨ ((∀ f, FieldName f → p ≠ root ++ [f]) ∧ K' = K)) :
    ∃ fs', fs.mkdir1 p = some fs' ∧ FRel root D fs' A T K' ∧ Keeps root D (fun _ => False) fs fs' ∧ fs'.get? p = some .dir := by
  rcases h.folder p hp with hn | hd
  · have e : fs.mkdir1 p = some (GoMap.set fs p .dir) := by simp [FS.mkdir1, hn]
    have get : ∀ q, q ≠ p → GoMap.get? (GoMap.set fs p .dir) q = fs.get? q := fun q hq => by rw [get?_set, if_neg (Ne.symm hq)]
    have other : ∀ τ : Slot, τ.Valid D → ¬ False → ∀ q, τ.Owns root q → GoMap.get? (GoMap.set fs p .dir) q = fs.get? q :=
      fun τ hτ _ q hq => get q fun e => owns_not_folder hD hτ hq (e ▸ hp)
    have dir : ∀ q, fs.get? q = some .dir → GoMap.get? (GoMap.set fs p .dir) q = some .dir := fun q hq => by
      rw [get?_set]; split
      · rfl
      · exact hq
    have notfrag : ∀ f n, FieldName f → fragPath root f n ≠ p := by
      rintro f n hf rfl
      generalize hq : fragPath root f n = q at hp
      cases hp with
      | above hi => rcases above_ne _ hi [f, "temp", n] with h | h; exact h hq.symm; cases h
      | field => have := congrArg List.length hq; simp [fragPath] at this
      | temp => have := congrArg List.length hq; simp [fragPath] at this
      | docs => have := congrArg List.length hq; simp [fragPath] at this
      | docs' => have := congrArg List.length hq; simp [fragPath] at this
    have lists : FS.listDirectories (GoMap.set fs p .dir) root = K' ∧ (∀ f ∈ K', FieldName f) ∧ (∀ f ∈ K, f ∈ K') := by
      rcases hK with ⟨f, hf, rfl, rfl⟩ | ⟨hpf, rfl⟩
      · have hfk : f ∉ K := by rw [h.mem_dirs f hf, hn]; simp
        simp only [withDir, hfk, if_false]
        refine ⟨by rw [FS.listDirectories_new _ _ _ hn hf.2, h.dirs], fun g hg => ?_, fun g hg => by simp [hg]⟩
        rcases List.mem_append.1 hg with h' | h'
        · exact h.names g h'
        · simp at h'; subst h'; exact hf
      · refine ⟨?_, h.names, fun _ h => h⟩
        rw [FS.listDirectories_mkdir_other _ _ _ hn ?_, h.dirs]
        cases hp with
        | @above i hi =>
          left; intro e
          have := congrArg List.length e
          simp only [List.length_dropLast, List.length_take] at this
          omega
        | field hf => exact absurd rfl (hpf _ hf)
        | temp => left; simp
        | docs => right; simp
        | docs' => left; simp
    refine ⟨_, e, ⟨h.wf.set _ _, fun i hi => dir _ (h.above i hi), fun q hq => ?_, fun τ hτ => ?_, fun f hf => ?_, fun f n hf => ?_, lists.1, lists.2.1, fun f hf => h.absent f fun hk => hf (lists.2.2 f hk)⟩, ⟨other, dir⟩, by simp⟩
    · by_cases e : q = p
      · subst e; right; simp
      · rw [get q e]; exact h.folder q hq
    · exact (h.slot τ hτ).congr (other τ hτ id _ (.inl rfl)) (other τ hτ id _ (.inr (.inr rfl))) (other τ hτ id _ (.inr (.inl rfl)))
    · rw [FS.listFiles_mkdir _ _ _ hn]; exact h.frags f hf
    · rw [get _ (notfrag f n hf)]; exact h.frag f n hf
  · refine ⟨fs, by simp [FS.mkdir1, hd], ?_, Keeps.refl _ _ _ _, hd⟩
    rcases hK with ⟨f, hf, rfl, rfl⟩ | ⟨hpf, rfl⟩
    · have hfk : f ∈ K := (h.mem_dirs f hf).2 hd
      simp only [withDir, hfk, if_true]; exact h
    · exact h

theorem mkdir_root (h : FRel root D fs A T K) : fs.mkdirAll root = some fs := FS.mkdirAll_existing fs root h.above

theorem mkdir_field (hD : Ids D) (h : FRel root D fs A T K) {f : String} (hf : FieldName f) :
    ∃ fs', fs.mkdirAll (root ++ [f]) = some fs' ∧ FRel root D fs' A T (withDir K f) ∧ Keeps root D (fun _ => False) fs fs' ∧ fs'.get? (root ++ [f]) = some .dir := by
  obtain ⟨fs', h1, h2⟩ := h.mkdir1 hD (.field hf) (.inl ⟨f, hf, rfl, rfl⟩)
  exact ⟨fs', by rw [FS.mkdirAll_snoc, h.mkdir_root, Option.bind_some, h1], h2⟩

theorem mem_withDir (K : List String) (f : String) : f ∈ withDir K f := by
  unfold withDir; split
  · assumption
  · simp

theorem withDir_of_mem {K : List String} {f : String} (h : f ∈ K) : withDir K f = K := if_pos h

theorem subset_withDir (K : List String) (f g : String) (h : g ∈ K) : g ∈ withDir K f := by
  unfold withDir; split
  · exact h
  · simp [h]

theorem mkdir_temp (hD : Ids D) (h : FRel root D fs A T K) {f : String} (hf : FieldName f) :
    ∃ fs', fs.mkdirAll (root ++ [f, "temp"]) = some fs' ∧ FRel root D fs' A T (withDir K f) ∧ Keeps root D (fun _ => False) fs fs' ∧ fs'.get? (root ++ [f, "temp"]) = some .dir := by
  obtain ⟨fs1, h1, h2, h3, h4⟩ := h.mkdir_field hD hf
  obtain ⟨fs2, k1, k2, k3, k4⟩ := h2.mkdir1 hD (.temp hf) (.inr ⟨fun g _ e => by have := congrArg List.length e; simp at this, rfl⟩)
  have e : root ++ [f, "temp"] = root ++ [f] ++ ["temp"] := by simp
  refine ⟨fs2, ?_, k2, h3.trans k3, k4⟩
  rw [e, FS.mkdirAll_snoc, h1, Option.bind_some, ← e, k1]

theorem mkdir_docs (hD : Ids D) (h : FRel root D fs A T K) :
    ∃ fs', fs.mkdirAll (root ++ ["docs", "metrics"]) = some fs' ∧ FRel root D fs' A T K ∧ Keeps root D (fun _ => False) fs fs' ∧ fs'.get? (root ++ ["docs", "metrics"]) = some .dir := by
  obtain ⟨fs1, h1, h2, h3, h4⟩ := h.mkdir1 hD .docs (.inr ⟨fun g hg e => by simp at e; exact hg.2 e.symm, rfl⟩)
  obtain ⟨fs2, k1, k2, k3, k4⟩ := h2.mkdir1 hD .docs' (.inr ⟨fun g _ e => by have := congrArg List.length e; simp at this, rfl⟩)
  have e : root ++ ["docs", "metrics"] = root ++ ["docs"] ++ ["metrics"] := by simp
  refine ⟨fs2, ?_, k2, h3.trans k3, k4⟩
  rw [e, FS.mkdirAll_snoc, FS.mkdirAll_snoc, h.mkdir_root, Option.bind_some, h1, Option.bind_some, ← e, k1]

theorem frag_keeps (h : FRel root D fs A T K) {f n : String} (hf : FieldName f) (get : ∀ q, q ≠ fragPath root f n → fs'.get? q = fs.get? q) : Keeps root D (fun _ => False) fs fs' :=
  ⟨fun τ hτ _ q hq => get q (Slot.not_frag root τ hτ f n hf hq), fun p hp => by
    rw [get p, hp]
    rintro rfl
    exact (h.frag f n hf).not_dir hp⟩

theorem folder_ne_frag {p : Path} (hp : Folder root p) (f n : String) : p ≠ fragPath root f n := by
  intro hq
  cases hp with
  | above hi => rcases above_ne _ hi [f, "temp", n] with h | h; exact h hq; cases h
  | field => have := congrArg List.length hq; simp [fragPath] at this
  | temp => have := congrArg List.length hq; simp [fragPath] at this
  | docs => have := congrArg List.length hq; simp [fragPath] at this
  | docs' => have := congrArg List.length hq; simp [fragPath] at this

theorem frag_inj {f g n m : String} (h : fragPath root f n = fragPath root g m) : f = g ∧ n = m := by
  simp only [fragPath, List.append_cancel_left_eq, List.cons.injEq, and_true, true_and] at h; exact h

/-- a fragment is written. -/
theorem frag_set (h : FRel root D fs A T K) {f n : String} (hf : FieldName f) (hk : f ∈ K) {c : Content} {bs : Bytes}
    (hc : CRel (Slot.ix f).ag (some c) (some (.file bs))) (h1 : T' f = (T f).set n c) (h2 : ∀ g, g ≠ f → T' g = T g) :
    FRel root D (GoMap.set fs (fragPath root f n) (.file bs)) A T' K ∧ Keeps root D (fun _ => False) fs (GoMap.set fs (fragPath root f n) (.file bs)) := by
  have get : ∀ q, q ≠ fragPath root f n → GoMap.get? (GoMap.set fs (fragPath root f n) (.file bs)) q = fs.get? q := fun q hq => by rw [get?_set, if_neg (Ne.symm hq)]
  have kp := h.frag_keeps hf get
  have hnd := (h.frag f n hf).not_dir
  refine ⟨⟨h.wf.set _ _, fun i hi => kp.dir _ (h.above i hi), fun p hp => ?_, fun τ hτ => ?_, fun g hg => ?_, fun g m hg => ?_, ?_, h.names, fun g hg => ?_⟩, kp⟩
  · rw [get p (folder_ne_frag hp f n)]; exact h.folder p hp
  · exact (h.slot τ hτ).congr (kp.get τ hτ id _ (.inl rfl)) (kp.get τ hτ id _ (.inr (.inr rfl))) (kp.get τ hτ id _ (.inr (.inl rfl)))
  · by_cases e : g = f
    · subst e
      have e1 : fragPath root g n = root ++ [g, "temp"] ++ [n] := by simp [fragPath]
      rw [h1, GoMap.keys_set, ← h.frags g hg, e1]
      by_cases hm : n ∈ fs.listFiles (root ++ [g, "temp"])
      · obtain ⟨x, hx⟩ := (FS.mem_listFiles _ h.wf _ _).1 hm
        rw [if_pos hm, FS.listFiles_same _ _ _ _ _ hx]
      · rw [if_neg hm, FS.listFiles_new]
        cases hn : fs.get? (root ++ [g, "temp"] ++ [n]) with
        | none => rfl
        | some nd =>
          cases nd with
          | dir => rw [e1] at hnd; exact absurd hn hnd
          | file x => exact absurd ((FS.mem_listFiles _ h.wf _ _).2 ⟨x, hn⟩) hm
    · rw [h2 g e, FS.listFiles_set_other, h.frags g hg]
      simp [fragPath]
      intro e'; exact absurd e'.symm e
  · by_cases e : fragPath root g m = fragPath root f n
    · obtain ⟨rfl, rfl⟩ := frag_inj e
      rw [h1, get?_set_self, get?_set_self]; exact hc
    · rw [get _ e]
      have := h.frag g m hg
      by_cases e2 : g = f
      · subst e2
        rw [h1, get?_set, if_neg]
        · exact this
        · rintro rfl; exact e rfl
      · rw [h2 g e2]; exact this
  · rw [FS.listDirectories_set_file _ _ _ _ hnd, h.dirs]
  · have hgf : g ≠ f := fun e => hg (e ▸ hk)
    rw [h2 g hgf]; exact h.absent g hg

/-- a fragment is deleted. -/
theorem frag_del (h : FRel root D fs A T K) {f n : String} (hf : FieldName f) (hk : f ∈ K)
    (h1 : T' f = (T f).del n) (h2 : ∀ g, g ≠ f → T' g = T g) :
    FRel root D (GoMap.del fs (fragPath root f n)) A T' K ∧ Keeps root D (fun _ => False) fs (GoMap.del fs (fragPath root f n)) := by
  have get : ∀ q, q ≠ fragPath root f n → GoMap.get? (GoMap.del fs (fragPath root f n)) q = fs.get? q := fun q hq => by rw [get?_del, if_neg (Ne.symm hq)]
  have kp := h.frag_keeps hf get
  have hnd := (h.frag f n hf).not_dir
  refine ⟨⟨h.wf.del _, fun i hi => kp.dir _ (h.above i hi), fun p hp => ?_, fun τ hτ => ?_, fun g hg => ?_, fun g m hg => ?_, ?_, h.names, fun g hg => ?_⟩, kp⟩
  · rw [get p (folder_ne_frag hp f n)]; exact h.folder p hp
  · exact (h.slot τ hτ).congr (kp.get τ hτ id _ (.inl rfl)) (kp.get τ hτ id _ (.inr (.inr rfl))) (kp.get τ hτ id _ (.inr (.inl rfl)))
  · by_cases e : g = f
    · subst e
      have e1 : fragPath root g n = root ++ [g, "temp"] ++ [n] := by simp [fragPath]
      rw [h1, GoMap.keys_del, ← h.frags g hg, e1, FS.listFiles_del]
    · rw [h2 g e, FS.listFiles_del_other _ h.wf, h.frags g hg]
      simp [fragPath]
      intro e'; exact absurd e'.symm e
  · by_cases e : fragPath root g m = fragPath root f n
    · obtain ⟨rfl, rfl⟩ := frag_inj e
      rw [h1, get?_del, if_pos rfl, get?_del, if_pos rfl]; trivial
    · rw [get _ e]
      have := h.frag g m hg
      by_cases e2 : g = f
      · subst e2
        rw [h1, get?_del, if_neg]
        · exact this
        · rintro rfl; exact e rfl
      · rw [h2 g e2]; exact this
  · rw [FS.listDirectories_del _ h.wf _ _ hnd, h.dirs]
  · have hgf : g ≠ f := fun e => hg (e ▸ hk)
    rw [h2 g hgf]; exact h.absent g hg

end FRel
end Goir
