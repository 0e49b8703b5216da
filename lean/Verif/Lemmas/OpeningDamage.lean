import Verif.Lemmas.OpeningInv
/-!
# Opening a damaged folder: the invariant

`p` is a file of the folder that cannot be read.  It stays as it is, and the store does not open.
-/
namespace Goir
open GoMap Spec Spec.Opening

namespace Opening
open BDisk

variable {root : Path} {z : Bytes → Bytes} {fs0 : FS} {p : Path}

/-- the path is one that LoadIndexOnHD uses for field `f`. -/
def Due (root : Path) (f : String) (p : Path) : Prop := p = root ++ [f, "index"] ∨ p = root ++ [f, "temp"] ∨ ∃ n, p = root ++ [f, "temp", n]

theorem Due.eq {f g : String} (h : Due root f p) (h' : Due root g p) : f = g := by
  rcases h with rfl | rfl | ⟨n, rfl⟩ <;> rcases h' with e | e | ⟨m, e⟩ <;> simp at e <;> first | exact e | exact e.1

/-- where the merge is: it has not passed the damaged file. -/
def Before (root : Path) (p : Path) (fs : FS) : MergePc → Option (SaveCall × SavePc) → Prop
  | .atField rest _, none => (∀ g ∈ rest, PlainName g ∧ fs.get? (root ++ [g]) = some .dir) ∧ ∀ f, Due root f p → f ∈ rest
  | .reading g rest seen files _ _, sv => (∀ g ∈ rest, PlainName g ∧ fs.get? (root ++ [g]) = some .dir) ∧ PlainName g ∧ fs.get? (root ++ [g]) = some .dir ∧ p ≠ root ++ [g, "index"] ∧
      (∀ n ∈ seen, PlainName n ∧ p ≠ root ++ [g, "temp", n]) ∧ (∀ n ∈ files, PlainName n) ∧ (∀ f, Due root f p → f ∈ rest ∨ ∃ n ∈ files, p = root ++ [g, "temp", n]) ∧
      match sv with
      | none => True
      | some (c, pc) => files = [] ∧ (∃ bs, c = ⟨root ++ [g], "index", bs⟩) ∧ Saving c fs fs pc
  | .deleting g rest ns _, none => (∀ g ∈ rest, PlainName g ∧ fs.get? (root ++ [g]) = some .dir) ∧ PlainName g ∧ fs.get? (root ++ [g]) = some .dir ∧ (∀ n ∈ ns, PlainName n ∧ p ≠ root ++ [g, "temp", n]) ∧
      (∀ f, Due root f p → f ∈ rest)
  | _, _ => False

/-- the store is not open, and nothing else than opening it is going on. -/
structure Shut (fs0 : FS) (root : Path) (p : Path) (s : BDisk) : Prop where
  up : s.d.up = false
  clients : s.d.clients = []
  writer : s.d.ix.writer = .idle
  mx : s.d.mx.pc = .idle
  nf : s.d.nf.pc = .idle
  fl : s.d.fl.pc = .idle
  saveM : s.saveM = none
  saveN : s.saveN = none
  saveD : s.saveD = none
  tree : Tree root s.fs
  kept : s.fs.get? p = fs0.get? p
  fields : ∀ f, fs0.get? (root ++ [f]) = some .dir → s.fs.get? (root ++ [f]) = some .dir
  at_ : (s.d.ix.proc = .down ∧ s.saveI = none) ∨ (s.d.ix.proc = .opening ∧ Before root p s.fs s.d.ix.merger s.saveI) ∨ (s.d.ix.proc = .up ∧ s.saveI = none ∧ ∀ f, ¬ Due root f p)

theorem foldlM_none {α β : Type} (g : β → α → Option β) (x : α) (hx : ∀ b, g b x = none) : ∀ (l : List α) (b : β), x ∈ l → l.foldlM g b = none
  | [], _, h => by cases h
  | y :: l, b, h => by
    rw [List.foldlM_cons]
    rcases List.mem_cons.1 h with rfl | h
    · rw [hx]; rfl
    · cases hy : g b y with
      | none => rfl
      | some b' => exact foldlM_none g x hx l b' h

theorem Tree.set {fs : FS} (h : Tree root fs) (q : Path) (n : Node) (hq : ∀ x ∈ q, PlainName x) (hd : fs.get? q = some .dir → n = .dir) : Tree root (GoMap.set fs q n) := by
  refine ⟨h.wf.set _ _, fun q' n' hq' => ?_, fun i hi => ?_⟩
  · rw [get?_set] at hq'
    split at hq'
    · rename_i e; subst e; exact hq
    · exact h.names _ _ hq'
  · rw [get?_set]
    split
    · rename_i e; subst e; rw [hd (h.root i hi)]
    · exact h.root i hi

theorem Tree.of_frame {fs fs' : FS} {g : String} {bs : Bytes} (h : Tree root fs) (hg : PlainName g) (hgd : fs.get? (root ++ [g]) = some .dir) (fr : Frame ⟨root ++ [g], "index", bs⟩ fs fs') : Tree root fs' := by
  refine ⟨fr.wf h.wf, fun q n hq => ?_, fun i hi => fr.dir _ (h.root i hi)⟩
  have hroot : ∀ x ∈ root, PlainName x := fun x hx => h.names _ _ hgd x (by simp [hx])
  have key : ∀ y, PlainName y → ∀ x ∈ root ++ [g] ++ [y], PlainName x := by
    intro y hy x hx
    simp only [List.mem_append, List.mem_singleton] at hx
    rcases hx with (hx | rfl) | rfl
    exacts [hroot x hx, hg, hy]
  by_cases h1 : q = root ++ [g] ++ ["index"]
  · subst h1; exact key _ (by decide)
  by_cases h2 : q = root ++ [g] ++ ["index" ++ "_temp"]
  · subst h2; exact key _ (by decide)
  by_cases h3 : q = root ++ [g] ++ ["index" ++ "_old"]
  · subst h3; exact key _ (by decide)
  rw [fr.get q h1 h2 h3] at hq
  exact h.names _ _ hq

theorem Shut.kill {s : BDisk} (ht : Tree root s.fs) (hk : s.fs.get? p = fs0.get? p) (hf : ∀ f, fs0.get? (root ++ [f]) = some .dir → s.fs.get? (root ++ [f]) = some .dir) : Shut fs0 root p s.kill :=
  ⟨rfl, rfl, rfl, rfl, rfl, rfl, rfl, rfl, rfl, ht, hk, hf, .inl ⟨rfl, rfl⟩⟩

theorem file_of_get {fs : FS} {q : Path} {c : Bytes} (h : fs.readFile q = some c) : fs.get? q = some (.file c) := by
  unfold FS.readFile at h
  split at h
  · rename_i c' hc; cases h; exact hc
  · cases h

theorem part_path {fs : FS} {f : String} {q : Path} {buf : Bytes} (h : Part fs root f q buf) : q = root ++ [f, "index"] ∨ ∃ n, q = root ++ [f, "temp", n] := by
  cases h with
  | index h => exact .inl rfl
  | fragment h => exact .inr ⟨_, rfl⟩

/-- a damaged file never decodes as what it should be. -/
theorem damaged_part (hd : Damaged fs0 root p) {f : String} {buf : Bytes} {m : GoMap String (GoMap String Bool)} (hp : Part fs0 root f p buf) : BDisk.decodeIndex buf ≠ some m := by
  intro hm
  have hm := decodeIndex_iff.1 hm
  have hg := part_get hp
  cases hd with
  | part hf hp' hn => rw [part_get hp'] at hg; cases hg; exact hn m hm
  | metrics hf hg' hn => rcases part_path hp with e | ⟨n, e⟩ <;> simp at e
  | counts hf hg' hn => rcases part_path hp with e | ⟨n, e⟩ <;> simp at e
  | directory hf hx hg' => rw [hg'] at hg; cases hg
  | temp hf hg' => rcases part_path hp with e | ⟨n, e⟩ <;> simp at e

theorem damaged_name (hd : Damaged fs0 root p) : ∀ g, p ≠ root ++ [g, "index_temp"] ∧ p ≠ root ++ [g, "index_old"] := by
  intro g
  cases hd with
  | part hf hp hn => cases hp <;> simp
  | metrics hf hg' hn => simp
  | counts hf hg' hn => simp
  | directory hf hx hg' => simp only [List.mem_cons, List.not_mem_nil, or_false] at hx; rcases hx with rfl | rfl | rfl <;> simp
  | temp hf hg' => simp

theorem damaged_index {g : String} (hd : Damaged fs0 root (root ++ [g, "index"])) : fs0.get? (root ++ [g, "index"]) = some .dir ∨ ∃ buf, Part fs0 root g (root ++ [g, "index"]) buf := by
  have hd : ∃ p, Damaged fs0 root p ∧ p = root ++ [g, "index"] := ⟨_, hd, rfl⟩
  obtain ⟨p, hd, e⟩ := hd
  cases hd with
  | part hf hp hn => rw [e] at hp; exact .inr ⟨_, .index (part_get hp)⟩
  | metrics hf hg' hn => simp at e
  | counts hf hg' hn => simp at e
  | directory hf hx hg' => rw [e] at hg'; exact .inl hg'
  | temp hf hg' => simp at e

theorem damaged_frag {g n : String} (hd : Damaged fs0 root (root ++ [g, "temp", n])) : ∃ buf, Part fs0 root g (root ++ [g, "temp", n]) buf := by
  have hd : ∃ p, Damaged fs0 root p ∧ p = root ++ [g, "temp", n] := ⟨_, hd, rfl⟩
  obtain ⟨p, hd, e⟩ := hd
  cases hd with
  | part hf hp hn => rw [e] at hp; exact ⟨_, .fragment (part_get hp)⟩
  | metrics hf hg' hn => simp at e
  | counts hf hg' hn => simp at e
  | directory hf hx hg' => simp at e
  | temp hf hg' => simp at e

theorem damaged_temp {g : String} (hd : Damaged fs0 root (root ++ [g, "temp"])) : ∃ buf, fs0.get? (root ++ [g, "temp"]) = some (.file buf) := by
  have hd : ∃ p, Damaged fs0 root p ∧ p = root ++ [g, "temp"] := ⟨_, hd, rfl⟩
  obtain ⟨p, hd, e⟩ := hd
  cases hd with
  | part hf hp hn => rcases part_path hp with e' | ⟨n, e'⟩ <;> rw [e] at e' <;> simp at e'
  | metrics hf hg' hn => simp at e
  | counts hf hg' hn => simp at e
  | directory hf hx hg' => simp at e; rw [e.2] at hx; simp at hx
  | temp hf hg' => rw [e] at hg'; exact ⟨_, hg'⟩

/-- one step of the merge. -/
theorem merge_shut (hd : Damaged fs0 root p) {s s' : BDisk} (h : Shut fs0 root p s) (hop : s.d.ix.proc = .opening) (he : s.mergeStep z root = some s') : Shut fs0 root p s' := by
  have hb : Before root p s.fs s.d.ix.merger s.saveI := by
    rcases h.at_ with ⟨h1, -⟩ | ⟨-, h1⟩ | ⟨h1, -⟩
    · rw [hop] at h1; cases h1
    · exact h1
    · rw [hop] at h1; cases h1
  have hkill := Shut.kill h.tree h.kept h.fields
  have hle : s.loadError = s.kill := by unfold BDisk.loadError; rw [if_pos hop]
  have pi : PlainName "index" := by decide
  have pt : PlainName "temp" := by decide
  unfold BDisk.mergeStep at he
  split at he
  · rename_i acc hm
    rw [if_pos hop] at he
    cases he
    rw [hm] at hb
    cases hsv : s.saveI with
    | some x => rw [hsv] at hb; exact hb.elim
    | none =>
      rw [hsv] at hb
      exact ⟨h.up, h.clients, h.writer, h.mx, h.nf, h.fl, h.saveM, h.saveN, h.saveD, h.tree, h.kept, h.fields, .inr (.inr ⟨rfl, rfl, fun f hp => by cases hb.2 f hp⟩)⟩
  · rename_i f rest acc hm
    rw [hm] at hb
    cases hsv : s.saveI with
    | some x => rw [hsv] at hb; exact hb.elim
    | none =>
    rw [hsv] at hb
    obtain ⟨hr, hp⟩ := hb
    obtain ⟨pf, hfd⟩ := hr f (by simp)
    have etemp : BDisk.tempDir root f = root ++ [f, "temp"] := by unfold BDisk.tempDir; rw [join_plain pf, join_plain pt]; simp
    have eidx : join (join root f) "index" = root ++ [f, "index"] := by rw [join_plain pf, join_plain pi]; simp
    have hroot : ∀ x ∈ root, PlainName x := fun x hx => h.tree.names _ _ hfd x (by simp [hx])
    split at he
    · cases he; exact hkill
    · rename_i fs' hmk
      rw [etemp] at hmk
      have hfs : Tree root fs' ∧ (∀ p, s.fs.get? p = some .dir → fs'.get? p = some .dir) ∧ (∀ p, p ≠ root ++ [f, "temp"] → fs'.get? p = s.fs.get? p) := by
        rcases mkdir_temp h.tree.root hfd hmk with ⟨rfl, -⟩ | ⟨rfl, hnone⟩
        · exact ⟨h.tree, fun _ h => h, fun _ _ => rfl⟩
        · refine ⟨Tree.set h.tree _ _ (fun x hx => ?_) (fun _ => rfl), fun p hp => ?_, fun p hp => ?_⟩
          · simp only [List.mem_append, List.mem_cons, List.not_mem_nil, or_false] at hx
            rcases hx with hx | rfl | rfl
            exacts [hroot x hx, pf, pt]
          · rw [get?_set]; split
            · rfl
            · exact hp
          · rw [get?_set, if_neg (Ne.symm hp)]
      obtain ⟨w1, w2, w3⟩ := hfs
      have hnt : p ≠ root ++ [f, "temp"] := by
        rintro rfl
        obtain ⟨b, hb⟩ := damaged_temp hd
        have hb := h.kept.trans hb
        rcases mkdir_temp h.tree.root hfd hmk with ⟨-, h'⟩ | ⟨-, h'⟩ <;> rw [hb] at h' <;> cases h'
      have hk' : fs'.get? p = fs0.get? p := (w3 p hnt).trans h.kept
      have hf' : ∀ f, fs0.get? (root ++ [f]) = some .dir → fs'.get? (root ++ [f]) = some .dir := fun f hf => w2 _ (h.fields f hf)
      have hkill' : Shut fs0 root p { s with fs := fs' }.kill := Shut.kill (s := { s with fs := fs' }) w1 hk' hf'
      split at he
      · cases he; exact hkill'
      · cases he
        have : ({ s with fs := fs' } : BDisk).loadError = ({ s with fs := fs' } : BDisk).kill := by unfold BDisk.loadError; rw [if_pos hop]
        rw [this]; exact hkill'
      · rename_i td hload
        cases he
        have hni : p ≠ root ++ [f, "index"] := by
          rintro rfl
          unfold BDisk.loadTerms at hload
          rw [eidx] at hload
          rcases damaged_index hd with hb | ⟨b, hb⟩
          · have hg : fs'.get? (root ++ [f, "index"]) = some .dir := by rw [hk']; exact hb
            have hrd : fs'.readFile (root ++ [f, "index"]) = none := by simp [FS.readFile, hg]
            rw [if_pos (by simp [FS.exists_, hg]), hrd] at hload
            cases hload
          have hg : fs'.get? (root ++ [f, "index"]) = some (.file b) := by rw [hk']; exact part_get hb
          have hex : fs'.exists_ (root ++ [f, "index"]) = true := by simp [FS.exists_, hg]
          have hrd : fs'.readFile (root ++ [f, "index"]) = some b := by simp [FS.readFile, hg]
          rw [if_pos hex, hrd] at hload
          simp only at hload
          obtain ⟨m, hm1, -⟩ := Option.map_eq_some_iff.1 hload
          exact damaged_part hd hb hm1
        refine ⟨h.up, h.clients, h.writer, h.mx, h.nf, h.fl, h.saveM, h.saveN, h.saveD, w1, hk', hf', .inr (.inl ⟨hop, ?_⟩)⟩
        show Before root p fs' (.reading f rest [] (fs'.listFiles (BDisk.tempDir root f)) td acc) s.saveI
        rw [hsv, etemp]
        refine ⟨fun g hg => ⟨(hr g (List.mem_cons_of_mem _ hg)).1, w2 _ (hr g (List.mem_cons_of_mem _ hg)).2⟩, pf, w2 _ hfd, hni, (fun n hn => by cases hn), fun n hn => ?_, fun g hpart => ?_, trivial⟩
        · obtain ⟨c, hc⟩ := (FS.mem_listFiles fs' w1.wf _ n).1 hn
          exact w1.names _ _ hc n (by simp)
        · rcases List.mem_cons.1 (hp g hpart) with rfl | hg
          · rcases hpart with e | e | ⟨n, e⟩
            · exact absurd e hni
            · exact absurd e hnt
            · refine .inr ⟨n, (FS.mem_listFiles fs' w1.wf _ n).2 ?_, e⟩
              rw [e] at hd
              obtain ⟨b, hb⟩ := damaged_frag hd
              have : root ++ [g, "temp"] ++ [n] = p := by rw [e]; simp
              exact ⟨b, by rw [this, hk', e]; exact part_get hb⟩
          · exact .inl hg
  · rename_i g rest seen n ns td acc hm
    rw [hm] at hb
    obtain ⟨hr, pg, hgd, hni, hseen, hfiles, hp, hsv⟩ := hb
    have pn := hfiles n (by simp)
    have epath : join (BDisk.tempDir root g) n = root ++ [g, "temp", n] := by unfold BDisk.tempDir; rw [join_plain pg, join_plain pt, join_plain pn]; simp
    rw [epath] at he
    split at he
    · cases he; rw [hle]; exact hkill
    · rename_i buf hrd
      split at he
      · cases he; exact hkill
      · rename_i m hdec
        cases he
        have hne : p ≠ root ++ [g, "temp", n] := by
          rintro rfl
          obtain ⟨b, hb⟩ := damaged_frag hd
          have := file_of_get hrd
          rw [h.kept, part_get hb] at this
          cases this
          exact damaged_part hd hb hdec
        refine ⟨h.up, h.clients, h.writer, h.mx, h.nf, h.fl, h.saveM, h.saveN, h.saveD, h.tree, h.kept, h.fields, .inr (.inl ⟨hop, ?_⟩)⟩
        show Before root p s.fs (.reading g rest (seen ++ [n]) ns (IxState.mergeInto td m) acc) s.saveI
        have hsn : s.saveI = none := by
          cases hs : s.saveI with
          | none => rfl
          | some x => rw [hs] at hsv; exact absurd hsv.1 (by simp)
        rw [hsn]
        refine ⟨hr, pg, hgd, hni, fun k hk => ?_, fun k hk => hfiles k (by simp [hk]), fun f hpart => ?_, trivial⟩
        · rcases List.mem_append.1 hk with hk | hk
          · exact hseen k hk
          · rw [List.mem_singleton] at hk; subst hk; exact ⟨pn, hne⟩
        · rcases hp f hpart with hf | ⟨k, hk, e⟩
          · exact .inl hf
          · rcases List.mem_cons.1 hk with rfl | hk
            · exact absurd e hne
            · exact .inr ⟨k, hk, e⟩
  · rename_i g rest seen td acc hm hsv
    rw [hm, hsv] at hb
    obtain ⟨hr, pg, hgd, hni, hseen, hfiles, hp, -⟩ := hb
    split at he
    · cases he; exact hkill
    · rename_i raw hser
      rw [join_plain pg, mkdir_field h.tree.root hgd] at he
      cases he
      refine ⟨h.up, h.clients, h.writer, h.mx, h.nf, h.fl, h.saveM, h.saveN, h.saveD, h.tree, h.kept, h.fields, .inr (.inl ⟨hop, ?_⟩)⟩
      show Before root p s.fs s.d.ix.merger _
      rw [hm]
      exact ⟨hr, pg, hgd, hni, hseen, hfiles, hp, rfl, ⟨_, rfl⟩, Frame.refl _ _, rfl⟩
  · rename_i g rest seen td acc c hm hsv
    rw [hm, hsv] at hb
    obtain ⟨hr, pg, hgd, hni, hseen, hfiles, hp, -, -⟩ := hb
    cases he
    refine ⟨h.up, h.clients, h.writer, h.mx, h.nf, h.fl, h.saveM, h.saveN, h.saveD, h.tree, h.kept, h.fields, .inr (.inl ⟨hop, ?_⟩)⟩
    show Before root p s.fs (.deleting g rest seen (acc.set g td)) none
    refine ⟨hr, pg, hgd, hseen, fun f hpart => ?_⟩
    rcases hp f hpart with hf | ⟨k, hk, -⟩
    · exact hf
    · cases hk
  · rename_i g rest seen td acc c pc hpc hm hsv
    rw [hm, hsv] at hb
    obtain ⟨hr, pg, hgd, hni, hseen, hfiles, hp, hfl, ⟨bs, rfl⟩, hnow⟩ := hb
    have moved : ∀ fs' : FS, Frame ⟨root ++ [g], "index", bs⟩ s.fs fs' → Tree root fs' ∧ fs'.get? p = fs0.get? p ∧ ∀ f, fs0.get? (root ++ [f]) = some .dir → fs'.get? (root ++ [f]) = some .dir := by
      intro fs' fr
      refine ⟨Tree.of_frame h.tree pg hgd fr, ?_, fun f hf => fr.dir _ (h.fields f hf)⟩
      rw [← h.kept]
      refine fr.get p ?_ ?_ ?_
      · simpa using hni
      · simpa using (damaged_name hd g).1
      · simpa using (damaged_name hd g).2
    split at he
    · cases he
    · rename_i fs' hst
      cases he
      obtain ⟨fr, -⟩ := Saving.self pi hnow hst
      obtain ⟨m1, m2, m3⟩ := moved fs' fr
      have : ({ s with fs := fs' } : BDisk).loadError = ({ s with fs := fs' } : BDisk).kill := by unfold BDisk.loadError; rw [if_pos hop]
      rw [this]
      exact Shut.kill (s := { s with fs := fs' }) m1 m2 m3
    · rename_i fs' pc' hnf hst
      cases he
      obtain ⟨fr, sv⟩ := Saving.self pi hnow hst
      obtain ⟨m1, m2, m3⟩ := moved fs' fr
      refine ⟨h.up, h.clients, h.writer, h.mx, h.nf, h.fl, h.saveM, h.saveN, h.saveD, m1, m2, m3, .inr (.inl ⟨hop, ?_⟩)⟩
      show Before root p fs' s.d.ix.merger _
      rw [hm]
      exact ⟨fun x hx => ⟨(hr x hx).1, fr.dir _ (hr x hx).2⟩, pg, fr.dir _ hgd, hni, hseen, hfiles, hp, hfl, ⟨bs, rfl⟩, sv⟩
  · rename_i g rest acc hm
    rw [hm] at hb
    cases hsv : s.saveI with
    | some x => rw [hsv] at hb; exact hb.elim
    | none =>
    rw [hsv] at hb
    obtain ⟨hr, pg, hgd, hns, hp⟩ := hb
    cases he
    refine ⟨h.up, h.clients, h.writer, h.mx, h.nf, h.fl, h.saveM, h.saveN, h.saveD, h.tree, h.kept, h.fields, .inr (.inl ⟨hop, ?_⟩)⟩
    show Before root p s.fs (.atField rest acc) s.saveI
    rw [hsv]
    exact ⟨hr, hp⟩
  · rename_i g rest n ns acc hm
    rw [hm] at hb
    cases hsv : s.saveI with
    | some x => rw [hsv] at hb; exact hb.elim
    | none =>
    rw [hsv] at hb
    obtain ⟨hr, pg, hgd, hns, hp⟩ := hb
    obtain ⟨pn, hne⟩ := hns n (by simp)
    have epath : join (BDisk.tempDir root g) n = root ++ [g, "temp", n] := by unfold BDisk.tempDir; rw [join_plain pg, join_plain pt, join_plain pn]; simp
    rw [epath] at he
    split at he
    · cases he; rw [hle]; exact hkill
    · rename_i fs' hrm
      cases he
      unfold FS.remove at hrm
      split at hrm
      · rename_i c hc
        cases hrm
        have hdirs : ∀ q, s.fs.get? q = some .dir → GoMap.get? (GoMap.del s.fs (root ++ [g, "temp", n])) q = some .dir := fun q hq => by
          rw [get?_del, if_neg]
          · exact hq
          · rintro rfl; rw [hc] at hq; cases hq
        refine ⟨h.up, h.clients, h.writer, h.mx, h.nf, h.fl, h.saveM, h.saveN, h.saveD, ⟨h.tree.wf.del _, fun q k hq => ?_, fun i hi => hdirs _ (h.tree.root i hi)⟩, ?_, fun f hf => hdirs _ (h.fields f hf), .inr (.inl ⟨hop, ?_⟩)⟩
        · have hq : GoMap.get? (GoMap.del s.fs (root ++ [g, "temp", n])) q = some k := hq
          rw [get?_del] at hq
          split at hq
          · cases hq
          · exact h.tree.names _ _ hq
        · show GoMap.get? (GoMap.del s.fs (root ++ [g, "temp", n])) p = _
          rw [get?_del, if_neg (Ne.symm hne)]; exact h.kept
        · show Before root p (GoMap.del s.fs (root ++ [g, "temp", n])) (.deleting g rest ns acc) s.saveI
          rw [hsv]
          exact ⟨fun x hx => ⟨(hr x hx).1, hdirs _ (hr x hx).2⟩, pg, hdirs _ hgd, fun k hk => hns k (by simp [hk]), hp⟩
      · cases hrm
  · cases he

end Opening
end Goir
