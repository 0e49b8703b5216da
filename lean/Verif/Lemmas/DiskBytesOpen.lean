import Verif.Lemmas.DiskBytesMerge
import Verif.Props.ConcurrentDisk
/-!
# The store with bytes follows the store with objects: opening
-/
namespace Goir
open GoMap

section
variable {root : Path} {D : String → Prop} {s : BDisk} {a : CDisk}

theorem loadM1_spec (h : BRel root D s a) (hi : AInv D a) {g : String} (hg : FieldName g) (acc : GoMap String Int × GoMap String Int) : ∃ acc', BDisk.loadM1 s.fs root acc g = some acc' ∧
    ((a.mx.cur g = none ∧ acc' = acc) ∨ ∃ c x y, a.mx.cur g = some c ∧ CtState.FileM c g x y ∧ acc' = (acc.1.set g x, acc.2.set g y)) := by
  have ej : join (join root g) "metrics" = (Slot.mx g).dir root ++ [(Slot.mx g).name] := by
    rw [join_plain hg.1, join_plain (by decide)]; rfl
  have hslot := (h.files.slot (.mx g) hg).cur
  have hA : (slots a (.mx g)).cur = a.mx.cur g := rfl
  rw [hA] at hslot
  unfold BDisk.loadM1 FS.exists_ FS.readFile
  rw [ej]
  cases hcur : a.mx.cur g with
  | none =>
    rw [hcur] at hslot
    rw [(hslot.none_iff).1 rfl]
    exact ⟨_, rfl, .inl ⟨rfl, rfl⟩⟩
  | some c =>
    obtain ⟨x, y, hx⟩ := hi.flush.sm g c hcur
    obtain ⟨b, rfl, hb⟩ := hx
    rw [hcur] at hslot
    match hnode : s.fs.get? ((Slot.mx g).dir root ++ [(Slot.mx g).name]), hslot with
    | some (.file bs), hr =>
      obtain ⟨raw, r1, r2⟩ := hr
      have r2 : FBB.deserializeFieldSizeLength raw = deserializeFieldSizeLength b := r2
      simp only [Option.isSome_some, if_true, Option.bind_some, BDisk.decodeMetrics, r1, r2, hb, Option.map_some]
      exact ⟨_, rfl, .inr ⟨_, _, _, rfl, ⟨b, rfl, hb⟩, rfl⟩⟩

theorem loadN1_spec (h : BRel root D s a) (hi : AInv D a) {g : String} (hg : FieldName g) (acc : GoMap String (GoMap String Int)) : ∃ acc', BDisk.loadN1 s.fs root acc g = some acc' ∧
    ((a.nf.cur g = none ∧ acc' = acc) ∨ ∃ b m, a.nf.cur g = some (.full b) ∧ deserializeNumberFieldTerm b = some m ∧ acc' = acc.set g m) := by
  have ej : join (join root g) "nfterm" = (Slot.nf g).dir root ++ [(Slot.nf g).name] := by
    rw [join_plain hg.1, join_plain (by decide)]; rfl
  have hslot := (h.files.slot (.nf g) hg).cur
  have hA : (slots a (.nf g)).cur = a.nf.cur g := rfl
  rw [hA] at hslot
  unfold BDisk.loadN1 FS.exists_ FS.readFile
  rw [ej]
  cases hcur : a.nf.cur g with
  | none =>
    rw [hcur] at hslot
    rw [(hslot.none_iff).1 rfl]
    exact ⟨_, rfl, .inl ⟨rfl, rfl⟩⟩
  | some c =>
    obtain ⟨b, m, rfl, hb, _⟩ := hi.flush.sn g c hcur
    rw [hcur] at hslot
    match hnode : s.fs.get? ((Slot.nf g).dir root ++ [(Slot.nf g).name]), hslot with
    | some (.file bs), hr =>
      obtain ⟨raw, r1, r2⟩ := hr
      have r2 : FBB.deserializeNumberFieldTerm raw = deserializeNumberFieldTerm b := r2
      simp only [Option.isSome_some, if_true, Option.bind_some, BDisk.decodeCounts, r1, r2, hb, Option.map_some]
      exact ⟨_, rfl, .inr ⟨b, m, rfl, hb, rfl⟩⟩

theorem foldlM_total {α β : Type} (f : β → α → Option β) (l : List α) (hf : ∀ x ∈ l, ∀ b, ∃ b', f b x = some b') (b : β) : ∃ r, l.foldlM f b = some r := by
  induction l generalizing b with
  | nil => exact ⟨b, rfl⟩
  | cons x l ih =>
    obtain ⟨b', hb⟩ := hf x List.mem_cons_self b
    obtain ⟨r, hr⟩ := ih (fun y hy => hf y (List.mem_cons_of_mem _ hy)) b'
    exact ⟨r, by rw [List.foldlM_cons, hb]; exact hr⟩

theorem loadM_fold (h : BRel root D s a) (hi : AInv D a) (l : List String) : ∀ (acc r : GoMap String Int × GoMap String Int), (∀ f ∈ l, FieldName f) → l.foldlM (BDisk.loadM1 s.fs root) acc = some r →
    ∀ f, (f ∈ l → ∀ c, a.mx.cur f = some c → ∃ x y, CtState.FileM c f x y ∧ r.1.get? f = some x ∧ r.2.get? f = some y) ∧
      (f ∉ l ∨ a.mx.cur f = none → r.1.get? f = acc.1.get? f ∧ r.2.get? f = acc.2.get? f) := by
  induction l with
  | nil =>
    intro acc r _ he f
    cases he
    exact ⟨fun h => (by cases h), fun _ => ⟨rfl, rfl⟩⟩
  | cons g l ih =>
    intro acc r hn he f
    rw [List.foldlM_cons] at he
    obtain ⟨acc', h1, h2⟩ := Option.bind_eq_some_iff.1 he
    have ih := ih acc' r (fun x hx => hn x (List.mem_cons_of_mem _ hx)) h2 f
    have hg := hn g List.mem_cons_self
    obtain ⟨acc'', k0, key⟩ := loadM1_spec h hi hg acc
    rw [k0] at h1
    cases h1
    constructor
    · intro hf c hc
      by_cases hfl : f ∈ l
      · exact ih.1 hfl c hc
      · have e : f = g := by simpa [hfl] using hf
        subst e
        rcases key with ⟨k1, _⟩ | ⟨c', x, y, k1, k2, k3⟩
        · rw [hc] at k1; cases k1
        · rw [hc] at k1; cases k1
          have := ih.2 (.inl hfl)
          rw [k3] at this
          exact ⟨x, y, k2, by simpa using this.1, by simpa using this.2⟩
    · intro hf
      have := ih.2 (by simp only [List.mem_cons, not_or] at hf; tauto)
      rcases key with ⟨_, k2⟩ | ⟨c', x, y, k1, k2, k3⟩
      · rw [k2] at this; exact this
      · have hne : g ≠ f := by
          rintro rfl
          rcases hf with hf | hf
          · exact hf List.mem_cons_self
          · rw [hf] at k1; cases k1
        rw [k3] at this
        simpa [GoMap.get?_set, hne] using this

theorem loadN_fold (h : BRel root D s a) (hi : AInv D a) (l : List String) : ∀ (acc r : GoMap String (GoMap String Int)), (∀ f ∈ l, FieldName f) → l.foldlM (BDisk.loadN1 s.fs root) acc = some r →
    ∀ f, (f ∈ l → ∀ b, a.nf.cur f = some (.full b) → ∃ m, deserializeNumberFieldTerm b = some m ∧ r.get? f = some m) ∧
      (f ∉ l ∨ a.nf.cur f = none → r.get? f = acc.get? f) := by
  induction l with
  | nil =>
    intro acc r _ he f
    cases he
    exact ⟨fun h => (by cases h), fun _ => rfl⟩
  | cons g l ih =>
    intro acc r hn he f
    rw [List.foldlM_cons] at he
    obtain ⟨acc', h1, h2⟩ := Option.bind_eq_some_iff.1 he
    have ih := ih acc' r (fun x hx => hn x (List.mem_cons_of_mem _ hx)) h2 f
    have hg := hn g List.mem_cons_self
    obtain ⟨acc'', k0, key⟩ := loadN1_spec h hi hg acc
    rw [k0] at h1
    cases h1
    constructor
    · intro hf b hc
      by_cases hfl : f ∈ l
      · exact ih.1 hfl b hc
      · have e : f = g := by simpa [hfl] using hf
        subst e
        rcases key with ⟨k1, _⟩ | ⟨b', m, k1, k2, k3⟩
        · rw [hc] at k1; cases k1
        · rw [hc] at k1; cases k1
          have := ih.2 (.inl hfl)
          rw [k3] at this
          exact ⟨m, k2, by simpa using this⟩
    · intro hf
      have := ih.2 (by simp only [List.mem_cons, not_or] at hf; tauto)
      rcases key with ⟨_, k2⟩ | ⟨c', x, k1, k2, k3⟩
      · rw [k2] at this; exact this
      · have hne : g ≠ f := by
          rintro rfl
          rcases hf with hf | hf
          · exact hf List.mem_cons_self
          · rw [hf] at k1; cases k1
        rw [k3] at this
        simpa [GoMap.get?_set, hne] using this

theorem get?_mapKeys {V W : Type} (m : GoMap String V) (g : String → W) (k : String) : GoMap.get? (m.map fun e => (e.1, g e.1)) k = (m.get? k).map fun _ => g k := by
  induction m with
  | nil => rfl
  | cons e m ih =>
    obtain ⟨k', v⟩ := e
    simp only [List.map_cons, GoMap.get?]
    split
    · rename_i e; subst e; rfl
    · exact ih

theorem openRest_sim (h : BRel root D s a) (hi : AInv D a) {z : Bytes → Bytes} {n : Int} {progs : List (List DOp)} {s' : BDisk} (he : s.exec z root (.openRest n progs) = some s') :
    ∃ a', a.exec (.openRest n progs) = some a' ∧ BRel root D s' a' := by
  simp only [BDisk.exec] at he
  split at he
  · rename_i hg
    have hp : a.ix.proc = .up := by rw [h.iproc]; exact hg.1
    have hu : a.up = false := by rw [h.up]; exact hg.2
    split at he
    · rename_i size length nft hm hn
      cases he
      obtain ⟨size', length', nft', hm', hn'⟩ := CDisk.loads hi.flush
      refine ⟨_, CDisk.step_exec (.openRest hp hu hm' hn'), ?_⟩
      unfold BDisk.loadM at hm
      unfold BDisk.loadN at hn
      rw [h.files.dirs] at hm hn
      have fm := fun f => loadM_fold h hi _ _ _ h.files.names hm f
      have fn := fun f => loadN_fold h hi _ _ _ h.files.names hn f
      have am := fun f => CDisk.loadM_of hi.flush hm' f
      have an := fun f => CDisk.loadN_of hi.flush hn' f
      have e1 : ∀ f, size'.get? f = size.get? f ∧ length'.get? f = length.get? f := by
        intro f
        by_cases hf : f ∈ a.ix.dirs.keys
        · cases hc : a.mx.cur f with
          | none =>
            have x := (fm f).2 (.inr hc)
            have y := (am f).2 hc
            exact ⟨y.1.trans x.1.symm, y.2.trans x.2.symm⟩
          | some c =>
            obtain ⟨x, y, ⟨b, rfl, hb⟩, x2, x3⟩ := (fm f).1 hf c hc
            obtain ⟨x', y', ⟨b', e', hb'⟩, y2, y3⟩ := (am f).1 _ hc
            cases e'
            rw [hb] at hb'
            cases hb'
            exact ⟨y2.trans x2.symm, y3.trans x3.symm⟩
        · have hc : a.mx.cur f = none := by
            show (slots a (.mx f)).cur = none
            rw [(h.files.absent f hf).1]
          have x := (fm f).2 (.inl hf)
          have y := (am f).2 hc
          exact ⟨y.1.trans x.1.symm, y.2.trans x.2.symm⟩
      have e2 : ∀ f, nft'.get? f = nft.get? f := by
        intro f
        by_cases hf : f ∈ a.ix.dirs.keys
        · cases hc : a.nf.cur f with
          | none => exact ((an f).2 hc).trans ((fn f).2 (.inr hc)).symm
          | some c =>
            obtain ⟨b, m, rfl, hb, _⟩ := hi.flush.sn f c hc
            obtain ⟨m1, x1, x2⟩ := (fn f).1 hf b hc
            obtain ⟨m2, y1, y2⟩ := (an f).1 b hc
            rw [x1] at y1
            cases y1
            exact y2.trans x2.symm
        · have hc : a.nf.cur f = none := by
            show (slots a (.nf f)).cur = none
            rw [(h.files.absent f hf).2.1]
          exact ((an f).2 hc).trans ((fn f).2 (.inl hf)).symm
      exact { h with
        up := rfl
        mem := by
          simp only
          rw [h.imem]
          refine ⟨rfl, rfl, fun f => (e1 f).1, fun f => (e1 f).2, rfl, rfl, rfl, fun f => ?_, ?_, rfl⟩
          · simp only [CMem.loaded]
            exact (get?_mapKeys nft' (fun x => (⟨x, 0⟩ : Ref String)) f).trans ((by rw [e2]) : _ = _) |>.trans (get?_mapKeys nft (fun x => (⟨x, 0⟩ : Ref String)) f).symm
          · funext r
            simp only [CMem.loaded, e2]
        cache := rfl
        clients := rfl }
    · rename_i hno
      exfalso
      obtain ⟨⟨m1, m2⟩, hm⟩ := foldlM_total (BDisk.loadM1 s.fs root) a.ix.dirs.keys (fun f hf b => (loadM1_spec h hi (h.files.names f hf) b).imp fun _ x => x.1) ([], [])
      obtain ⟨m3, hn⟩ := foldlM_total (BDisk.loadN1 s.fs root) a.ix.dirs.keys (fun f hf b => (loadN1_spec h hi (h.files.names f hf) b).imp fun _ x => x.1) []
      exact hno m1 m2 m3 (by unfold BDisk.loadM; rw [h.files.dirs]; exact hm) (by unfold BDisk.loadN; rw [h.files.dirs]; exact hn)
  · cases he

end
end Goir
