import Verif.Lemmas.DiskBytesNames
/-!
# One of the three writers, with bytes and with objects
-/
namespace Goir
open GoMap

/-- a writer in the model with bytes (`fl`, and `sv` inside SecureSaveFile) and in the model with objects; `mk` is the target of a key. -/
structure FlRel {B : Type} (root : Path) (D : String → Prop) (mk : String → Slot) (fs : FS) (fl : Flusher B) (sv : Option (SaveCall × SavePc)) (afl : Flusher B) : Prop where
  buf : afl.buf = fl.buf
  pc : match sv with
    | none => afl.pc = fl.pc
    | some (c, pc) => ∃ k rest b apc, fl.pc = .flushing (k :: rest) ∧ afl.pc = .saving k rest b apc ∧ (mk k).Valid D ∧ c.path = (mk k).dir root ∧ c.name = (mk k).name ∧ SaveRel (mk k).ag fs c pc b apc

theorem FlRel.keep {B : Type} {root : Path} {D : String → Prop} {mk : String → Slot} {fs fs' : FS} {fl : Flusher B} {sv : Option (SaveCall × SavePc)} {afl : Flusher B} {P : Slot → Prop}
    (h : FlRel root D mk fs fl sv afl) (hk : Keeps root D P fs fs') (hp : ∀ k, ¬ P (mk k)) : FlRel root D mk fs' fl sv afl := by
  refine ⟨h.buf, ?_⟩
  have := h.pc
  cases sv with
  | none => exact this
  | some x =>
    obtain ⟨c, pc⟩ := x
    obtain ⟨k, rest, b, apc, h1, h2, h3, h4, h5, h6⟩ := this
    exact ⟨k, rest, b, apc, h1, h2, h3, h4, h5, hk.save h3 (hp k) h4 h5 h6⟩

/-- what a step of a writer comes to. -/
inductive FlushOut {B : Type} (root : Path) (D : String → Prop) (mk : String → Slot) (mkK : String → List String → List String) (aser : String → B → Option FB.Buf)
    (A : Slot → SFile) (T : String → GoMap String Content) (K : List String) (fs fs' : FS) (afl : Flusher B) : Option (Flusher B × Option (SaveCall × SavePc)) → Prop
  /-- the serializer panics -/
  | dies (k : String) (hk : (mk k).Valid D) (files : FRel root D fs' A T (mkK k K)) : FlushOut root D mk mkK aser A T K fs fs' afl none
  /-- the folder is made and SecureSaveFile begins -/
  | opens (k : String) (hk : (mk k).Valid D) {fl' : Flusher B} {sv' : Option (SaveCall × SavePc)} {afl' : Flusher B} (files : FRel root D fs' A T (mkK k K)) (keeps : Keeps root D (fun _ => False) fs fs')
      (step : afl.step aser = some afl') (same : afl'.files = afl.files) (rel : FlRel root D mk fs' fl' sv' afl') : FlushOut root D mk mkK aser A T K fs fs' afl (some (fl', sv'))
  /-- any other step -/
  | goes {fl' : Flusher B} {sv' : Option (SaveCall × SavePc)} {afl' : Flusher B} (step : afl' = afl ∨ afl.step aser = some afl')
      (files : ∀ A' : Slot → SFile, (∀ k, A' (mk k) = afl'.file k) → (∀ τ, (∀ k, τ ≠ mk k) → A' τ = A τ) → FRel root D fs' A' T K) (keeps : Keeps root D (fun τ => ∃ k, τ = mk k) fs fs')
      (rel : FlRel root D mk fs' fl' sv' afl') : FlushOut root D mk mkK aser A T K fs fs' afl (some (fl', sv'))

section
variable {B : Type} {root : Path} {D : String → Prop} {mk : String → Slot} {mkK : String → List String → List String} {ser : String → B → Option Bytes} {aser : String → B → Option FB.Buf}
  {A : Slot → SFile} {T : String → GoMap String Content} {K : List String} {fs fs' : FS} {fl afl : Flusher B} {sv : Option (SaveCall × SavePc)} {z : Bytes → Bytes}
  {dir : String → Path} {name : String → String} {r : Option (Flusher B × Option (SaveCall × SavePc))}

theorem frel_ext {A A' : Slot → SFile} (h : FRel root D fs A T K) (e : ∀ σ, A' σ = A σ) : FRel root D fs A' T K := by
  have : A' = A := funext e
  rw [this]; exact h

theorem flush_sim (hD : Ids D) (hz : ∀ d, Spec.Gz.Written d (z d))
    (hdir : ∀ k, (mk k).Valid D → dir k = (mk k).dir root ∧ name k = (mk k).name)
    (hmk : ∀ k, (mk k).Valid D → ∃ fs1, fs.mkdirAll (dir k) = some fs1 ∧ FRel root D fs1 A T (mkK k K) ∧ Keeps root D (fun _ => False) fs fs1 ∧ fs1.get? (dir k) = some .dir)
    (hin : ∀ k f, (mk k).Valid D → fs.isDir ((mk k).dir root) = true → (mk k = .mx f ∨ mk k = .nf f) → f ∈ K)
    (h : FlRel root D mk fs fl sv afl) (hF : FRel root D fs A T K) (hA : ∀ k, A (mk k) = afl.file k)
    (hbuf : ∀ k v, afl.buf.get? k = some v → (mk k).Valid D ∧ ∃ b, aser k v = some b ∧ ∀ raw, ser k v = some raw → (mk k).ag b raw)
    (he : BDisk.flush z dir name ser fs fl sv = some (fs', r)) : FlushOut root D mk mkK aser A T K fs fs' afl r := by
  have hpc := h.pc
  have ext : ∀ {afl' : Flusher B} {fs1 : FS}, FRel root D fs1 A T K → (∀ k, afl'.file k = afl.file k) → ∀ A' : Slot → SFile, (∀ k, A' (mk k) = afl'.file k) → (∀ τ, (∀ k, τ ≠ mk k) → A' τ = A τ) → FRel root D fs1 A' T K := by
    intro afl' fs1 hF he A' h1 h2
    refine frel_ext hF fun σ => ?_
    by_cases e : ∃ k, σ = mk k
    · obtain ⟨k, rfl⟩ := e
      rw [h1, he, hA]
    · exact h2 σ fun k hk => e ⟨k, hk⟩
  cases sv with
  | none =>
    simp only at hpc
    unfold BDisk.flush at he
    match hp : fl.pc with
    | .idle => rw [hp] at he; cases he
    | .saving .. => rw [hp] at he; cases he
    | .flushing [] =>
      rw [hp] at he
      cases he
      refine .goes (afl' := { afl with pc := .idle }) (.inr ?_) (ext hF fun _ => rfl) (Keeps.refl _ _ _ _) ⟨h.buf, rfl⟩
      simp [Flusher.step, hpc, hp]
    | .flushing (k :: rest) =>
      rw [hp] at he
      simp only at he
      cases hv : fl.buf.get? k with
      | none => rw [hv] at he; cases he
      | some v =>
        rw [hv] at he
        simp only at he
        have hv' : afl.buf.get? k = some v := by rw [h.buf]; exact hv
        obtain ⟨hk, b, hb, hag⟩ := hbuf k v hv'
        obtain ⟨fs1, m1, m2, m3, m4⟩ := hmk k hk
        rw [m1] at he
        simp only at he
        cases hr : ser k v with
        | none =>
          rw [hr] at he
          cases he
          exact .dies k hk m2
        | some raw =>
          rw [hr] at he
          cases he
          obtain ⟨d1, d2⟩ := hdir k hk
          refine .opens (afl' := { afl with pc := .saving k rest b .start }) k hk m2 m3 ?_ rfl ⟨h.buf, k, rest, b, .start, hp, rfl, hk, d1, d2, ⟨raw, hz raw, hag raw hr⟩, ?_, rfl⟩
          · simp [Flusher.step, hpc, hp, hv', hb]
          · simp [FS.isDir, m4]
  | some x =>
    obtain ⟨c, pc⟩ := x
    obtain ⟨k, rest, b, apc, h1, h2, h3, h4, h5, h6⟩ := hpc
    by_cases hdone : pc = .done
    · subst hdone
      simp only [BDisk.flush, h1] at he
      cases he
      have hapc : apc = .done := h6.2.2
      subst hapc
      refine .goes (afl' := { afl with buf := afl.buf.del k, pc := .flushing rest }) (.inr ?_) (ext hF fun _ => rfl) (Keeps.refl _ _ _ _) ⟨?_, rfl⟩
      · simp [Flusher.step, h2]
      · simp [h.buf]
    · have he' : (match c.step (fs, pc) with
          | none => none
          | some (fs', .failed) => some (fs', none)
          | some (fs', pc') => some (fs', some (fl, some (c, pc')))) = some (fs', r) := by
        cases pc <;> first | exact absurd rfl hdone | exact he
      cases hst : c.step (fs, pc) with
      | none => rw [hst] at he'; cases he'
      | some y =>
        obtain ⟨fs1, pc'⟩ := y
        have hs := hF.slot (mk k) h3
        rw [← h4, ← h5] at hs
        obtain ⟨hnf, fr, apc', f', g1, g2, g3⟩ := save_step (h5 ▸ Slot.plain hD h3) hs h6 hst
        rw [hst] at he'
        have he2 : some (fs1, some (fl, some (c, pc'))) = some (fs', r) := by
          cases pc' <;> first | exact absurd rfl hnf | exact he'
        cases he2
        rw [h4, h5] at g1
        have hisd : fs.isDir ((mk k).dir root) = true := h4 ▸ h6.2.1
        have files : ∀ A' : Slot → SFile, A' (mk k) = f' → (∀ τ, τ ≠ mk k → A' τ = A τ) → FRel root D fs' A' T K ∧ Keeps root D (fun τ => τ = mk k) fs fs' := by
          intro A' e1 e2
          exact FRel.save hD hF h3 h4 h5 fr (by rw [e1]; exact g1) e2 fun f hf => hin k f h3 hisd hf
        have kp : Keeps root D (fun τ => ∃ k, τ = mk k) fs fs' :=
          (files (fun τ => if τ = mk k then f' else A τ) (by simp) (fun τ hτ => by simp [hτ])).2.mono fun σ e => ⟨k, e⟩
        rcases g3 with ⟨rfl, rfl⟩ | ⟨hnd, rfl, rfl⟩
        · refine .goes (.inl rfl) (fun A' e1 e2 => ?_) kp ⟨h.buf, k, rest, b, apc', h1, h2, h3, h4, h5, g2⟩
          refine (files A' (by rw [e1, hA]) fun τ hτ => ?_).1
          by_cases e : ∃ j, τ = mk j
          · obtain ⟨j, rfl⟩ := e; rw [e1, hA]
          · exact e2 τ fun j hj => e ⟨j, hj⟩
        · refine .goes (afl' := { afl with files := afl.files.set k ((afl.file k).step b apc), pc := .saving k rest b apc.next }) (.inr ?_) (fun A' e1 e2 => ?_) kp ⟨h.buf, k, rest, b, apc.next, h1, rfl, h3, h4, h5, g2⟩
          · cases apc <;> first | exact absurd rfl hnd | simp [Flusher.step, h2]
          · refine (files A' ?_ fun τ hτ => ?_).1
            · rw [e1, hA]; simp [Flusher.file]
            · by_cases e : ∃ j, τ = mk j
              · obtain ⟨j, rfl⟩ := e
                have hj : k ≠ j := fun e => hτ (by rw [e])
                rw [e1, hA]
                simp [Flusher.file, GoMap.get?_set, hj]
              · exact e2 τ fun j hj => e ⟨j, hj⟩

end
end Goir
