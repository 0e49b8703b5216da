import Verif.Props.Counters
/-!
# C72, C73: sizes and lengths after a crash at any point
-/
namespace Goir
open GoMap CtState Flusher

/-! ### C72: size and length come from the same moment -/

/-- at some earlier moment of the history `as` the store answered `v` for the size and length of `f`. -/
def WasAnswer (as : List Act) (f : String) (v : Int × Int) : Prop :=
  ∃ as₁ s₁, as₁ <+: as ∧ run {} as₁ = some s₁ ∧ v = (s₁.getFieldSize f, s₁.getFieldLength f)

namespace CtState

/-- buffer and files hold earlier answers. -/
structure PastInv (as : List Act) (s : CtState) : Prop where
  buf : ∀ f v, s.mx.buf.get? f = some v → WasAnswer as f v
  file : ∀ f c, s.mx.cur f = some c → ∃ x y, WasAnswer as f (x, y) ∧ FileM c f (toInt32 x) (toInt32 y)

theorem wasAnswer_mono {as : List Act} {f : String} {v : Int × Int} (a : Act) (h : WasAnswer as f v) : WasAnswer (as ++ [a]) f v := by
  obtain ⟨as₁, s₁, h1, h2⟩ := h
  exact ⟨as₁, s₁, h1.trans (List.prefix_append _ _), h2⟩

theorem pastInv_of_mx {as : List Act} {s s' : CtState} (a : Act) (h : PastInv as s) (e : s'.mx = s.mx) : PastInv (as ++ [a]) s' := by
  refine ⟨?_, ?_⟩
  · intro f v hv; rw [e] at hv; exact wasAnswer_mono a (h.buf f v hv)
  · intro f c hc; rw [e] at hc
    obtain ⟨x, y, h1, h2⟩ := h.file f c hc
    exact ⟨x, y, wasAnswer_mono a h1, h2⟩

theorem exec_past {as : List Act} {s s' : CtState} {a : Act} (h0 : run {} as = some s) (h : PastInv as s) (he : s.exec a = some s') :
    PastInv (as ++ [a]) s' := by
  have hi := run_cinv init_cinv h0
  cases a with
  | addField f len =>
    simp only [exec] at he; split at he
    · cases he; exact pastInv_of_mx _ h rfl
    · cases he
  | addTerm f t =>
    simp only [exec] at he; split at he
    · cases he; exact pastInv_of_mx _ h rfl
    · cases he
  | recvN =>
    simp only [exec] at he; split at he
    · cases he
    · rename_i f t hs
      cases hr : s.nf.recv f (putN t (((s.nft.get? f).getD []).getD t 0)) with
      | none => simp [hr] at he
      | some nf => simp only [hr, Option.map_some, Option.some.injEq] at he; subst he; exact pastInv_of_mx _ h rfl
  | tickN o =>
    simp only [exec] at he; split at he
    · cases hr : s.nf.tick o with
      | none => simp [hr] at he
      | some nf => simp only [hr, Option.map_some, Option.some.injEq] at he; subst he; exact pastInv_of_mx _ h rfl
    · cases he
  | stepN =>
    simp only [exec] at he
    cases hr : s.nf.step serN with
    | none => simp [hr] at he
    | some nf => simp only [hr, Option.map_some, Option.some.injEq] at he; subst he; exact pastInv_of_mx _ h rfl
  | recvM =>
    simp only [exec] at he; split at he
    · cases he
    · rename_i f hs
      cases hr : s.mx.recv f fun _ => (s.size.getD f 0, s.length.getD f 0) with
      | none => simp [hr] at he
      | some mx =>
        simp only [hr, Option.map_some, Option.some.injEq] at he; subst he
        obtain ⟨hpc, rfl⟩ := recv_some hr
        refine ⟨?_, ?_⟩
        · intro g v hv
          simp only [get?_set] at hv
          split at hv
          · rename_i e; subst e
            cases hv
            exact ⟨as, s, List.prefix_append _ _, h0, rfl⟩
          · exact wasAnswer_mono _ (h.buf g v hv)
        · intro g c hc
          obtain ⟨x, y, h1, h2⟩ := h.file g c hc
          exact ⟨x, y, wasAnswer_mono _ h1, h2⟩
  | tickM o =>
    simp only [exec] at he; split at he
    · cases hr : s.mx.tick o with
      | none => simp [hr] at he
      | some mx =>
        simp only [hr, Option.map_some, Option.some.injEq] at he; subst he
        obtain ⟨hpc, hq, rfl⟩ := tick_some hr
        refine ⟨fun f v hv => wasAnswer_mono _ (h.buf f v hv), fun f c hc => ?_⟩
        obtain ⟨x, y, h1, h2⟩ := h.file f c hc
        exact ⟨x, y, wasAnswer_mono _ h1, h2⟩
    · cases he
  | stepM =>
    simp only [exec] at he
    cases hr : s.mx.step serM with
    | none => simp [hr] at he
    | some mx =>
      simp only [hr, Option.map_some, Option.some.injEq] at he; subst he
      obtain ⟨hf, hc⟩ := step_spec hi.fm hr
      have hsub : ∀ f v, mx.buf.get? f = some v → s.mx.buf.get? f = some v := by
        intro f v hv
        cases hc with
        | same hb _ => rw [hb] at hv; exact hv
        | away k w hw hb => rw [hb] at hv; exact hv
        | install k w b hw hs hb => rw [hb] at hv; exact hv
        | forget k w b hw hs hk hb =>
          rw [hb, get?_del] at hv; split at hv
          · cases hv
          · exact hv
      refine ⟨fun f v hv => wasAnswer_mono _ (h.buf f v (hsub f v hv)), fun f c hcur => ?_⟩
      have hcur : mx.cur f = some c := hcur
      have old : s.mx.cur f = some c → ∃ x y, WasAnswer (as ++ [.stepM]) f (x, y) ∧ FileM c f (toInt32 x) (toInt32 y) := by
        intro hx
        obtain ⟨x, y, h1, h2⟩ := h.file f c hx
        exact ⟨x, y, wasAnswer_mono _ h1, h2⟩
      cases hc with
      | same hb hcc => rw [hcc] at hcur; exact old hcur
      | away k w hw hb hk hcc =>
        by_cases e : f = k
        · subst e; rw [hk] at hcur; cases hcur
        · rw [hcc f e] at hcur; exact old hcur
      | install k w b hw hs hb hk hcc =>
        by_cases e : f = k
        · subst e; rw [hk] at hcur; cases hcur
          obtain ⟨b', e1, e2⟩ := serM_spec f w
          rw [hs] at e1; cases e1
          exact ⟨w.1, w.2, wasAnswer_mono _ (h.buf f w hw), _, rfl, e2⟩
        · rw [hcc f e] at hcur; exact old hcur
      | forget k w b hw hs hk hb hcc => rw [hcc] at hcur; exact old hcur
  | crash =>
    simp only [exec] at he; split at he
    · cases he
      refine ⟨fun f v hv => (by simp [Flusher.killed] at hv), fun f c hc => ?_⟩
      obtain ⟨x, y, h1, h2⟩ := h.file f c hc
      exact ⟨x, y, wasAnswer_mono _ h1, h2⟩
    · cases he
  | open_ =>
    simp only [exec] at he
    split at he
    · cases he
    · split at he
      · cases he; exact pastInv_of_mx _ h rfl
      · cases he

theorem run_past {pre as : List Act} {s s' : CtState} (h0 : run {} pre = some s) (h : PastInv pre s) (hr : run s as = some s') :
    PastInv (pre ++ as) s' := by
  induction as generalizing pre s with
  | nil => rw [run_nil] at hr; subst hr; simpa using h
  | cons a as ih =>
    obtain ⟨s₁, h1, h2⟩ := (run_cons _ _ _ _).1 hr
    have h3 : run {} (pre ++ [a]) = some s₁ := (run_append _ _ _ _).2 ⟨s, h0, (run_cons _ _ _ _).2 ⟨s₁, h1, (run_nil _ _).2 rfl⟩⟩
    have := ih h3 (exec_past h0 h h1) h2
    simpa using this

end CtState

/-- **C72.** Wherever the process was killed, the size and length of a field that a reopened store answers are, cut to 32 bits,
a size and a length that it answered together at some earlier moment: never the size of one moment and the length of another. -/
theorem c72_size_and_length_of_one_moment {as : List Act} {s s' : CtState} (h : run {} as = some s) (ho : run s [.open_] = some s')
    (f : String) : ∃ x y, WasAnswer as f (x, y) ∧ s'.getFieldSize f = toInt32 x ∧ s'.getFieldLength f = toInt32 y := by
  have hi := run_cinv init_cinv h
  have hp : PastInv as s := by
    have := run_past (pre := []) (s := {}) rfl ⟨fun f v hv => (by cases hv), fun f c hc => (by cases hc)⟩ h
    simpa using this
  obtain ⟨s₁, h1, h2⟩ := (run_cons _ _ _ _).1 ho
  rw [run_nil] at h2; subst h2
  have hu : s.up = false := by
    cases hu : s.up with
    | false => rfl
    | true => simp [exec, hu] at h1
  obtain ⟨s₂, g1, -, g2, g3, -⟩ := open_spec hi hu
  rw [h1] at g1; cases g1
  cases hc : s.mx.cur f with
  | none => exact ⟨0, 0, ⟨[], {}, List.nil_prefix, rfl, rfl⟩, (g3 f hc).1, (g3 f hc).2⟩
  | some c =>
    obtain ⟨x, y, h1, h2⟩ := hp.file f c hc
    obtain ⟨e1, e2⟩ := g2 f c _ _ hc h2
    exact ⟨x, y, h1, e1, e2⟩

/-- a run that is killed while the second value is being written: the first one is answered. -/
def c72Run : List Act :=
  [.open_, .addField "title" 7, .recvM] ++ flushM "title" ++ [.addField "title" 5, .recvM, .tickM ["title"], .stepM, .stepM, .crash]

example : ∃ s, run {} c72Run = some s ∧ (run s [.open_]).map (fun s' => (s'.getFieldSize "title", s'.getFieldLength "title")) = some (1, 7) :=
  exists_of_run (by decide +kernel)

/-! ### C73: what is flushed stays counted -/

/-- the metrics file of some field is between the two renames of SecureSaveFile (/repo/file/File.go:147 and 153). -/
def inMetricsWindow (s : CtState) : Bool :=
  match s.mx.pc with
  | .saving _ _ _ .moved => true
  | _ => false

/-- as `exec`, but the process is never killed in the rename window of a metrics file. -/
def execSafeM (s : CtState) (a : Act) : Option CtState := if a = .crash ∧ inMetricsWindow s then none else s.exec a

/-- a run in which the process is never killed in the rename window of a metrics file. -/
def runSafeM (s : CtState) (as : List Act) : Option CtState := as.foldlM execSafeM s

theorem runSafeM_cons (s s' : CtState) (a : Act) (as : List Act) :
    runSafeM s (a :: as) = some s' ↔ ∃ s₁, execSafeM s a = some s₁ ∧ runSafeM s₁ as = some s' := by
  unfold runSafeM; rw [List.foldlM_cons]
  cases execSafeM s a <;> simp

theorem execSafeM_exec {s s' : CtState} {a : Act} (h : execSafeM s a = some s') : s.exec a = some s' ∧ (a = .crash → inMetricsWindow s = false) := by
  unfold execSafeM at h; split at h
  · cases h
  · rename_i hn
    refine ⟨h, fun e => ?_⟩
    cases hw : inMetricsWindow s with
    | false => rfl
    | true => exact absurd ⟨e, hw⟩ hn

/-- the lengths of the fields saved in a history, added up. -/
def totalLength : List Act → Int
  | [] => 0
  | .addField _ len :: as => len + totalLength as
  | _ :: as => totalLength as

/-- no field has a negative length. -/
def LengthsOk (as : List Act) : Prop := ∀ f len, Act.addField f len ∈ as → 0 ≤ len

namespace CtState

/-- `v` is within the bounds. -/
def Within (N L : Int) (v : Int × Int) : Prop := 0 ≤ v.1 ∧ v.1 ≤ N ∧ 0 ≤ v.2 ∧ v.2 ≤ L

/-- all sizes and lengths are within the bounds. -/
structure Bounded (N L : Int) (s : CtState) : Prop where
  mem : ∀ f, Within N L (s.getFieldSize f, s.getFieldLength f)
  buf : ∀ f v, s.mx.buf.get? f = some v → Within N L v
  file : ∀ f c x y, s.mx.cur f = some c → FileM c f x y → Within N L (x, y)

theorem Within.mono {N L N' L' : Int} {v : Int × Int} (h : Within N L v) (hN : N ≤ N') (hL : L ≤ L') : Within N' L' v := by
  unfold Within at *; omega

theorem Bounded.mono {N L N' L' : Int} {s : CtState} (h : Bounded N L s) (hN : N ≤ N') (hL : L ≤ L') : Bounded N' L' s :=
  ⟨fun f => (h.mem f).mono hN hL, fun f v hv => (h.buf f v hv).mono hN hL, fun f c x y hc hf => (h.file f c x y hc hf).mono hN hL⟩

theorem within_cut {N L : Int} {v : Int × Int} (h : Within N L v) (hN : N < 2 ^ 31) (hL : L < 2 ^ 31) :
    toInt32 v.1 = v.1 ∧ toInt32 v.2 = v.2 := by
  unfold Within at h
  exact ⟨toInt32_fits (by unfold FitsInt32; omega), toInt32_fits (by unfold FitsInt32; omega)⟩

/-- what an action adds to the bounds. -/
def dN : Act → Int
  | .addField _ _ => 1
  | _ => 0
/-- what an action adds to the bounds. -/
def dL : Act → Int
  | .addField _ len => len
  | _ => 0

theorem serM_file {k : String} {v : Int × Int} {b : FB.Buf} (hb : serM k v = some b) : FileM (.full b) k (toInt32 v.1) (toInt32 v.2) := by
  obtain ⟨b', h1, h2⟩ := serM_spec k v
  rw [hb] at h1; cases h1
  exact ⟨b, rfl, h2⟩

theorem bounded_of {N L : Int} {s s' : CtState} (h : Bounded N L s) (h1 : s'.mx.buf = s.mx.buf) (h2 : ∀ f, s'.mx.cur f = s.mx.cur f)
    (h3 : s'.size = s.size) (h4 : s'.length = s.length) : Bounded N L s' := by
  refine ⟨?_, ?_, ?_⟩
  · intro f; have := h.mem f; unfold getFieldSize getFieldLength at *; rw [h3, h4]; exact this
  · intro f v hv; rw [h1] at hv; exact h.buf f v hv
  · intro f c x y hc hf; rw [h2] at hc; exact h.file f c x y hc hf

theorem exec_bounded {N L : Int} {s s' : CtState} {a : Act} (hi : CInv s) (h : Bounded N L s) (ha : ∀ f len, a = .addField f len → 0 ≤ len)
    (hN : N < 2 ^ 31) (hL : L < 2 ^ 31) (he : s.exec a = some s') : Bounded (N + dN a) (L + dL a) s' := by
  have le : ∀ {M : Int}, M ≤ M + 0 := by intro M; omega
  cases a with
  | addField f len =>
    simp only [exec] at he; split at he
    · cases he
      have h0 : 0 ≤ len := ha f len rfl
      have hb := h.mono (N' := N + 1) (L' := L + len) (by omega) (by omega)
      refine ⟨?_, hb.buf, hb.file⟩
      intro g
      have := h.mem g
      have hg := hb.mem g
      unfold getFieldSize getFieldLength Within at *
      simp only [getD_set, dN, dL] at *
      by_cases e : f = g
      · subst e
        simp only [if_true]
        omega
      · simp only [e, if_false]; exact hg
    · cases he
  | addTerm f t =>
    simp only [exec] at he; split at he
    · cases he; refine Bounded.mono (N := N) (L := L) ?_ le le; exact bounded_of h rfl (fun _ => rfl) rfl rfl
    · cases he
  | recvN =>
    simp only [exec] at he; split at he
    · cases he
    · rename_i f t hs
      cases hr : s.nf.recv f (putN t (((s.nft.get? f).getD []).getD t 0)) with
      | none => simp [hr] at he
      | some nf =>
        simp only [hr, Option.map_some, Option.some.injEq] at he; subst he
        refine Bounded.mono (N := N) (L := L) ?_ le le; exact bounded_of h rfl (fun _ => rfl) rfl rfl
  | tickN o =>
    simp only [exec] at he; split at he
    · cases hr : s.nf.tick o with
      | none => simp [hr] at he
      | some nf =>
        simp only [hr, Option.map_some, Option.some.injEq] at he; subst he
        refine Bounded.mono (N := N) (L := L) ?_ le le; exact bounded_of h rfl (fun _ => rfl) rfl rfl
    · cases he
  | stepN =>
    simp only [exec] at he
    cases hr : s.nf.step serN with
    | none => simp [hr] at he
    | some nf =>
      simp only [hr, Option.map_some, Option.some.injEq] at he; subst he
      refine Bounded.mono (N := N) (L := L) ?_ le le; exact bounded_of h rfl (fun _ => rfl) rfl rfl
  | recvM =>
    simp only [exec] at he; split at he
    · cases he
    · rename_i f hs
      cases hr : s.mx.recv f fun _ => (s.size.getD f 0, s.length.getD f 0) with
      | none => simp [hr] at he
      | some mx =>
        simp only [hr, Option.map_some, Option.some.injEq] at he; subst he
        obtain ⟨hpc, rfl⟩ := recv_some hr
        refine Bounded.mono (N := N) (L := L) ⟨h.mem, ?_, h.file⟩ le le
        intro g v hv
        simp only [get?_set] at hv
        split at hv
        · cases hv; exact h.mem f
        · exact h.buf g v hv
  | tickM o =>
    simp only [exec] at he; split at he
    · cases hr : s.mx.tick o with
      | none => simp [hr] at he
      | some mx =>
        simp only [hr, Option.map_some, Option.some.injEq] at he; subst he
        obtain ⟨hpc, hq, rfl⟩ := tick_some hr
        refine Bounded.mono (N := N) (L := L) ?_ le le; exact bounded_of h rfl (fun _ => rfl) rfl rfl
    · cases he
  | stepM =>
    simp only [exec] at he
    cases hr : s.mx.step serM with
    | none => simp [hr] at he
    | some mx =>
      simp only [hr, Option.map_some, Option.some.injEq] at he; subst he
      obtain ⟨hf, hc⟩ := step_spec hi.fm hr
      refine Bounded.mono (N := N) (L := L) ?_ le le
      cases hc with
      | same hb hcc => exact bounded_of h hb hcc rfl rfl
      | away k w hw hb hk hcc =>
        refine ⟨h.mem, fun f v hv => h.buf f v (by rw [← hb]; exact hv), ?_⟩
        intro f c x y hcur hfile
        have hcur : mx.cur f = some c := hcur
        by_cases e : f = k
        · subst e; rw [hk] at hcur; cases hcur
        · rw [hcc f e] at hcur; exact h.file f c x y hcur hfile
      | install k w b hw hs hb hk hcc =>
        refine ⟨h.mem, fun f v hv => h.buf f v (by rw [← hb]; exact hv), ?_⟩
        intro f c x y hcur hfile
        have hcur : mx.cur f = some c := hcur
        by_cases e : f = k
        · subst e; rw [hk] at hcur; cases hcur
          obtain ⟨rfl, rfl⟩ := fileM_unique hfile (serM_file hs)
          have hw' := h.buf f w hw
          obtain ⟨e1, e2⟩ := within_cut hw' hN hL
          rw [e1, e2]; exact hw'
        · rw [hcc f e] at hcur; exact h.file f c x y hcur hfile
      | forget k w b hw hs hk hb hcc =>
        refine ⟨h.mem, fun f v hv => ?_, fun f c x y hcur hfile => h.file f c x y ((hcc f).symm.trans hcur) hfile⟩
        have hv : mx.buf.get? f = some v := hv
        rw [hb, get?_del] at hv; split at hv
        · cases hv
        · exact h.buf f v hv
  | crash =>
    simp only [exec] at he; split at he
    · cases he
      refine Bounded.mono (N := N) (L := L) ⟨?_, ?_, h.file⟩ le le
      · intro f
        have := h.mem f
        have e1 : getFieldSize { mx := s.mx.killed, nf := s.nf.killed } f = 0 := rfl
        have e2 : getFieldLength { mx := s.mx.killed, nf := s.nf.killed } f = 0 := rfl
        rw [e1, e2]
        unfold Within at *; omega
      · intro f v hv; simp [Flusher.killed] at hv
    · cases he
  | open_ =>
    have hu : s.up = false := by
      cases hu : s.up with
      | false => rfl
      | true => simp [exec, hu] at he
    obtain ⟨s₂, g1, -, g2, g3, -, -, g4, -⟩ := open_spec hi hu
    rw [he] at g1; cases g1
    refine Bounded.mono (N := N) (L := L) ⟨?_, ?_, ?_⟩ le le
    · intro f
      cases hc : s.mx.cur f with
      | none =>
        rw [(g3 f hc).1, (g3 f hc).2]
        have := h.mem f
        unfold Within at *; omega
      | some c =>
        obtain ⟨x, y, h2⟩ := hi.sm f c hc
        obtain ⟨e1, e2⟩ := g2 f c _ _ hc h2
        rw [e1, e2]
        exact h.file f c _ _ hc h2
    · rw [g4]; exact h.buf
    · rw [g4]; exact h.file

/-- the metrics of `f` are at least `(n, l)` in memory, in the buffer and on disk. -/
structure Above (f : String) (n l : Int) (s : CtState) : Prop where
  mem : s.up = true → n ≤ s.getFieldSize f ∧ l ≤ s.getFieldLength f
  buf : ∀ v, s.mx.buf.get? f = some v → n ≤ v.1 ∧ l ≤ v.2
  file : (∃ c x y, s.mx.cur f = some c ∧ FileM c f x y ∧ n ≤ x ∧ l ≤ y) ∨ ∃ rest b, s.mx.pc = .saving f rest b .moved

theorem above_of {f : String} {n l : Int} {s s' : CtState} (h : Above f n l s) (h1 : s'.mx = s.mx)
    (h3 : s'.size = s.size) (h4 : s'.length = s.length) (h5 : s'.up = s.up) : Above f n l s' := by
  refine ⟨?_, ?_, ?_⟩
  · have := h.mem; unfold getFieldSize getFieldLength at *; rw [h3, h4, h5]; exact this
  · rw [h1]; exact h.buf
  · rw [h1]; exact h.file

theorem exec_above {N L : Int} {s s' : CtState} {a : Act} {f : String} {n l : Int} (hi : CInv s) (hb : Bounded N L s)
    (hN : N < 2 ^ 31) (hL : L < 2 ^ 31) (ha : ∀ f len, a = .addField f len → 0 ≤ len) (h : Above f n l s)
    (he : execSafeM s a = some s') : Above f n l s' := by
  obtain ⟨he, hsafe⟩ := execSafeM_exec he
  cases a with
  | addField g len =>
    simp only [exec] at he; split at he
    · cases he
      have h0 : 0 ≤ len := ha g len rfl
      refine ⟨fun hu => ?_, h.buf, h.file⟩
      have := h.mem hu
      unfold getFieldSize getFieldLength at *
      simp only [getD_set]
      by_cases e : g = f
      · subst e; simp only [if_true]; omega
      · simp only [e, if_false]; exact this
    · cases he
  | addTerm g t =>
    simp only [exec] at he; split at he
    · cases he; exact above_of h rfl rfl rfl rfl
    · cases he
  | recvN =>
    simp only [exec] at he; split at he
    · cases he
    · rename_i f t hs
      cases hr : s.nf.recv f (putN t (((s.nft.get? f).getD []).getD t 0)) with
      | none => simp [hr] at he
      | some nf => simp only [hr, Option.map_some, Option.some.injEq] at he; subst he; exact above_of h rfl rfl rfl rfl
  | tickN o =>
    simp only [exec] at he
    cases hu : s.up with
    | false => rw [hu] at he; simp at he
    | true =>
      rw [if_pos hu] at he
      cases hr : s.nf.tick o with
      | none => simp [hr] at he
      | some nf => simp only [hr, Option.map_some, Option.some.injEq] at he; subst he; exact above_of h rfl rfl rfl rfl
  | stepN =>
    simp only [exec] at he
    cases hr : s.nf.step serN with
    | none => simp [hr] at he
    | some nf => simp only [hr, Option.map_some, Option.some.injEq] at he; subst he; exact above_of h rfl rfl rfl rfl
  | recvM =>
    simp only [exec] at he; split at he
    · cases he
    · rename_i g hs
      have hu : s.up = true := by
        cases hu : s.up with
        | true => rfl
        | false => have := (hi.down hu).sendM; rw [hs] at this; cases this
      cases hr : s.mx.recv g fun _ => (s.size.getD g 0, s.length.getD g 0) with
      | none => simp [hr] at he
      | some mx =>
        simp only [hr, Option.map_some, Option.some.injEq] at he; subst he
        obtain ⟨hpc, rfl⟩ := recv_some hr
        refine ⟨h.mem, ?_, h.file⟩
        intro v hv
        simp only [get?_set] at hv
        split at hv
        · rename_i e; subst e; cases hv; exact h.mem hu
        · exact h.buf v hv
  | tickM o =>
    simp only [exec] at he
    cases hu : s.up with
    | false => rw [hu] at he; simp at he
    | true =>
      rw [if_pos hu] at he
      cases hr : s.mx.tick o with
      | none => simp [hr] at he
      | some mx =>
        simp only [hr, Option.map_some, Option.some.injEq] at he; subst he
        obtain ⟨hpc, hq, rfl⟩ := tick_some hr
        refine ⟨h.mem, h.buf, ?_⟩
        rcases h.file with hf | ⟨rest, b, hf⟩
        · exact .inl hf
        · rw [hpc] at hf; cases hf
  | stepM =>
    simp only [exec] at he
    cases hr : s.mx.step serM with
    | none => simp [hr] at he
    | some mx =>
      simp only [hr, Option.map_some, Option.some.injEq] at he; subst he
      obtain ⟨hf, hc⟩ := step_spec hi.fm hr
      have hbuf : ∀ v, mx.buf.get? f = some v → n ≤ v.1 ∧ l ≤ v.2 := by
        intro v hv
        apply h.buf
        cases hc with
        | same hb _ => rw [hb] at hv; exact hv
        | away k w hw hb => rw [hb] at hv; exact hv
        | install k w b hw hs hb => rw [hb] at hv; exact hv
        | forget k w b hw hs hk hb =>
          rw [hb, get?_del] at hv; split at hv
          · cases hv
          · exact hv
      refine ⟨h.mem, hbuf, ?_⟩
      have inst : ∀ (v : Int × Int) (b : FB.Buf), s.mx.buf.get? f = some v → serM f v = some b →
          ∃ x y, FileM (.full b) f x y ∧ n ≤ x ∧ l ≤ y := by
        intro v b hv hs
        have hw := hb.buf f v hv
        obtain ⟨e1, e2⟩ := within_cut hw hN hL
        have hfile := serM_file hs
        rw [e1, e2] at hfile
        exact ⟨_, _, hfile, h.buf v hv⟩
      show (∃ c x y, mx.cur f = some c ∧ FileM c f x y ∧ n ≤ x ∧ l ≤ y) ∨ ∃ rest b, mx.pc = .saving f rest b .moved
      rcases h.file with ⟨c, x, y, h1, h2, h3⟩ | ⟨rest, b, hpc⟩
      · cases hc with
        | same _ hcc => exact .inl ⟨c, x, y, by rw [hcc]; exact h1, h2, h3⟩
        | away k w hw hb' hk hcc hp =>
          by_cases e : f = k
          · subst e; exact .inr hp
          · exact .inl ⟨c, x, y, by rw [hcc f e]; exact h1, h2, h3⟩
        | install k w b hw hs hb' hk hcc =>
          by_cases e : f = k
          · subst e
            obtain ⟨x', y', g1, g2⟩ := inst w b hw hs
            exact .inl ⟨_, x', y', hk, g1, g2⟩
          · exact .inl ⟨c, x, y, by rw [hcc f e]; exact h1, h2, h3⟩
        | forget k w b hw hs hk hb' hcc => exact .inl ⟨c, x, y, by rw [hcc]; exact h1, h2, h3⟩
      · -- the second rename
        have hp := hi.fm.pc
        unfold PcOkR at hp
        rw [hpc] at hp
        obtain ⟨-, -, ⟨v, hv, hs⟩, -, htmp⟩ := hp
        obtain ⟨x', y', g1, g2⟩ := inst v b hv hs
        refine .inl ⟨.full b, x', y', ?_, g1, g2⟩
        unfold Flusher.step at hr
        rw [hpc] at hr
        cases hr
        unfold cur
        rw [file_set, if_pos rfl]
        exact htmp
  | crash =>
    simp only [exec] at he; split at he
    · cases he
      refine ⟨fun e => (by cases e), fun v hv => (by simp [Flusher.killed] at hv), ?_⟩
      rcases h.file with hf | ⟨rest, b, hf⟩
      · exact .inl hf
      · have := hsafe rfl
        unfold inMetricsWindow at this
        rw [hf] at this
        cases this
    · cases he
  | open_ =>
    have hu : s.up = false := by
      cases hu : s.up with
      | false => rfl
      | true => simp [exec, hu] at he
    obtain ⟨s₂, g1, -, g2, g3, -, -, g4, -⟩ := open_spec hi hu
    rw [he] at g1; cases g1
    refine ⟨fun _ => ?_, by rw [g4]; exact h.buf, by rw [g4]; exact h.file⟩
    rcases h.file with ⟨c, x, y, h1, h2, h3⟩ | ⟨rest, b, hf⟩
    · obtain ⟨e1, e2⟩ := g2 f c x y h1 h2
      rw [e1, e2]; exact h3
    · rw [(hi.down hu).pm] at hf; cases hf

theorem totalLength_cons (a : Act) (as : List Act) : totalLength (a :: as) = dL a + totalLength as := by
  cases a <;> simp [totalLength, dL]

theorem totalLength_append (as bs : List Act) : totalLength (as ++ bs) = totalLength as + totalLength bs := by
  induction as with
  | nil => simp [totalLength]
  | cons a as ih => rw [List.cons_append, totalLength_cons, totalLength_cons, ih]; omega

theorem totalLength_nonneg {as : List Act} (h : LengthsOk as) : 0 ≤ totalLength as := by
  induction as with
  | nil => simp [totalLength]
  | cons a as ih =>
    rw [totalLength_cons]
    have := ih fun f len hm => h f len (List.mem_cons_of_mem _ hm)
    have : 0 ≤ dL a := by
      cases a with
      | addField f len => exact h f len List.mem_cons_self
      | _ => simp [dL]
    omega

theorem dN_le (a : Act) : 0 ≤ dN a ∧ dN a ≤ 1 := by cases a <;> simp [dN]

theorem run_bounded {N L : Int} {s s' : CtState} {as : List Act} (hi : CInv s) (h : Bounded N L s) (hok : LengthsOk as)
    (hN : N + as.length < 2 ^ 31) (hL : L + totalLength as < 2 ^ 31) (hr : run s as = some s') :
    Bounded (N + as.length) (L + totalLength as) s' := by
  induction as generalizing s N L with
  | nil => rw [run_nil] at hr; subst hr; exact h.mono (by simp) (by simp [totalLength])
  | cons a as ih =>
    obtain ⟨s₁, h1, h2⟩ := (run_cons _ _ _ _).1 hr
    rw [totalLength_cons] at hL ⊢
    have hok' : LengthsOk as := fun f len hm => hok f len (List.mem_cons_of_mem _ hm)
    have hl0 := totalLength_nonneg hok'
    have hd0 : 0 ≤ dL a := by
      cases a with
      | addField f len => exact hok f len List.mem_cons_self
      | _ => simp [dL]
    have hdn := dN_le a
    simp only [List.length_cons] at hN ⊢
    have hb := exec_bounded hi h (fun f len e => hok f len (e ▸ List.mem_cons_self)) (by omega) (by omega) h1
    have := ih (exec_cinv hi h1) hb hok' (by omega) (by omega) h2
    exact this.mono (by omega) (by omega)

theorem run_above {N L : Int} {s s' : CtState} {as : List Act} {f : String} {n l : Int} (hi : CInv s) (h : Bounded N L s)
    (hok : LengthsOk as) (hN : N + as.length < 2 ^ 31) (hL : L + totalLength as < 2 ^ 31) (ha : Above f n l s)
    (hr : runSafeM s as = some s') : Above f n l s' := by
  induction as generalizing s N L with
  | nil => cases hr; exact ha
  | cons a as ih =>
    obtain ⟨s₁, h1, h2⟩ := (runSafeM_cons _ _ _ _).1 hr
    rw [totalLength_cons] at hL
    have hok' : LengthsOk as := fun f len hm => hok f len (List.mem_cons_of_mem _ hm)
    have hl0 := totalLength_nonneg hok'
    have hd0 : 0 ≤ dL a := by
      cases a with
      | addField f len => exact hok f len List.mem_cons_self
      | _ => simp [dL]
    have hdn := dN_le a
    simp only [List.length_cons] at hN
    have hpos : ∀ f len, a = .addField f len → 0 ≤ len := fun f len e => hok f len (e ▸ List.mem_cons_self)
    have he := (execSafeM_exec h1).1
    have hb := exec_bounded hi h hpos (by omega) (by omega) he
    exact ih (exec_cinv hi he) hb hok' (by omega) (by omega) (exec_above hi h (by omega) (by omega) hpos ha h1) h2

theorem runSafeM_run {s s' : CtState} {as : List Act} (h : runSafeM s as = some s') : run s as = some s' := by
  induction as generalizing s with
  | nil => exact h
  | cons a as ih =>
    obtain ⟨s₁, h1, h2⟩ := (runSafeM_cons _ _ _ _).1 h
    exact (run_cons _ _ _ _).2 ⟨s₁, (execSafeM_exec h1).1, ih h2⟩

end CtState

/-- **C73.** Once the metrics writer has flushed, no field's size or length ever falls below its value at that moment, through any
number of later saves, flushes, crashes and reopenings, if the process is not killed between the two renames of a metrics file
(and the totals stay below 2³¹). -/
theorem c73_flushed_metrics_never_fall_partial {as bs : List Act} {s s' : CtState} (h : run {} as = some s) (hu : s.up = true)
    (hf : MetricsFlushed s) (hr : runSafeM s bs = some s') (hu' : s'.up = true) (hok : LengthsOk (as ++ bs))
    (hN : ((as ++ bs).length : Int) < 2 ^ 31) (hL : totalLength (as ++ bs) < 2 ^ 31) (f : String) :
    s.getFieldSize f ≤ s'.getFieldSize f ∧ s.getFieldLength f ≤ s'.getFieldLength f := by
  have hi := run_cinv init_cinv h
  have hoka : LengthsOk as := fun f len hm => hok f len (List.mem_append_left _ hm)
  have hokb : LengthsOk bs := fun f len hm => hok f len (List.mem_append_right _ hm)
  have hla := totalLength_nonneg hoka
  have hlb := totalLength_nonneg hokb
  rw [List.length_append] at hN
  rw [totalLength_append] at hL
  have hb0 : Bounded 0 0 {} :=
    ⟨fun f => (by simp [Within, getFieldSize, getFieldLength, GoMap.getD]), fun f v hv => (by cases hv), fun f c x y hc => (by cases hc)⟩
  have hb := run_bounded init_cinv hb0 hoka (by omega) (by omega) h
  have hm := hi.m hu f (by rw [hf.1]; simp)
  unfold MOk at hm
  rw [hf.2.2] at hm
  simp only [get?_nil] at hm
  cases hcur : s.mx.cur f with
  | none =>
    rw [hcur] at hm
    have hb' := run_bounded hi hb hokb (by omega) (by omega) (runSafeM_run hr)
    have e1 : s.getFieldSize f = 0 := by unfold getFieldSize GoMap.getD; rw [hm.1]; rfl
    have e2 : s.getFieldLength f = 0 := by unfold getFieldLength GoMap.getD; rw [hm.2]; rfl
    rw [e1, e2]
    have := hb'.mem f
    unfold Within at this
    exact ⟨this.1, this.2.2.1⟩
  | some c =>
    rw [hcur] at hm
    have hw := hb.mem f
    obtain ⟨e1, e2⟩ := within_cut hw (by omega) (by omega)
    simp only at e1 e2
    rw [e1, e2] at hm
    have ha : Above f (s.getFieldSize f) (s.getFieldLength f) s :=
      ⟨fun _ => ⟨Int.le_refl _, Int.le_refl _⟩, fun v hv => (by rw [hf.2.2] at hv; cases hv),
        .inl ⟨c, _, _, hcur, hm, Int.le_refl _, Int.le_refl _⟩⟩
    exact (run_above hi hb hokb (by omega) (by omega) ha hr).mem hu'

example : ∃ s, run {} c31Run = some s ∧ (s.up = true ∧ MetricsFlushed s) ∧
    (runSafeM s [.addField "title" 3, .recvM, .tickM ["title"], .stepM, .stepM, .crash, .open_]).map (·.getFieldSize "title") = some 2 :=
  exists_of_run (by decide +kernel)

/-- **C73 without the restriction is false of the code**: killed between the two renames, the field starts again from 0. -/
theorem c73_window_resets_metrics_refuted : ∃ as s, run {} as = some s ∧ s.up = true ∧ MetricsFlushed s ∧ s.getFieldSize "title" = 2 ∧
    ∃ bs s', run s bs = some s' ∧ s'.up = true ∧ s'.getFieldSize "title" = 0 := by
  obtain ⟨s, h, h1, h2, h3, h4⟩ := exists_of_run (o := run {} c31Run) (P := fun s => s.up = true ∧ MetricsFlushed s ∧
      s.getFieldSize "title" = 2 ∧ (run s [.addField "title" 3, .recvM, .tickM ["title"], .stepM, .stepM, .stepM, .stepM, .crash,
        .open_]).map (fun s' => (s'.up, s'.getFieldSize "title")) = some (true, 0)) (by decide +kernel)
  obtain ⟨s', h5, h6⟩ := Option.map_eq_some_iff.1 h4
  exact ⟨_, s, h, h1, h2, h3, _, s', h5, congrArg Prod.fst h6, congrArg Prod.snd h6⟩

end Goir
