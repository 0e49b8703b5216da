import Verif.Model.Counters
import Verif.Lemmas.Flusher
/-! # Invariants of the counters of the disk store -/
namespace Goir.CtState
open GoMap Flusher

theorem toInt32_idem (x : Int) : toInt32 (toInt32 x) = toInt32 x := by unfold toInt32; exact Int.bmod_bmod ..

theorem toInt32_fits {x : Int} (h : FitsInt32 x) : toInt32 x = x := by
  unfold toInt32
  unfold FitsInt32 at h
  rw [Int.bmod_eq_of_le] <;> omega

/-- what the file of field `f` says. -/
def FileM (c : Content) (f : String) (x y : Int) : Prop := ∃ b, c = .full b ∧ deserializeFieldSizeLength b = some (f, x, y)

theorem serM_spec (f : String) (v : Int × Int) :
    ∃ b, serM f v = some b ∧ deserializeFieldSizeLength b = some (f, toInt32 v.1, toInt32 v.2) := by
  have h := c45_sizeLength_roundtrip f (toInt32 v.1) (toInt32 v.2)
  unfold serM
  cases hs : serializeFieldSizeLength f (toInt32 v.1) (toInt32 v.2) with
  | none => simp [hs] at h
  | some b => exact ⟨b, rfl, by simpa [hs] using h⟩

theorem serN_spec (f : String) (m : GoMap String Int) (wf : m.WF) :
    ∃ b, serN f m = some b ∧ deserializeNumberFieldTerm b = some (m.map fun p => (p.1, toInt32 p.2)) := by
  have h := c34_counts_are_cut_to_32_bits m wf
  unfold serN
  cases hs : serializeNumberFieldTerm m with
  | none => simp [hs] at h
  | some b => exact ⟨b, rfl, by simpa [hs] using h⟩

theorem get?_cut (m : GoMap String Int) (t : String) :
    GoMap.get? (m.map fun p => (p.1, toInt32 p.2) : GoMap String Int) t = (m.get? t).map toInt32 := by
  induction m with
  | nil => rfl
  | cons e m ih =>
    obtain ⟨k, v⟩ := e
    simp only [List.map_cons, get?_cons]
    by_cases h : k = t <;> simp [h, ih]

theorem keys_cut (m : GoMap String Int) : GoMap.keys (m.map fun p => (p.1, toInt32 p.2) : GoMap String Int) = m.keys := by
  unfold GoMap.keys; simp

theorem cut_wf {m : GoMap String Int} (h : m.WF) : GoMap.WF (m.map fun p => (p.1, toInt32 p.2) : GoMap String Int) := by
  unfold GoMap.WF; rw [keys_cut]; exact h

/-- every metrics file can be read. -/
def SaneM (s : CtState) : Prop := ∀ f c, s.mx.cur f = some c → ∃ x y, FileM c f (toInt32 x) (toInt32 y)

/-- every document-frequency file can be read. -/
def SaneN (s : CtState) : Prop := ∀ f c, s.nf.cur f = some c → ∃ b m, c = .full b ∧ deserializeNumberFieldTerm b = some m ∧ m.WF ∧
  ∀ t n, m.get? t = some n → toInt32 n = n

/-- sizes and lengths in memory against buffer and files. -/
def MOk (s : CtState) (f : String) : Prop :=
  match s.mx.buf.get? f with
  | some v => v = (s.getFieldSize f, s.getFieldLength f)
  | none =>
    match s.mx.cur f with
    | some c => FileM c f (toInt32 (s.getFieldSize f)) (toInt32 (s.getFieldLength f))
    | none => s.size.get? f = none ∧ s.length.get? f = none

/-- the document-frequency file of `f` has entry `n` for `t`. -/
def FileN (s : CtState) (f t : String) (n : Int) : Prop :=
  ∃ b m, s.nf.cur f = some (.full b) ∧ deserializeNumberFieldTerm b = some m ∧ m.get? t = some n

/-- document frequencies in memory against buffer and files. -/
structure NOk (s : CtState) (f t : String) : Prop where
  buf  : ∀ m n, s.nf.buf.get? f = some m → m.get? t = some n → n = s.getNumberFieldTerm f t
  file : ∀ n, FileN s f t n → (∀ m, s.nf.buf.get? f = some m → m.get? t = none) → n = toInt32 (s.getNumberFieldTerm f t)

/-- while the process is not running. -/
structure DownC (s : CtState) : Prop where
  size : s.size = []
  length : s.length = []
  nft : s.nft = []
  sendM : s.sendM = none
  sendN : s.sendN = none
  bm : s.mx.buf = []
  bn : s.nf.buf = []
  pm : s.mx.pc = .idle
  pn : s.nf.pc = .idle

/-- the invariant of every reachable state. -/
structure CInv (s : CtState) : Prop where
  fm : FInv serM s.mx
  fn : FInv serN s.nf
  sm : SaneM s
  sn : SaneN s
  wn : ∀ f m, s.nf.buf.get? f = some m → m.WF
  down : s.up = false → DownC s
  m : s.up = true → ∀ f, s.sendM ≠ some f → MOk s f
  n : s.up = true → ∀ f t, s.sendN ≠ some (f, t) → NOk s f t

theorem init_cinv : CInv {} := by
  refine ⟨finv_init, finv_init, ?_, ?_, ?_, ?_, ?_, ?_⟩
  · intro f c h; simp [cur, file] at h
  · intro f c h; simp [cur, file] at h
  · intro f m h; simp at h
  · intro _; exact ⟨rfl, rfl, rfl, rfl, rfl, rfl, rfl, rfl, rfl⟩
  · intro h; cases h
  · intro h; cases h

/-! ### Loading -/

theorem loadM_aux (files : GoMap String SFile) (wf : files.WF)
    (hs : ∀ f sf c, files.get? f = some sf → sf.cur = some c → ∃ x y, FileM c f (toInt32 x) (toInt32 y))
    (acc : GoMap String Int × GoMap String Int) :
    ∃ r, files.foldlM loadM1 acc = some r ∧ ∀ f, (∀ c, ((files.get? f).getD {}).cur = some c →
        ∃ x y, FileM c f x y ∧ r.1.get? f = some x ∧ r.2.get? f = some y) ∧
      (((files.get? f).getD {}).cur = none → r.1.get? f = acc.1.get? f ∧ r.2.get? f = acc.2.get? f) := by
  induction files generalizing acc with
  | nil => exact ⟨acc, rfl, fun f => ⟨fun c h => by simp at h, fun _ => ⟨rfl, rfl⟩⟩⟩
  | cons e files ih =>
    obtain ⟨k, sf⟩ := e
    have hk : k ∉ GoMap.keys files := by simp only [WF, keys_cons, List.nodup_cons] at wf; exact wf.1
    have hs' : ∀ (f : String) (sf' : SFile) (c : Content), GoMap.get? files f = some sf' → sf'.cur = some c → ∃ x y, FileM c f (toInt32 x) (toInt32 y) := by
      intro f sf' c h1 h2
      refine hs f sf' c ?_ h2
      rw [get?_cons, if_neg, h1]
      rintro rfl; exact hk ((mem_keys_iff _ _).2 ⟨_, h1⟩)
    have hkn : GoMap.get? files k = none := (get?_eq_none_iff _ _).2 hk
    rw [List.foldlM_cons]
    cases hc : sf.cur with
    | none =>
      obtain ⟨r, h1, h2⟩ := ih wf.tail hs' acc
      refine ⟨r, by simpa [loadM1, hc] using h1, fun f => ?_⟩
      rw [get?_cons]
      by_cases hf : k = f
      · subst hf
        rw [if_pos rfl]
        refine ⟨fun c h => by simp [hc] at h, fun _ => ?_⟩
        exact (h2 k).2 (by rw [hkn]; rfl)
      · rw [if_neg hf]; exact h2 f
    | some c =>
      obtain ⟨x, y, b, rfl, hdec⟩ := hs k sf c (by rw [get?_cons, if_pos rfl]) hc
      obtain ⟨r, h1, h2⟩ := ih wf.tail hs' (acc.1.set k (toInt32 x), acc.2.set k (toInt32 y))
      refine ⟨r, by simpa [loadM1, hc, hdec] using h1, fun f => ?_⟩
      rw [get?_cons]
      by_cases hf : k = f
      · subst hf
        rw [if_pos rfl]
        refine ⟨fun c h => ?_, fun h => by simp [hc] at h⟩
        simp only [Option.getD_some, hc, Option.some.injEq] at h
        subst h
        obtain ⟨g1, g2⟩ := (h2 k).2 (by rw [hkn]; rfl)
        exact ⟨toInt32 x, toInt32 y, ⟨b, rfl, hdec⟩, by rw [g1]; simp, by rw [g2]; simp⟩
      · rw [if_neg hf]
        refine ⟨(h2 f).1, fun h => ?_⟩
        obtain ⟨g1, g2⟩ := (h2 f).2 h
        exact ⟨by rw [g1]; simp [get?_set, hf], by rw [g2]; simp [get?_set, hf]⟩

theorem loadM_spec {s : CtState} (h : CInv s) : ∃ sz ln, loadM s.mx.files = some (sz, ln) ∧
    ∀ f, (∀ c, s.mx.cur f = some c → ∃ x y, FileM c f x y ∧ sz.get? f = some x ∧ ln.get? f = some y) ∧
      (s.mx.cur f = none → sz.get? f = none ∧ ln.get? f = none) := by
  obtain ⟨r, h1, h2⟩ := loadM_aux s.mx.files h.fm.fw (by
    intro f sf c hg hc
    exact h.sm f c (by unfold cur file; rw [hg]; exact hc)) ([], [])
  exact ⟨r.1, r.2, h1, fun f => ⟨(h2 f).1, fun hc => (h2 f).2 hc⟩⟩

theorem loadN_aux (files : GoMap String SFile) (wf : files.WF)
    (hs : ∀ f sf c, files.get? f = some sf → sf.cur = some c → ∃ b m, c = .full b ∧ deserializeNumberFieldTerm b = some m)
    (acc : GoMap String (GoMap String Int)) :
    ∃ r, files.foldlM loadN1 acc = some r ∧ ∀ f, (∀ b, ((files.get? f).getD {}).cur = some (.full b) →
        ∃ m, deserializeNumberFieldTerm b = some m ∧ r.get? f = some m) ∧
      (((files.get? f).getD {}).cur = none → r.get? f = acc.get? f) := by
  induction files generalizing acc with
  | nil => exact ⟨acc, rfl, fun f => ⟨fun c h => by simp at h, fun _ => rfl⟩⟩
  | cons e files ih =>
    obtain ⟨k, sf⟩ := e
    have hk : k ∉ GoMap.keys files := by simp only [WF, keys_cons, List.nodup_cons] at wf; exact wf.1
    have hs' : ∀ (f : String) (sf' : SFile) (c : Content), GoMap.get? files f = some sf' → sf'.cur = some c → ∃ b m, c = .full b ∧ deserializeNumberFieldTerm b = some m := by
      intro f sf' c h1 h2
      refine hs f sf' c ?_ h2
      rw [get?_cons, if_neg, h1]
      rintro rfl; exact hk ((mem_keys_iff _ _).2 ⟨_, h1⟩)
    have hkn : GoMap.get? files k = none := (get?_eq_none_iff _ _).2 hk
    rw [List.foldlM_cons]
    cases hc : sf.cur with
    | none =>
      obtain ⟨r, h1, h2⟩ := ih wf.tail hs' acc
      refine ⟨r, by simpa [loadN1, hc] using h1, fun f => ?_⟩
      rw [get?_cons]
      by_cases hf : k = f
      · subst hf
        rw [if_pos rfl]
        refine ⟨fun c h => by simp [hc] at h, fun _ => ?_⟩
        exact (h2 k).2 (by rw [hkn]; rfl)
      · rw [if_neg hf]; exact h2 f
    | some c =>
      obtain ⟨b, m, rfl, hdec⟩ := hs k sf c (by rw [get?_cons, if_pos rfl]) hc
      obtain ⟨r, h1, h2⟩ := ih wf.tail hs' (acc.set k m)
      refine ⟨r, by simpa [loadN1, hc, hdec] using h1, fun f => ?_⟩
      rw [get?_cons]
      by_cases hf : k = f
      · subst hf
        rw [if_pos rfl]
        refine ⟨fun b' h => ?_, fun h => by simp [hc] at h⟩
        simp only [Option.getD_some, hc, Option.some.injEq, Content.full.injEq] at h
        subst h
        have g1 := (h2 k).2 (by rw [hkn]; rfl)
        exact ⟨m, hdec, by rw [g1]; simp⟩
      · rw [if_neg hf]
        refine ⟨(h2 f).1, fun h => ?_⟩
        rw [(h2 f).2 h]; simp [get?_set, hf]

theorem loadN_spec {s : CtState} (h : CInv s) : ∃ nft, loadN s.nf.files = some nft ∧
    ∀ f, (∀ b, s.nf.cur f = some (.full b) → ∃ m, deserializeNumberFieldTerm b = some m ∧ nft.get? f = some m) ∧
      (s.nf.cur f = none → nft.get? f = none) := by
  obtain ⟨r, h1, h2⟩ := loadN_aux s.nf.files h.fn.fw (by
    intro f sf c hg hc
    obtain ⟨b, m, h1, h2, _⟩ := h.sn f c (by unfold cur file; rw [hg]; exact hc)
    exact ⟨b, m, h1, h2⟩) []
  exact ⟨r, h1, fun f => ⟨(h2 f).1, fun hc => (h2 f).2 hc⟩⟩

/-! ### The actions -/

theorem free_spec {s : CtState} (h : s.free = true) : s.up = true ∧ s.sendM = none ∧ s.sendN = none := by
  unfold free at h
  simp only [Bool.and_eq_true, Option.isNone_iff_eq_none] at h
  exact ⟨h.1.1, h.1.2, h.2⟩

theorem fileM_unique {c : Content} {f : String} {x y x' y' : Int} (h : FileM c f x y) (h' : FileM c f x' y') : x = x' ∧ y = y' := by
  obtain ⟨b, rfl, h1⟩ := h
  obtain ⟨b', h2, h3⟩ := h'
  cases h2; rw [h1] at h3; cases h3; exact ⟨rfl, rfl⟩

theorem exec_addField {s s' : CtState} {f : String} {len : Int} (h : CInv s) (he : s.exec (.addField f len) = some s') : CInv s' := by
  simp only [exec] at he; split at he
  · rename_i hf
    obtain ⟨hu, hm, hn⟩ := free_spec hf
    cases he
    refine ⟨h.fm, h.fn, h.sm, h.sn, h.wn, fun e => (by rw [hu] at e; cases e), ?_, ?_⟩
    · intro _ g hg
      have hfg : f ≠ g := fun e => hg (congrArg some e)
      have := h.m hu g (by rw [hm]; simp)
      unfold MOk getFieldSize getFieldLength at *
      simp only [getD_set, get?_set, hfg, if_false]
      exact this
    · intro _ g t hg
      have := h.n hu g t hg
      exact ⟨this.buf, this.file⟩
  · cases he

theorem exec_recvM {s s' : CtState} (h : CInv s) (he : s.exec .recvM = some s') : CInv s' := by
  simp only [exec] at he; split at he
  · cases he
  · rename_i f hs
    cases hr : s.mx.recv f fun _ => (s.size.getD f 0, s.length.getD f 0) with
    | none => simp [hr] at he
    | some mx =>
      simp only [hr, Option.map_some, Option.some.injEq] at he
      subst he
      obtain ⟨hpc, rfl⟩ := recv_some hr
      have hu : s.up = true := by
        cases hu : s.up with
        | true => rfl
        | false => have := (h.down hu).sendM; rw [hs] at this; cases this
      refine ⟨finv_recv h.fm hr, h.fn, h.sm, h.sn, h.wn, fun e => (by rw [hu] at e; cases e), ?_, ?_⟩
      · intro _ g _
        unfold MOk
        simp only [get?_set]
        by_cases hfg : f = g
        · subst hfg; simp [getFieldSize, getFieldLength]
        · simp only [hfg, if_false]
          have := h.m hu g (by rw [hs]; simpa using hfg)
          unfold MOk at this
          exact this
      · intro _ g t hg
        have := h.n hu g t hg
        exact ⟨this.buf, this.file⟩

theorem exec_addTerm {s s' : CtState} {f t : String} (h : CInv s) (he : s.exec (.addTerm f t) = some s') : CInv s' := by
  simp only [exec] at he; split at he
  · rename_i hf
    obtain ⟨hu, hm, hn⟩ := free_spec hf
    cases he
    refine ⟨h.fm, h.fn, h.sm, h.sn, h.wn, fun e => (by rw [hu] at e; cases e), ?_, ?_⟩
    · intro _ g hg
      exact h.m hu g hg
    · intro _ g u hg
      have hne : ¬ (f = g ∧ t = u) := by rintro ⟨rfl, rfl⟩; exact hg rfl
      have := h.n hu g u (by rw [hn]; simp)
      have hval : getNumberFieldTerm { s with nft := s.nft.set f (((s.nft.get? f).getD []).set t (((s.nft.get? f).getD []).getD t 0 + 1)), sendN := some (f, t) } g u = s.getNumberFieldTerm g u := by
        unfold getNumberFieldTerm
        simp only [get?_set]
        by_cases hfg : f = g
        · subst hfg
          have : t ≠ u := fun e => hne ⟨rfl, e⟩
          simp [getD_set, this]
        · simp [hfg]
      refine ⟨?_, ?_⟩
      · intro m n h1 h2; rw [hval]; exact this.buf m n h1 h2
      · intro n h1 h2; rw [hval]; exact this.file n h1 h2
  · cases he

theorem get?_putN (t : String) (n : Int) (o : Option (GoMap String Int)) (u : String) :
    (putN t n o).get? u = if t = u then some n else (o.getD []).get? u := by
  cases o with
  | none => simp [putN, get?_cons]
  | some m => simp [putN, get?_set]

theorem exec_recvN {s s' : CtState} (h : CInv s) (he : s.exec .recvN = some s') : CInv s' := by
  simp only [exec] at he; split at he
  · cases he
  · rename_i f t hs
    cases hr : s.nf.recv f (putN t (((s.nft.get? f).getD []).getD t 0)) with
    | none => simp [hr] at he
    | some nf =>
      simp only [hr, Option.map_some, Option.some.injEq] at he
      subst he
      obtain ⟨hpc, rfl⟩ := recv_some hr
      have hu : s.up = true := by
        cases hu : s.up with
        | true => rfl
        | false => have := (h.down hu).sendN; rw [hs] at this; cases this
      refine ⟨h.fm, finv_recv h.fn hr, h.sm, h.sn, ?_, fun e => (by rw [hu] at e; cases e), ?_, ?_⟩
      · intro g m hm
        simp only [get?_set] at hm
        split at hm
        · cases hm
          cases hb : s.nf.buf.get? f with
          | none => simp [putN, WF, GoMap.keys]
          | some m' => exact (h.wn f m' hb).set t _
        · exact h.wn g m hm
      · exact h.m
      · intro _ g u _
        have hval : getNumberFieldTerm { s with
            nf := { s.nf with buf := s.nf.buf.set f (putN t (((s.nft.get? f).getD []).getD t 0) (s.nf.buf.get? f)) },
            sendN := none } g u = s.getNumberFieldTerm g u := rfl
        by_cases htu : f = g ∧ t = u
        · obtain ⟨rfl, rfl⟩ := htu
          refine ⟨?_, ?_⟩
          · intro m n h1 h2
            simp only [get?_set, if_true, Option.some.injEq] at h1
            subst h1
            rw [get?_putN, if_pos rfl] at h2
            cases h2; rfl
          · intro n h1 h2
            have := h2 (putN t (((s.nft.get? f).getD []).getD t 0) (s.nf.buf.get? f)) (by simp)
            rw [get?_putN, if_pos rfl] at this
            cases this
        · have hold := h.n hu g u (by rw [hs]; intro e; cases e; exact htu ⟨rfl, rfl⟩)
          refine ⟨?_, ?_⟩
          · intro m n h1 h2
            rw [hval]
            simp only [get?_set] at h1
            by_cases hfg : f = g
            · subst hfg
              simp only [if_true, Option.some.injEq] at h1
              subst h1
              rw [get?_putN, if_neg (fun e => htu ⟨rfl, e⟩)] at h2
              cases hb : s.nf.buf.get? f with
              | none => rw [hb] at h2; simp at h2
              | some m' => rw [hb] at h2; exact hold.buf m' n hb h2
            · simp only [hfg, if_false] at h1
              exact hold.buf m n h1 h2
          · intro n h1 h2
            rw [hval]
            refine hold.file n h1 ?_
            intro m hm
            by_cases hfg : f = g
            · subst hfg
              have := h2 (putN t (((s.nft.get? f).getD []).getD t 0) (s.nf.buf.get? f)) (by simp)
              rw [get?_putN, if_neg (fun e => htu ⟨rfl, e⟩), hm] at this
              exact this
            · exact h2 m (by simp only [get?_set, hfg, if_false]; exact hm)

theorem exec_tickM {s s' : CtState} {o : List String} (h : CInv s) (he : s.exec (.tickM o) = some s') : CInv s' := by
  simp only [exec] at he; split at he
  · rename_i hu
    cases hr : s.mx.tick o with
    | none => simp [hr] at he
    | some mx =>
      simp only [hr, Option.map_some, Option.some.injEq] at he
      subst he
      obtain ⟨hpc, hq, rfl⟩ := tick_some hr
      exact ⟨finv_tick h.fm hr, h.fn, h.sm, h.sn, h.wn, fun e => (by rw [hu] at e; cases e), h.m,
        fun hu f t hs => ⟨(h.n hu f t hs).buf, (h.n hu f t hs).file⟩⟩
  · cases he

theorem exec_tickN {s s' : CtState} {o : List String} (h : CInv s) (he : s.exec (.tickN o) = some s') : CInv s' := by
  simp only [exec] at he; split at he
  · rename_i hu
    cases hr : s.nf.tick o with
    | none => simp [hr] at he
    | some nf =>
      simp only [hr, Option.map_some, Option.some.injEq] at he
      subst he
      obtain ⟨hpc, hq, rfl⟩ := tick_some hr
      exact ⟨h.fm, finv_tick h.fn hr, h.sm, h.sn, h.wn, fun e => (by rw [hu] at e; cases e), h.m,
        fun hu f t hs => ⟨(h.n hu f t hs).buf, (h.n hu f t hs).file⟩⟩
  · cases he

theorem up_of_step {B : Type} {ser : String → B → Option FB.Buf} {x x' : Flusher B} (h : x.step ser = some x') : x.pc ≠ .idle := by
  intro e; unfold Flusher.step at h; rw [e] at h; cases h

theorem exec_stepM {s s' : CtState} (h : CInv s) (he : s.exec .stepM = some s') : CInv s' := by
  simp only [exec] at he
  cases hr : s.mx.step serM with
  | none => simp [hr] at he
  | some mx =>
    simp only [hr, Option.map_some, Option.some.injEq] at he
    subst he
    have hu : s.up = true := by
      cases hu : s.up with
      | true => rfl
      | false => exact absurd (h.down hu).pm (up_of_step hr)
    obtain ⟨hf, hc⟩ := step_spec h.fm hr
    have hserf : ∀ k v b, serM k v = some b → FileM (.full b) k (toInt32 v.1) (toInt32 v.2) := by
      intro k v b hb
      obtain ⟨b', h1, h2⟩ := serM_spec k v
      rw [hb] at h1; cases h1
      exact ⟨b, rfl, h2⟩
    refine ⟨hf, h.fn, ?_, h.sn, h.wn, fun e => (by rw [hu] at e; cases e), ?_, fun hu f t hs => ⟨(h.n hu f t hs).buf, (h.n hu f t hs).file⟩⟩
    · intro f c hcur
      have hcur : mx.cur f = some c := hcur
      cases hc with
      | same hb hcc => rw [hcc] at hcur; exact h.sm f c hcur
      | away k v hv hb hk hcc =>
        by_cases e : f = k
        · subst e; rw [hk] at hcur; cases hcur
        · rw [hcc f e] at hcur; exact h.sm f c hcur
      | install k v b hv hs hb hk hcc =>
        by_cases e : f = k
        · subst e; rw [hk] at hcur; cases hcur; exact ⟨_, _, hserf f v b hs⟩
        · rw [hcc f e] at hcur; exact h.sm f c hcur
      | forget k v b hv hs hk hb hcc => rw [hcc] at hcur; exact h.sm f c hcur
    · intro _ f hsnd
      have hold := h.m hu f hsnd
      unfold MOk getFieldSize getFieldLength at *
      show match mx.buf.get? f with
        | some v => v = (s.size.getD f 0, s.length.getD f 0)
        | none =>
          match mx.cur f with
          | some c => FileM c f (toInt32 (s.size.getD f 0)) (toInt32 (s.length.getD f 0))
          | none => s.size.get? f = none ∧ s.length.get? f = none
      cases hc with
      | same hb hcc => rw [hb, hcc]; exact hold
      | away k v hv hb hk hcc =>
        rw [hb]
        by_cases e : f = k
        · subst e; rw [hv] at hold ⊢; exact hold
        · rw [hcc f e]; exact hold
      | install k v b hv hs hb hk hcc =>
        rw [hb]
        by_cases e : f = k
        · subst e; rw [hv] at hold ⊢; exact hold
        · rw [hcc f e]; exact hold
      | forget k v b hv hs hk hb hcc =>
        rw [hb, hcc, get?_del]
        by_cases e : k = f
        · subst e
          rw [hv] at hold
          simp only [if_true, hk]
          have := hserf k v b hs
          rw [hold] at this
          exact this
        · simp only [e, if_false]; exact hold

theorem exec_stepN {s s' : CtState} (h : CInv s) (he : s.exec .stepN = some s') : CInv s' := by
  simp only [exec] at he
  cases hr : s.nf.step serN with
  | none => simp [hr] at he
  | some nf =>
    simp only [hr, Option.map_some, Option.some.injEq] at he
    subst he
    have hu : s.up = true := by
      cases hu : s.up with
      | true => rfl
      | false => exact absurd (h.down hu).pn (up_of_step hr)
    obtain ⟨hf, hc⟩ := step_spec h.fn hr
    have hbuf : ∀ f m, nf.buf.get? f = some m → s.nf.buf.get? f = some m := by
      intro f m hm
      cases hc with
      | same hb _ => rw [hb] at hm; exact hm
      | away k v hv hb hk hcc => rw [hb] at hm; exact hm
      | install k v b hv hs hb hk hcc => rw [hb] at hm; exact hm
      | forget k v b hv hs hk hb hcc =>
        rw [hb, get?_del] at hm; split at hm
        · cases hm
        · exact hm
    have hserf : ∀ k v b, s.nf.buf.get? k = some v → serN k v = some b →
        deserializeNumberFieldTerm b = some (v.map fun p => (p.1, toInt32 p.2)) := by
      intro k v b hv hb
      obtain ⟨b', h1, h2⟩ := serN_spec k v (h.wn k v hv)
      rw [hb] at h1; cases h1
      exact h2
    refine ⟨h.fm, hf, h.sm, ?_, fun f m hm => h.wn f m (hbuf f m hm), fun e => (by rw [hu] at e; cases e), h.m, ?_⟩
    · intro f c hcur
      have hcur : nf.cur f = some c := hcur
      cases hc with
      | same hb hcc => rw [hcc] at hcur; exact h.sn f c hcur
      | away k v hv hb hk hcc =>
        by_cases e : f = k
        · subst e; rw [hk] at hcur; cases hcur
        · rw [hcc f e] at hcur; exact h.sn f c hcur
      | install k v b hv hs hb hk hcc =>
        by_cases e : f = k
        · subst e; rw [hk] at hcur; cases hcur
          refine ⟨b, _, rfl, hserf f v b hv hs, cut_wf (h.wn f v hv), ?_⟩
          intro t n hn
          rw [get?_cut] at hn
          cases hx : v.get? t with
          | none => rw [hx] at hn; cases hn
          | some x => rw [hx] at hn; cases hn; exact toInt32_idem x
        · rw [hcc f e] at hcur; exact h.sn f c hcur
      | forget k v b hv hs hk hb hcc => rw [hcc] at hcur; exact h.sn f c hcur
    · intro _ f t hs
      have hold := h.n hu f t hs
      refine ⟨fun m n h1 h2 => hold.buf m n (hbuf f m h1) h2, ?_⟩
      show ∀ n, (∃ b m, nf.cur f = some (.full b) ∧ deserializeNumberFieldTerm b = some m ∧ m.get? t = some n) →
        (∀ m, nf.buf.get? f = some m → m.get? t = none) → n = toInt32 (s.getNumberFieldTerm f t)
      rintro n ⟨b', m', h1, h2, h3⟩ hnb
      cases hc with
      | same hb hcc => rw [hcc] at h1; rw [hb] at hnb; exact hold.file n ⟨b', m', h1, h2, h3⟩ hnb
      | away k v hv hb hk hcc =>
        by_cases e : f = k
        · subst e; rw [hk] at h1; cases h1
        · rw [hcc f e] at h1; rw [hb] at hnb; exact hold.file n ⟨b', m', h1, h2, h3⟩ hnb
      | install k v b hv hs hb hk hcc =>
        by_cases e : f = k
        · subst e
          rw [hk] at h1; cases h1
          rw [hserf f v _ hv hs] at h2; cases h2
          rw [get?_cut, hnb v (by rw [hb]; exact hv)] at h3
          cases h3
        · rw [hcc f e] at h1; rw [hb] at hnb; exact hold.file n ⟨b', m', h1, h2, h3⟩ hnb
      | forget k v b hv hs hk hb hcc =>
        rw [hcc] at h1
        by_cases e : k = f
        · subst e
          rw [hk] at h1; cases h1
          rw [hserf k v _ hv hs] at h2; cases h2
          rw [get?_cut] at h3
          cases hx : v.get? t with
          | none => rw [hx] at h3; cases h3
          | some x =>
            rw [hx] at h3; cases h3
            rw [hold.buf v x hv hx]
        · rw [hb] at hnb
          refine hold.file n ⟨b', m', h1, h2, h3⟩ fun m hm => hnb m ?_
          rw [get?_del, if_neg e]; exact hm

theorem exec_crash {s s' : CtState} (h : CInv s) (he : s.exec .crash = some s') : CInv s' := by
  simp only [exec] at he; split at he
  · cases he
    refine ⟨finv_killed h.fm, finv_killed h.fn, h.sm, h.sn, ?_, ?_, ?_, ?_⟩
    · intro f m hm; simp [Flusher.killed] at hm
    · intro _; exact ⟨rfl, rfl, rfl, rfl, rfl, rfl, rfl, rfl, rfl⟩
    · intro e; cases e
    · intro e; cases e
  · cases he

theorem exec_open {s s' : CtState} (h : CInv s) (he : s.exec .open_ = some s') : CInv s' := by
  simp only [exec] at he
  split at he
  · cases he
  · rename_i hu
    have hd := h.down (by simpa using hu)
    obtain ⟨sz, ln, h1, h2⟩ := loadM_spec h
    obtain ⟨nft, h3, h4⟩ := loadN_spec h
    rw [h1, h3] at he
    cases he
    refine ⟨h.fm, h.fn, h.sm, h.sn, h.wn, fun e => (by cases e), ?_, ?_⟩
    · intro _ f _
      unfold MOk getFieldSize getFieldLength
      show match s.mx.buf.get? f with
        | some v => v = (sz.getD f 0, ln.getD f 0)
        | none =>
          match s.mx.cur f with
          | some c => FileM c f (toInt32 (sz.getD f 0)) (toInt32 (ln.getD f 0))
          | none => sz.get? f = none ∧ ln.get? f = none
      rw [hd.bm]
      simp only [get?_nil]
      cases hc : s.mx.cur f with
      | none => exact (h2 f).2 hc
      | some c =>
        obtain ⟨x, y, g1, g2, g3⟩ := (h2 f).1 c hc
        obtain ⟨x', y', g4⟩ := h.sm f c hc
        obtain ⟨rfl, rfl⟩ := fileM_unique g1 g4
        simp only [GoMap.getD, g2, g3, Option.getD_some, toInt32_idem]
        exact g4
    · intro _ f t _
      refine ⟨?_, ?_⟩
      · intro m n hm
        have hm : s.nf.buf.get? f = some m := hm
        rw [hd.bn] at hm; simp at hm
      · rintro n ⟨b, m, g1, g2, g3⟩ _
        obtain ⟨m', g4, g5⟩ := (h4 f).1 b g1
        rw [g2] at g4; cases g4
        obtain ⟨b', m'', e1, e2, -, e3⟩ := h.sn f _ g1
        cases e1; rw [g2] at e2; cases e2
        show n = toInt32 (GoMap.getD ((nft.get? f).getD []) t 0)
        rw [g5]
        simp only [Option.getD_some, GoMap.getD, g3, e3 t n g3]

theorem exec_cinv {s s' : CtState} {a : Act} (h : CInv s) (he : s.exec a = some s') : CInv s' := by
  cases a with
  | addField => exact exec_addField h he
  | recvM => exact exec_recvM h he
  | addTerm => exact exec_addTerm h he
  | recvN => exact exec_recvN h he
  | tickM => exact exec_tickM h he
  | stepM => exact exec_stepM h he
  | tickN => exact exec_tickN h he
  | stepN => exact exec_stepN h he
  | crash => exact exec_crash h he
  | open_ => exact exec_open h he

theorem run_nil (s s' : CtState) : run s [] = some s' ↔ s = s' := by simp [run]

theorem run_cons (s s' : CtState) (a : Act) (as : List Act) :
    run s (a :: as) = some s' ↔ ∃ s₁, s.exec a = some s₁ ∧ run s₁ as = some s' := by
  unfold run; rw [List.foldlM_cons]
  cases s.exec a <;> simp

theorem run_append (s s' : CtState) (as bs : List Act) :
    run s (as ++ bs) = some s' ↔ ∃ s₁, run s as = some s₁ ∧ run s₁ bs = some s' := by
  unfold run; rw [List.foldlM_append]
  cases List.foldlM exec s as <;> simp

theorem run_cinv {s s' : CtState} {as : List Act} (h : CInv s) (hr : run s as = some s') : CInv s' := by
  induction as generalizing s with
  | nil => rw [run_nil] at hr; exact hr ▸ h
  | cons a as ih =>
    obtain ⟨s₁, h1, h2⟩ := (run_cons _ _ _ _).1 hr
    exact ih (exec_cinv h h1) h2

end Goir.CtState
