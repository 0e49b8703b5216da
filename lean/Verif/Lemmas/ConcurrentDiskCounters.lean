import Verif.Lemmas.ConcurrentDisk
import Verif.Props.CountersCrash
/-!
# Lemmas about the counters of a Disk store with several clients
-/
namespace Goir
open GoMap Spec

namespace CDisk
open Flusher CtState

/-- the two metrics writers and their files are in order. -/
structure FlushOk (s : CDisk) : Prop where
  fm : FInv serM s.mx
  fn : FInv serN s.nf
  wn : ∀ f m, s.nf.buf.get? f = some m → m.WF
  sm : ∀ f c, s.mx.cur f = some c → ∃ x y, FileM c f (toInt32 x) (toInt32 y)
  sn : ∀ f c, s.nf.cur f = some c → ∃ b m, c = .full b ∧ deserializeNumberFieldTerm b = some m ∧ m.WF

theorem flushOk_init : FlushOk {} := ⟨finv_init, finv_init, fun _ _ h => (by cases h), fun _ _ h => (by cases h), fun _ _ h => (by cases h)⟩

theorem putN_wf {t : String} {n : Int} {o : Option (GoMap String Int)} (h : ∀ m, o = some m → m.WF) : (putN t n o).WF := by
  cases o with
  | none => simp [putN, GoMap.WF, GoMap.keys]
  | some m => exact (h m rfl).set _ _

theorem flushOk_stop {s : CDisk} (h : FlushOk s) (ix : IxState) : FlushOk (s.stop ix) :=
  ⟨finv_killed h.fm, finv_killed h.fn, fun _ _ h => (by cases h), h.sm, h.sn⟩

theorem serN_file {k : String} {v : GoMap String Int} {b : FB.Buf} (wf : v.WF) (hb : serN k v = some b) :
    deserializeNumberFieldTerm b = some (v.map fun p => (p.1, toInt32 p.2)) := by
  obtain ⟨b', h1, h2⟩ := serN_spec k v wf
  rw [hb] at h1; cases h1
  exact h2

theorem flushOk_step {s s' : CDisk} {a : Act} (h : FlushOk s) (hs : Step s a s') : FlushOk s' := by
  cases hs with
  | recvM hi hc he =>
    have e := (Flusher.recv_some he).2
    exact ⟨finv_recv h.fm he, h.fn, h.wn, by rw [e]; exact h.sm, h.sn⟩
  | @recvN i cl op r key n ts nf hi hc he =>
    have e := (Flusher.recv_some he).2
    refine ⟨h.fm, finv_recv h.fn he, ?_, h.sm, by rw [e]; exact h.sn⟩
    rw [e]
    intro f m hm
    simp only [GoMap.get?_set] at hm
    split at hm
    · cases hm; exact putN_wf fun m hm => h.wn _ m hm
    · exact h.wn f m hm
  | tickM hu he =>
    have e := (Flusher.tick_some he).2.2
    exact ⟨finv_tick h.fm he, h.fn, h.wn, by rw [e]; exact h.sm, h.sn⟩
  | tickN hu he =>
    have e := (Flusher.tick_some he).2.2
    exact ⟨h.fm, finv_tick h.fn he, by rw [e]; exact h.wn, h.sm, by rw [e]; exact h.sn⟩
  | @stepM mx he =>
    obtain ⟨h1, h2⟩ := step_spec h.fm he
    refine ⟨h1, h.fn, h.wn, fun f c hc => ?_, h.sn⟩
    have hc : mx.cur f = some c := hc
    cases h2 with
    | same hb hcc => rw [hcc] at hc; exact h.sm f c hc
    | away k v hv hb hk hcc =>
      by_cases e : f = k
      · subst e; rw [hk] at hc; cases hc
      · rw [hcc f e] at hc; exact h.sm f c hc
    | install k v b hv hs hb hk hcc =>
      by_cases e : f = k
      · subst e; rw [hk] at hc; cases hc; exact ⟨_, _, serM_file hs⟩
      · rw [hcc f e] at hc; exact h.sm f c hc
    | forget k v b hv hs hk hb hcc => rw [hcc] at hc; exact h.sm f c hc
  | @stepN nf he =>
    obtain ⟨h1, h2⟩ := step_spec h.fn he
    refine ⟨h.fm, h1, fun f m hm => h.wn f m (step_buf he f m hm), h.sm, fun f c hc => ?_⟩
    have hc : nf.cur f = some c := hc
    cases h2 with
    | same hb hcc => rw [hcc] at hc; exact h.sn f c hc
    | away k v hv hb hk hcc =>
      by_cases e : f = k
      · subst e; rw [hk] at hc; cases hc
      · rw [hcc f e] at hc; exact h.sn f c hc
    | install k v b hv hs hb hk hcc =>
      by_cases e : f = k
      · subst e; rw [hk] at hc; cases hc; exact ⟨b, _, rfl, serN_file (h.wn f v hv) hs, cut_wf (h.wn f v hv)⟩
      · rw [hcc f e] at hc; exact h.sn f c hc
    | forget k v b hv hs hk hb hcc => rw [hcc] at hc; exact h.sn f c hc
  | ixDown hb hu he hp => exact flushOk_stop h _
  | crash he => exact flushOk_stop h _
  | _ => exact ⟨h.fm, h.fn, h.wn, h.sm, h.sn⟩

theorem flushOk_run {as : List Act} {s : CDisk} (h : run {} as = some s) : FlushOk s := run_inv (fun _ _ _ => flushOk_step) flushOk_init h

/-- what loading finds for a field. -/
theorem loadM_of {s : CDisk} (h : FlushOk s) {size length : GoMap String Int} (hl : loadM s.mx.files = some (size, length)) (f : String) :
    (∀ c, s.mx.cur f = some c → ∃ x y, FileM c f x y ∧ size.get? f = some x ∧ length.get? f = some y) ∧
      (s.mx.cur f = none → size.get? f = none ∧ length.get? f = none) := by
  obtain ⟨r, h1, h2⟩ := loadM_aux s.mx.files h.fm.fw (fun f sf c hf hc => h.sm f c (by unfold Flusher.cur Flusher.file; rw [hf]; exact hc)) ([], [])
  have : loadM s.mx.files = some r := h1
  rw [hl] at this; cases this
  exact h2 f

theorem loadN_of {s : CDisk} (h : FlushOk s) {nft : GoMap String (GoMap String Int)} (hl : loadN s.nf.files = some nft) (f : String) :
    (∀ b, s.nf.cur f = some (.full b) → ∃ m, deserializeNumberFieldTerm b = some m ∧ nft.get? f = some m) ∧ (s.nf.cur f = none → nft.get? f = none) := by
  obtain ⟨r, h1, h2⟩ := loadN_aux s.nf.files h.fn.fw (fun f sf c hf hc => by
    obtain ⟨b, m, e1, e2, -⟩ := h.sn f c (by unfold Flusher.cur Flusher.file; rw [hf]; exact hc)
    exact ⟨b, m, e1, e2⟩) []
  have : loadN s.nf.files = some r := h1
  rw [hl] at this; cases this
  exact h2 f

/-! ### a counter: in memory, held by clients, in messages, in buffers and in files -/

/-- a counter to which every call adds at most `w`, reading it first. -/
structure Gauge where
  memV : CMem → Int → Prop
  heldV : StoreOp → WLoc → Int → Prop
  ext : Flusher (Int × Int) → Flusher (GoMap String Int) → Int → Prop
  pend : StoreOp → WLoc → Int
  w : StoreOp → Int

/-- where its values come from. -/
structure Gauge.Good (G : Gauge) (valid : StoreOp → Prop) : Prop where
  pos : ∀ op loc, valid op → 0 ≤ G.pend op loc
  init : ∀ v, G.memV {} v → v = 0
  start : ∀ op, G.pend op (CDisk.start op) = G.w op ∧ ∀ n, ¬ G.heldV op (CDisk.start op) n
  doc : ∀ m dc n v, G.memV { m with docCells := dc, next := n } v → G.memV m v
  acc : ∀ m m' op k l o, valid op → WLocOk op (.acc l) → op.field.tf.WF → CMem.exec m op k l = some (m', o) →
    (((cont l o).map (G.pend op)).getD 0 ≤ G.pend op (.acc l)) ∧
    (∀ v, G.memV m' v → v = 0 ∨ G.memV m v ∨ ∃ n, G.heldV op (.acc l) n ∧ n ≤ v ∧ v ≤ n + (G.pend op (.acc l) - ((cont l o).map (G.pend op)).getD 0)) ∧
    (∀ loc' ∈ cont l o, ∀ n, G.heldV op loc' n → n = 0 ∨ G.memV m n)
  msgLen : ∀ m op v, valid op → G.pend op (.msgSize (m.fieldLength.getD op.field.name 0)) ≤ G.pend op .msgLen ∧
    (G.heldV op (.msgSize (m.fieldLength.getD op.field.name 0)) v → G.memV m v)
  msgSize : ∀ m op len v, valid op → G.pend op (.sendM (m.fieldSize.getD op.field.name 0) len) ≤ G.pend op (.msgSize len) ∧
    (G.heldV op (.sendM (m.fieldSize.getD op.field.name 0) len) v → G.memV m v ∨ G.heldV op (.msgSize len) v)
  sendI : ∀ op r key ts v, valid op → G.pend op (.acc (.post r ts)) ≤ G.pend op (.sendI r key ts) ∧ ¬ G.heldV op (.acc (.post r ts)) v
  msgN : ∀ m op r key ts v, valid op → WLocOk op (.msgN r key ts) → G.pend op (.sendN r key ((m.nftCells r).getD key 0) ts) ≤ G.pend op (.msgN r key ts) ∧
    (G.heldV op (.sendN r key ((m.nftCells r).getD key 0) ts) v → v = 0 ∨ G.memV m v)
  docSet : ∀ op r v, valid op → G.pend op (.docSet r) ≤ G.pend op .docGet ∧ ¬ G.heldV op (.docSet r) v
  docPut : ∀ op r v, valid op → G.pend op (.docPut r) ≤ G.pend op (.docSet r) ∧ ¬ G.heldV op (.docPut r) v
  sendD : ∀ op r v, valid op → G.pend op (.sendD r) ≤ G.pend op (.docPut r) ∧ ¬ G.heldV op (.sendD r) v
  recvM : ∀ mx mx' nf op size len v, valid op → (mx.recv op.field.name fun _ => (size, len)) = some mx' → G.pend op (.acc .idxLook) ≤ G.pend op (.sendM size len) ∧
    ¬ G.heldV op (.acc .idxLook) v ∧ (G.ext mx' nf v → G.ext mx nf v ∨ G.heldV op (.sendM size len) v)
  recvN : ∀ mx nf nf' op r key n ts v, valid op → nf.recv op.field.name (putN key n) = some nf' → G.pend op (.acc (.term r ts)) ≤ G.pend op (.sendN r key n ts) ∧
    ¬ G.heldV op (.acc (.term r ts)) v ∧ (G.ext mx nf' v → G.ext mx nf v ∨ G.heldV op (.sendN r key n ts) v)
  ext0 : ∀ v, ¬ G.ext {} {} v
  same : ∀ mx mx' nf nf' v, mx'.buf = mx.buf → mx'.files = mx.files → nf'.buf = nf.buf → nf'.files = nf.files → G.ext mx' nf' v → G.ext mx nf v
  killed : ∀ mx nf v, G.ext mx.killed nf.killed v → G.ext mx nf v
  stepM : ∀ mx mx' nf v, Change serM mx mx' → G.ext mx' nf v → ∃ u, G.ext mx nf u ∧ (v = u ∨ v = toInt32 u)
  stepN : ∀ mx nf nf' v, (∀ f m, nf.buf.get? f = some m → m.WF) → Change serN nf nf' → G.ext mx nf' v → ∃ u, G.ext mx nf u ∧ (v = u ∨ v = toInt32 u)
  load : ∀ s : CDisk, FlushOk s → ∀ size length nft v, loadM s.mx.files = some (size, length) → loadN s.nf.files = some nft →
    G.memV (CMem.loaded s.ix.mem size length nft) v → v = 0 ∨ G.ext s.mx s.nf v

/-- the values of the counter. -/
def Gauge.Val (G : Gauge) (s : CDisk) (v : Int) : Prop :=
  v = 0 ∨ G.memV s.mem v ∨ (∃ cl ∈ s.clients, ∃ op loc, cl.cur = some (.write op loc) ∧ G.heldV op loc v) ∨ G.ext s.mx s.nf v

/-- what a client still has to add. -/
def Gauge.pendOf (G : Gauge) (cl : DClient) : Int :=
  match cl.cur with
  | some (.write op loc) => G.pend op loc
  | _ => 0

theorem sum_set {l : List DClient} {i : Nat} {a b : DClient} (p : DClient → Int) (h : l[i]? = some a) :
    ((l.set i b).map p).sum = (l.map p).sum - p a + p b := by
  induction l generalizing i with
  | nil => cases h
  | cons x l ih =>
    cases i with
    | zero => cases h; simp; omega
    | succ i =>
      simp only [List.set_cons_succ, List.map_cons, List.sum_cons]
      rw [ih h]; omega

/-- what the calls have added. -/
def Gauge.done (G : Gauge) (s : CDisk) : Int := (s.hist.map G.w).sum - (s.clients.map G.pendOf).sum

/-- the counter's values never exceed what the calls have added. -/
def Gauge.Bounded (G : Gauge) (s : CDisk) : Prop := ∀ v, G.Val s v → -2147483648 ≤ v ∧ v ≤ G.done s

theorem toInt32_le {v : Int} (h : -2147483648 ≤ v) : toInt32 v ≤ v ∧ -2147483648 ≤ toInt32 v := by
  unfold toInt32
  rw [Int.bmod_def]
  split <;> omega

/-- valid calls only. -/
def AllValid (valid : StoreOp → Prop) (s : CDisk) : Prop := ∀ op ∈ s.hist, valid op

theorem bounded_step {G : Gauge} {valid : StoreOp → Prop} (hG : G.Good valid) {s s' : CDisk} {a : Act} (hk : Ok s) (hf : FlushOk s) (hb : G.Bounded s) (hv : AllValid valid s') (gv : GoValues s'.hist)
    (hs : Step s a s') : G.Bounded s' := by
  have old : ∀ {i : Nat} {cl : DClient} {c : DCur}, s.clients[i]? = some cl → cl.cur = some c → CurOk s.begun c :=
    fun hi hc => hk.cur _ (List.mem_of_getElem? hi) _ hc
  have vop : ∀ {i : Nat} {cl : DClient} {op : StoreOp} {loc : WLoc}, s.clients[i]? = some cl → cl.cur = some (.write op loc) → valid op ∧ op.field.tf.WF :=
    fun hi hc => ⟨hv _ (hist_mono hs _ (List.mem_append_right _ (old hi hc).1)), gv _ (hist_mono hs _ (List.mem_append_right _ (old hi hc).1))⟩
  have zero := hb 0 (.inl rfl)
  -- a client moves: the rest is unchanged
  have move : ∀ {i : Nat} {cl cl' : DClient} {m : CMem} {mx : Flusher (Int × Int)} {nf : Flusher (GoMap String Int)},
      s.clients[i]? = some cl → s'.clients = s.clients.set i cl' → s'.mem = m → s'.mx = mx → s'.nf = nf → s'.hist = s.hist →
      G.pendOf cl' ≤ G.pendOf cl →
      (∀ v, G.memV m v → ∃ u, G.Val s u ∧ u ≤ v ∧ v ≤ u + (G.pendOf cl - G.pendOf cl')) →
      (∀ v, G.ext mx nf v → ∃ u, G.Val s u ∧ u ≤ v ∧ v ≤ u + (G.pendOf cl - G.pendOf cl')) →
      (∀ op loc v, cl'.cur = some (.write op loc) → G.heldV op loc v → ∃ u, G.Val s u ∧ u ≤ v ∧ v ≤ u + (G.pendOf cl - G.pendOf cl')) → G.Bounded s' := by
    intro i cl cl' m mx nf hi e1 e2 e3 e4 e5 hp h1 h2 h3 v hv
    have hd : G.done s' = G.done s + (G.pendOf cl - G.pendOf cl') := by
      unfold Gauge.done; rw [e1, e5, sum_set _ hi]; omega
    have fin : (∃ u, G.Val s u ∧ u ≤ v ∧ v ≤ u + (G.pendOf cl - G.pendOf cl')) → -2147483648 ≤ v ∧ v ≤ G.done s' := by
      rintro ⟨u, hu, hl, hr⟩
      have := hb u hu
      rw [hd]; omega
    rcases hv with rfl | hv | ⟨c, hc, op, loc, e, hh⟩ | hv
    · rw [hd]; omega
    · rw [e2] at hv; exact fin (h1 v hv)
    · rw [e1] at hc
      rcases List.mem_or_eq_of_mem_set hc with hc | rfl
      · exact fin ⟨v, .inr (.inr (.inl ⟨c, hc, op, loc, e, hh⟩)), by omega, by omega⟩
      · exact fin (h3 op loc v e hh)
    · rw [e3, e4] at hv; exact fin (h2 v hv)
  -- only the writers move
  have writers : s'.clients = s.clients → s'.mem = s.mem → s'.hist = s.hist → (∀ v, G.ext s'.mx s'.nf v → ∃ u, G.ext s.mx s.nf u ∧ (v = u ∨ v = toInt32 u)) → G.Bounded s' := by
    intro e1 e2 e3 h1 v hv
    have hd : G.done s' = G.done s := by unfold Gauge.done; rw [e1, e3]
    rw [hd]
    rcases hv with rfl | hv | hv | hv
    · exact zero
    · exact hb v (.inr (.inl (e2 ▸ hv)))
    · exact hb v (.inr (.inr (.inl (e1 ▸ hv))))
    · obtain ⟨u, hu, rfl | rfl⟩ := h1 v hv
      · exact hb v (.inr (.inr (.inr hu)))
      · have := hb u (.inr (.inr (.inr hu)))
        have := toInt32_le this.1
        omega
  have sumpos : 0 ≤ (s.clients.map G.pendOf).sum := by
    apply List.sum_nonneg
    intro x hx
    obtain ⟨cl, hcl, rfl⟩ := List.mem_map.1 hx
    unfold Gauge.pendOf
    split
    · rename_i op loc hc
      have := hk.cur cl hcl _ hc
      exact hG.pos _ _ (hv _ (hist_mono hs _ (List.mem_append_right _ this.1)))
    · exact Int.le_refl 0
  have stopped : ∀ ix, s' = s.stop ix → G.Bounded s' := by
    rintro ix rfl v hv
    have hd : G.done s ≤ G.done (s.stop ix) := by unfold Gauge.done hist; simp [stop]; omega
    rcases hv with rfl | hv | ⟨c, hc, -⟩ | hv
    · exact ⟨zero.1, Int.le_trans zero.2 hd⟩
    · rw [hG.init v hv]; exact ⟨zero.1, Int.le_trans zero.2 hd⟩
    · cases hc
    · have := hb v (.inr (.inr (.inr (hG.killed _ _ _ hv))))
      exact ⟨this.1, Int.le_trans this.2 hd⟩
  have sameM : ∀ {d : Int}, 0 ≤ d → ∀ v, G.memV s.mem v → ∃ u, G.Val s u ∧ u ≤ v ∧ v ≤ u + d := fun hd v h => ⟨v, .inr (.inl h), Int.le_refl _, by omega⟩
  have sameE : ∀ {d : Int}, 0 ≤ d → ∀ v, G.ext s.mx s.nf v → ∃ u, G.Val s u ∧ u ≤ v ∧ v ≤ u + d := fun hd v h => ⟨v, .inr (.inr (.inr h)), Int.le_refl _, by omega⟩
  have docM : ∀ {d : Int} {dc : Ref String → GoMap String Field} {n : Nat}, 0 ≤ d → ∀ v, G.memV { s.mem with docCells := dc, next := n } v → ∃ u, G.Val s u ∧ u ≤ v ∧ v ≤ u + d :=
    fun hd v h => ⟨v, .inr (.inl (hG.doc _ _ _ _ h)), Int.le_refl _, by omega⟩
  have noHeld : ∀ {op₀ : StoreOp} {loc₀ : WLoc} {cl' : DClient} {d : Int}, cl'.cur = some (.write op₀ loc₀) → (∀ v, ¬ G.heldV op₀ loc₀ v) →
      ∀ op loc v, cl'.cur = some (.write op loc) → G.heldV op loc v → ∃ u, G.Val s u ∧ u ≤ v ∧ v ≤ u + d := by
    intro op₀ loc₀ cl' d e hn op loc v e' hh
    rw [e] at e'; cases e'; exact absurd hh (hn v)
  have noWrite : ∀ {cl' : DClient} {d : Int}, (∀ op loc, cl'.cur ≠ some (.write op loc)) →
      ∀ op loc v, cl'.cur = some (.write op loc) → G.heldV op loc v → ∃ u, G.Val s u ∧ u ≤ v ∧ v ≤ u + d := fun hn op loc v e => absurd e (hn op loc)
  have held : ∀ {op₀ : StoreOp} {loc₀ : WLoc} {cl' : DClient} {d : Int}, 0 ≤ d → cl'.cur = some (.write op₀ loc₀) → (∀ v, G.heldV op₀ loc₀ v → G.Val s v) →
      ∀ op loc v, cl'.cur = some (.write op loc) → G.heldV op loc v → ∃ u, G.Val s u ∧ u ≤ v ∧ v ≤ u + d := by
    intro op₀ loc₀ cl' d hd e hn op loc v e' hh
    rw [e] at e'; cases e'; exact ⟨v, hn v hh, Int.le_refl _, by omega⟩
  have pW : ∀ {cl : DClient} {op : StoreOp} {loc : WLoc}, cl.cur = some (.write op loc) → G.pendOf cl = G.pend op loc := fun e => by unfold Gauge.pendOf; rw [e]
  have pN : ∀ {cl : DClient}, (∀ op loc, cl.cur ≠ some (.write op loc)) → G.pendOf cl = 0 := by
    intro cl e; unfold Gauge.pendOf; split
    · rename_i h; exact absurd h (e _ _)
    · rfl
  have heldVal : ∀ {i : Nat} {cl : DClient} {op : StoreOp} {loc : WLoc} {v : Int}, s.clients[i]? = some cl → cl.cur = some (.write op loc) → G.heldV op loc v → G.Val s v :=
    fun hi hc hh => .inr (.inr (.inl ⟨_, List.mem_of_getElem? hi, _, _, hc, hh⟩))
  have reader : ∀ {i : Nat} {cl cl' : DClient} {dc : Ref String → GoMap String Field} {n : Nat}, s.clients[i]? = some cl → (∀ op loc, cl.cur ≠ some (.write op loc)) → (∀ op loc, cl'.cur ≠ some (.write op loc)) →
      s'.clients = s.clients.set i cl' → s'.mem = { s.mem with docCells := dc, next := n } → s'.mx = s.mx → s'.nf = s.nf → s'.hist = s.hist → G.Bounded s' := by
    intro i cl cl' dc n hi h1 h2 e1 e2 e3 e4 e5
    exact move hi e1 e2 e3 e4 e5 (by rw [pN h1, pN h2]) (docM (by rw [pN h1, pN h2]; decide)) (sameE (by rw [pN h1, pN h2]; decide)) (noWrite h2)
  cases hs with
  | @beginWrite i k cl op rest hu hi hc ht =>
    intro v hv
    have hd : G.done { s with clients := s.clients.set i { todo := rest, cur := some (.write op (start op)) }, begun := s.begun ++ [op] } = G.done s := by
      unfold Gauge.done hist
      simp only [sum_set _ hi]
      rw [pN (cl := cl) (fun _ _ e => by rw [hc] at e; cases e), pW (op := op) (loc := start op) rfl, (hG.start op).1]
      simp only [List.map_append, List.sum_append, List.map_cons, List.map_nil, List.sum_cons, List.sum_nil]; omega
    rw [hd]
    apply hb
    rcases hv with rfl | hv | ⟨c, hcm, o, l, e, hh⟩ | hv
    · exact .inl rfl
    · exact .inr (.inl hv)
    · rcases List.mem_or_eq_of_mem_set hcm with hcm | rfl
      · exact .inr (.inr (.inl ⟨c, hcm, o, l, e, hh⟩))
      · cases e; exact absurd hh ((hG.start op).2 v)
    · exact .inr (.inr (.inr hv))
  | beginRead hu hi hc ht => exact reader hi (fun _ _ e => by rw [hc] at e; cases e) (fun _ _ e => by cases e) rfl rfl rfl rfl rfl
  | @acc i k cl op l m o loc' hu hi hc he hn =>
    obtain ⟨h1, h2, h3⟩ := hG.acc _ _ _ _ _ _ (vop hi hc).1 (old hi hc).2 (vop hi hc).2 he
    rw [hn] at h1 h2 h3
    simp only [Option.map_some, Option.getD_some] at h1 h2
    refine move hi rfl rfl rfl rfl rfl ?_ ?_ (sameE ?_) (held ?_ rfl fun v hh => ?_)
    · rw [pW hc, pW (op := op) (loc := loc') rfl]; exact h1
    · rw [pW hc, pW (op := op) (loc := loc') rfl]
      intro v hv
      rcases h2 v hv with rfl | hv | ⟨n, hn', h4, h5⟩
      · exact ⟨0, .inl rfl, by omega, by omega⟩
      · exact ⟨v, .inr (.inl hv), by omega, by omega⟩
      · exact ⟨n, heldVal hi hc hn', h4, h5⟩
    · rw [pW hc, pW (op := op) (loc := loc') rfl]; omega
    · rw [pW hc, pW (op := op) (loc := loc') rfl]; omega
    · rcases h3 _ rfl v hh with rfl | hv
      · exact .inl rfl
      · exact .inr (.inl hv)
  | @accReturn i k cl op l m o hu hi hc he hn =>
    obtain ⟨h1, h2, h3⟩ := hG.acc _ _ _ _ _ _ (vop hi hc).1 (old hi hc).2 (vop hi hc).2 he
    rw [hn] at h1 h2
    simp only [Option.map_none, Option.getD_none] at h1 h2
    have e0 : G.pendOf { cl with cur := none } = 0 := pN fun _ _ e => by cases e
    refine move hi rfl rfl rfl rfl rfl ?_ ?_ (sameE ?_) (noWrite fun _ _ e => by cases e)
    · rw [pW hc, e0]; exact h1
    · rw [pW hc, e0]
      intro v hv
      rcases h2 v hv with rfl | hv | ⟨n, hn', h4, h5⟩
      · exact ⟨0, .inl rfl, by omega, by omega⟩
      · exact ⟨v, .inr (.inl hv), by omega, by omega⟩
      · exact ⟨n, heldVal hi hc hn', h4, h5⟩
    · rw [pW hc, e0]; omega
  | @msgLen i k cl op hu hi hc =>
    have h0 := fun v => hG.msgLen s.mem op v (vop hi hc).1
    have hp := (h0 0).1
    refine move hi rfl rfl rfl rfl rfl ?_ (sameM ?_) (sameE ?_) (held ?_ rfl fun v hh => .inr (.inl ((h0 v).2 hh)))
    all_goals (rw [pW hc, pW rfl]; omega)
  | @msgSize i k cl op len hu hi hc =>
    have h0 := fun v => hG.msgSize s.mem op len v (vop hi hc).1
    have hp := (h0 0).1
    refine move hi rfl rfl rfl rfl rfl ?_ (sameM ?_) (sameE ?_) (held ?_ rfl fun v hh => ?_)
    case refine_5 => exact ((h0 v).2 hh).elim (fun h => .inr (.inl h)) fun h => heldVal hi hc h
    all_goals (rw [pW hc, pW rfl]; omega)
  | @sendI i k cl op r key ts ix hu hi hc he =>
    have h0 := fun v => hG.sendI op r key ts v (vop hi hc).1
    have hp := (h0 0).1
    refine move hi rfl rfl rfl rfl rfl ?_ (sameM ?_) (sameE ?_) (noHeld rfl fun v => (h0 v).2)
    all_goals (rw [pW hc, pW rfl]; omega)
  | @msgN i k cl op r key ts hu hi hc =>
    have h0 := fun v => hG.msgN s.mem op r key ts v (vop hi hc).1 (old hi hc).2
    have hp := (h0 0).1
    refine move hi rfl rfl rfl rfl rfl ?_ (sameM ?_) (sameE ?_) (held ?_ rfl fun v hh => ?_)
    case refine_5 => exact ((h0 v).2 hh).elim (fun h => .inl h) fun h => .inr (.inl h)
    all_goals (rw [pW hc, pW rfl]; omega)
  | @docHit i k cl op r hu hi hc hr =>
    have h0 := fun v => hG.docSet op r v (vop hi hc).1
    have hp := (h0 0).1
    refine move hi rfl rfl rfl rfl rfl ?_ (sameM ?_) (sameE ?_) (noHeld rfl fun v => (h0 v).2)
    all_goals (rw [pW hc, pW rfl]; omega)
  | @docMiss i k cl op hu hi hc hr =>
    have h0 := fun v => hG.docSet op ⟨op.doc, s.mem.next⟩ v (vop hi hc).1
    have hp := (h0 0).1
    refine move hi rfl rfl rfl rfl rfl ?_ (docM ?_) (sameE ?_) (noHeld rfl fun v => (h0 v).2)
    all_goals (rw [pW hc, pW rfl]; omega)
  | @docSet i k cl op r hu hi hc =>
    have h0 := fun v => hG.docPut op r v (vop hi hc).1
    have hp := (h0 0).1
    refine move hi rfl rfl rfl rfl rfl ?_ (docM (n := s.mem.next) ?_) (sameE ?_) (noHeld rfl fun v => (h0 v).2)
    all_goals (rw [pW hc, pW rfl]; omega)
  | @docPut i k cl op r c hu hi hc he =>
    have h0 := fun v => hG.sendD op r v (vop hi hc).1
    have hp := (h0 0).1
    refine move hi rfl rfl rfl rfl rfl ?_ (sameM ?_) (sameE ?_) (noHeld rfl fun v => (h0 v).2)
    all_goals (rw [pW hc, pW rfl]; omega)
  | readEnd hu hi hc => exact reader hi (fun _ _ e => by rw [hc] at e; cases e) (fun _ _ e => by cases e) rfl rfl rfl rfl rfl
  | readHit hu hi hc hr => exact reader hi (fun _ _ e => by rw [hc] at e; cases e) (fun _ _ e => by cases e) rfl rfl rfl rfl rfl
  | readMiss hu hi hc hr => exact reader hi (fun _ _ e => by rw [hc] at e; cases e) (fun _ _ e => by cases e) rfl rfl rfl rfl rfl
  | readField hu hi hc => exact reader hi (fun _ _ e => by rw [hc] at e; cases e) (fun _ _ e => by cases e) rfl rfl rfl rfl rfl
  | readAbsent hu hi hc hl => exact reader hi (fun _ _ e => by rw [hc] at e; cases e) (fun _ _ e => by cases e) rfl rfl rfl rfl rfl
  | readLoad hu hi hc hl hb => exact reader hi (fun _ _ e => by rw [hc] at e; cases e) (fun _ _ e => by cases e) rfl rfl rfl rfl rfl
  | readPut hu hi hc he => exact reader hi (fun _ _ e => by rw [hc] at e; cases e) (fun _ _ e => by cases e) rfl rfl rfl rfl rfl
  | @recvM i cl op size len mx hi hc he =>
    have h0 := fun v => hG.recvM s.mx mx s.nf op size len v (vop hi hc).1 he
    have hp := (h0 0).1
    have hd : 0 ≤ G.pendOf cl - G.pendOf { cl with cur := some (.write op (.acc .idxLook)) } := by rw [pW hc, pW rfl]; omega
    refine move hi rfl rfl rfl rfl rfl (by omega) (sameM hd) (fun v hv => ⟨v, ?_, Int.le_refl _, by omega⟩) (noHeld rfl fun v => (h0 v).2.1)
    exact ((h0 v).2.2 hv).elim (fun h => .inr (.inr (.inr h))) fun h => heldVal hi hc h
  | @recvN i cl op r key n ts nf hi hc he =>
    have h0 := fun v => hG.recvN s.mx s.nf nf op r key n ts v (vop hi hc).1 he
    have hp := (h0 0).1
    have hd : 0 ≤ G.pendOf cl - G.pendOf { cl with cur := some (.write op (.acc (.term r ts))) } := by rw [pW hc, pW rfl]; omega
    refine move hi rfl rfl rfl rfl rfl (by omega) (sameM hd) (fun v hv => ⟨v, ?_, Int.le_refl _, by omega⟩) (noHeld rfl fun v => (h0 v).2.1)
    exact ((h0 v).2.2 hv).elim (fun h => .inr (.inr (.inr h))) fun h => heldVal hi hc h
  | @recvD i cl op r fl hi hc he =>
    have e0 : G.pendOf { cl with cur := none } = 0 := pN fun _ _ e => by cases e
    have hp := hG.pos op (.sendD r) (vop hi hc).1
    refine move hi rfl rfl rfl rfl rfl ?_ (sameM ?_) (sameE ?_) (noWrite fun _ _ e => by cases e)
    all_goals (rw [pW hc, e0]; omega)
  | ix hb hu he hp => exact writers rfl rfl rfl fun v h => ⟨v, h, .inl rfl⟩
  | ixDown hb hu he hp => exact stopped _ rfl
  | tickM hu he =>
    obtain ⟨-, -, e⟩ := Flusher.tick_some he
    exact writers rfl rfl rfl fun v h => ⟨v, hG.same _ _ _ _ v (by rw [e]) (by rw [e]) rfl rfl h, .inl rfl⟩
  | tickN hu he =>
    obtain ⟨-, -, e⟩ := Flusher.tick_some he
    exact writers rfl rfl rfl fun v h => ⟨v, hG.same _ _ _ _ v rfl rfl (by rw [e]) (by rw [e]) h, .inl rfl⟩
  | tickD hu he => exact writers rfl rfl rfl fun v h => ⟨v, h, .inl rfl⟩
  | stepM he => exact writers rfl rfl rfl fun v h => hG.stepM _ _ _ v (step_spec hf.fm he).2 h
  | stepN he => exact writers rfl rfl rfl fun v h => hG.stepN _ _ _ v hf.wn (step_spec hf.fn he).2 h
  | stepD he => exact writers rfl rfl rfl fun v h => ⟨v, h, .inl rfl⟩
  | crash he => exact stopped _ rfl
  | open_ he => exact writers rfl rfl rfl fun v h => ⟨v, h, .inl rfl⟩
  | @openRest n progs size length nft hp hu hm hn =>
    intro v hv
    have hd : G.done { s with up := true, mem := CMem.loaded s.ix.mem size length nft, cache := LRU.new n, clients := progs.map fun p => { todo := p } } = G.done s := by
      unfold Gauge.done hist
      simp only [(hk.off hu).clients, List.map_nil, List.sum_nil, List.map_map]
      have : (List.map (G.pendOf ∘ fun p : List DOp => ({ todo := p } : DClient)) progs).sum = 0 := by
        induction progs with
        | nil => rfl
        | cons p ps ih => simp [Gauge.pendOf, Function.comp_def]
      rw [this]
    rw [hd]
    rcases hv with rfl | hv | ⟨c, hc, op, loc, e, -⟩ | hv
    · exact zero
    · rcases hG.load s hf _ _ _ v hm hn hv with rfl | h
      · exact zero
      · exact hb v (.inr (.inr (.inr h)))
    · obtain ⟨p, -, rfl⟩ := List.mem_map.1 hc
      cases e
    · exact hb v (.inr (.inr (.inr hv)))

/-- no counter is more than what the calls have added. -/
structure Counted (s : CDisk) : Prop where
  flush : FlushOk s
  bound : ∀ (G : Gauge) (valid : StoreOp → Prop), G.Good valid → AllValid valid s → GoValues s.hist → G.Bounded s

theorem counted_init : Counted {} := by
  refine ⟨flushOk_init, fun G valid hG _ _ v hv => ?_⟩
  have : v = 0 := by
    rcases hv with h | h | ⟨c, hc, -⟩ | h
    · exact h
    · exact hG.init v h
    · cases hc
    · exact absurd h (hG.ext0 v)
  rw [this]; exact ⟨by decide, by simp [Gauge.done, hist]⟩

theorem counted_step {s s' : CDisk} {a : Act} (hk : Ok s) (h : Counted s) (hs : Step s a s') : Counted s' :=
  ⟨flushOk_step h.flush hs, fun G valid hG hv gv => bounded_step hG hk h.flush (h.bound G valid hG (fun op ho => hv op (hist_mono hs op ho)) fun op ho => gv op (hist_mono hs op ho)) hv gv hs⟩

/-- what changes no counter. -/
theorem Counted.same {s s' : CDisk} (h : Counted s) (hcl : s'.clients = s.clients) (hh : s'.hist = s.hist) (hmx : s'.mx = s.mx) (hnf : s'.nf = s.nf)
    (hm : ∃ dc n, s'.mem = { s.mem with docCells := dc, next := n }) : Counted s' := by
  obtain ⟨dc, n, hm⟩ := hm
  refine ⟨⟨hmx ▸ h.flush.fm, hnf ▸ h.flush.fn, hnf ▸ h.flush.wn, hmx ▸ h.flush.sm, hnf ▸ h.flush.sn⟩, fun G valid hG hv gv v hval => ?_⟩
  have hd : G.done s' = G.done s := by unfold Gauge.done; rw [hh, hcl]
  rw [hd]
  refine h.bound G valid hG (fun op ho => hv op (by rw [hh]; exact ho)) (fun op ho => gv op (by rw [hh]; exact ho)) v ?_
  rcases hval with h1 | h1 | h1 | h1
  · exact .inl h1
  · rw [hm] at h1; exact .inr (.inl (hG.doc _ _ _ _ h1))
  · rw [hcl] at h1; exact .inr (.inr (.inl h1))
  · rw [hmx, hnf] at h1; exact .inr (.inr (.inr h1))

theorem Counted.le {s : CDisk} (hk : Ok s) (h : Counted s) {G : Gauge} {valid : StoreOp → Prop} (hG : G.Good valid) (hv : AllValid valid s) (gv : GoValues s.hist) :
    ∀ v, G.Val s v → v ≤ (s.hist.map G.w).sum := by
  intro v hval
  have h1 := (h.bound G valid hG hv gv v hval).2
  have h2 : 0 ≤ (s.clients.map G.pendOf).sum := by
    apply List.sum_nonneg
    intro x hx
    obtain ⟨cl, hcl, rfl⟩ := List.mem_map.1 hx
    unfold Gauge.pendOf
    split
    · rename_i op loc hc
      exact hG.pos _ _ (hv _ (List.mem_append_right _ (hk.cur cl hcl _ hc).1))
    · exact Int.le_refl 0
  unfold Gauge.done at h1
  omega

theorem counted_run {as : List Act} {s : CDisk} (h : run {} as = some s) : Counted s :=
  (run_inv (P := fun s => Ok s ∧ Counted s) (fun _ _ _ hp hs => ⟨ok_step hp.1 hs, counted_step hp.1 hp.2 hs⟩) ⟨ok_init, counted_init⟩ h).2

/-! ### the three counters -/

/-- a client that still has to write the size. -/
def beforeSizeW : WLoc → Bool
  | .acc .sizeRead | .acc (.sizeWrite _) => true
  | _ => false

/-- a client that still has to write the length. -/
def beforeLenW : WLoc → Bool
  | .acc .sizeRead | .acc (.sizeWrite _) | .acc .lenRead | .acc (.lenWrite _) => true
  | _ => false

/-- a client that still has to count the term `t`. -/
def beforeTermW (t : String) : WLoc → Prop
  | .acc l => Conc.beforeTerm t l
  | .msgN _ _ ts | .sendN _ _ _ ts => t ∈ ts
  | .docGet | .docSet _ | .docPut _ | .sendD _ => False
  | _ => True

instance (t : String) : (loc : WLoc) → Decidable (beforeTermW t loc)
  | .acc l => inferInstanceAs (Decidable (Conc.beforeTerm t l))
  | .msgN _ _ ts | .sendN _ _ _ ts => inferInstanceAs (Decidable (t ∈ ts))
  | .docGet | .docSet _ | .docPut _ | .sendD _ => inferInstanceAs (Decidable False)
  | .msgLen | .msgSize _ | .sendM .. | .sendI .. => inferInstanceAs (Decidable True)

/-- the size of a field. -/
def sizeGauge (f : String) : Gauge where
  memV m v := v = m.fieldSize.getD f 0
  heldV op loc v := op.field.name = f ∧ (loc = .acc (.sizeWrite v) ∨ ∃ len, loc = .sendM v len)
  ext mx _ v := (∃ l, mx.buf.get? f = some (v, l)) ∨ ∃ c y, mx.cur f = some c ∧ FileM c f v y
  pend op loc := if op.isSave = true ∧ op.field.name = f ∧ beforeSizeW loc = true then 1 else 0
  w op := if op.isSave = true ∧ op.field.name = f then 1 else 0

/-- the length of a field. -/
def lenGauge (f : String) : Gauge where
  memV m v := v = m.fieldLength.getD f 0
  heldV op loc v := op.field.name = f ∧ (loc = .acc (.lenWrite v) ∨ loc = .msgSize v ∨ ∃ size, loc = .sendM size v)
  ext mx _ v := (∃ n, mx.buf.get? f = some (n, v)) ∨ ∃ c x, mx.cur f = some c ∧ FileM c f x v
  pend op loc := if op.isSave = true ∧ op.field.name = f ∧ beforeLenW loc = true then op.field.length else 0
  w op := if op.isSave = true ∧ op.field.name = f then op.field.length else 0

/-- the document frequency of a term of a field. -/
def dfGauge (f t : String) : Gauge where
  memV m v := ∃ r, r.tag = f ∧ v = (m.nftCells r).getD t 0
  heldV op loc v := op.field.name = f ∧ ((∃ r ts, loc = .acc (.termWrite r t v ts)) ∨ ∃ r ts, loc = .sendN r t v ts)
  ext _ nf v := (∃ m, nf.buf.get? f = some m ∧ m.get? t = some v) ∨ ∃ b m, nf.cur f = some (.full b) ∧ deserializeNumberFieldTerm b = some m ∧ m.get? t = some v
  pend op loc := if op.isSave = true ∧ op.field.name = f ∧ t ∈ op.field.tf.keys ∧ beforeTermW t loc then 1 else 0
  w op := if op.isSave = true ∧ op.field.name = f ∧ t ∈ op.field.tf.keys then 1 else 0

theorem cur_eq {B : Type} {x y : Flusher B} (h : x.files = y.files) (f : String) : x.cur f = y.cur f := by simp [Flusher.cur, Flusher.file, h]

/-- what a step of a metrics writer can change for one field. -/
theorem stepM_ext {mx mx' : Flusher (Int × Int)} (h : Change serM mx mx') (f : String) :
    (∀ v, mx'.buf.get? f = some v → mx.buf.get? f = some v) ∧
    ∀ c, mx'.cur f = some c → mx.cur f = some c ∨ ∃ v, mx.buf.get? f = some v ∧ FileM c f (toInt32 v.1) (toInt32 v.2) := by
  cases h with
  | same hb hcc => exact ⟨fun v => by rw [hb]; exact id, fun c hc => .inl (by rwa [hcc] at hc)⟩
  | away k v hv hb hk hcc =>
    refine ⟨fun v => by rw [hb]; exact id, fun c hc => .inl ?_⟩
    by_cases e : f = k
    · subst e; rw [hk] at hc; cases hc
    · rwa [hcc f e] at hc
  | install k v b hv hs hb hk hcc =>
    refine ⟨fun v => by rw [hb]; exact id, fun c hc => ?_⟩
    by_cases e : f = k
    · subst e; rw [hk] at hc; cases hc; exact .inr ⟨v, hv, serM_file hs⟩
    · rw [hcc f e] at hc; exact .inl hc
  | forget k v b hv hs hk hb hcc =>
    refine ⟨fun v => ?_, fun c hc => .inl (by rwa [hcc] at hc)⟩
    rw [hb, GoMap.get?_del]; split
    · intro h; cases h
    · exact id

theorem stepN_ext {nf nf' : Flusher (GoMap String Int)} (wn : ∀ f m, nf.buf.get? f = some m → m.WF) (h : Change serN nf nf') (f : String) :
    (∀ v, nf'.buf.get? f = some v → nf.buf.get? f = some v) ∧
    ∀ b, nf'.cur f = some (.full b) → nf.cur f = some (.full b) ∨ ∃ v, nf.buf.get? f = some v ∧ deserializeNumberFieldTerm b = some (v.map fun p => (p.1, toInt32 p.2)) := by
  cases h with
  | same hb hcc => exact ⟨fun v => by rw [hb]; exact id, fun c hc => .inl (by rwa [hcc] at hc)⟩
  | away k v hv hb hk hcc =>
    refine ⟨fun v => by rw [hb]; exact id, fun c hc => .inl ?_⟩
    by_cases e : f = k
    · subst e; rw [hk] at hc; cases hc
    · rwa [hcc f e] at hc
  | install k v b hv hs hb hk hcc =>
    refine ⟨fun v => by rw [hb]; exact id, fun c hc => ?_⟩
    by_cases e : f = k
    · subst e; rw [hk] at hc; cases hc; exact .inr ⟨v, hv, serN_file (wn _ _ hv) hs⟩
    · rw [hcc f e] at hc; exact .inl hc
  | forget k v b hv hs hk hb hcc =>
    refine ⟨fun v => ?_, fun c hc => .inl (by rwa [hcc] at hc)⟩
    rw [hb, GoMap.get?_del]; split
    · intro h; cases h
    · exact id

theorem recv_get {B : Type} {x x' : Flusher B} {k f : String} {g : Option B → B} (h : x.recv k g = some x') :
    x'.buf.get? f = (if k = f then some (g (x.buf.get? k)) else x.buf.get? f) ∧ x'.cur f = x.cur f := by
  have e := (Flusher.recv_some h).2
  rw [e]
  exact ⟨GoMap.get?_set .., rfl⟩

theorem sizeGauge_good (f : String) : (sizeGauge f).Good fun _ => True where
  pos op loc _ := by simp only [sizeGauge]; split <;> decide
  init v h := h
  start op := by cases op <;> simp [sizeGauge, CDisk.start, beforeSizeW, StoreOp.isSave]
  doc m dc n v h := h
  acc m m' op k l o _ hl wf he := by
    simp only [sizeGauge]
    by_cases hf : op.field.name = f
    · cases Conc.exec_eff he with
      | sizeRead =>
        refine ⟨by simp [cont, beforeSizeW], fun v h => .inr (.inl h), ?_⟩
        rintro l h n ⟨-, h' | ⟨_, h'⟩⟩
        · simp only [cont, Option.map_some, Option.mem_def, Option.some.injEq] at h
          rw [← h] at h'; cases h'; right; rw [hf]
        · simp only [cont, Option.map_some, Option.mem_def, Option.some.injEq] at h
          rw [← h] at h'; cases h'
      | sizeWrite n =>
        have hs : op.isSave = true := hl.2
        refine ⟨by simp [cont, beforeSizeW]; split <;> decide, ?_, by simp [cont]⟩
        rintro v rfl
        refine .inr (.inr ⟨n, ⟨hf, .inl rfl⟩, ?_⟩)
        rw [hf]; simp [beforeSizeW, cont, GoMap.getD_set, hs, hf]
      | postEnd r => cases op <;> simp [cont, beforeSizeW, CMem.afterPosts]
      | docSet r => exact hl.2.elim
      | docNew => exact hl.2.elim
      | _ => simp [cont, beforeSizeW]
    · have hsame : m'.fieldSize.getD f 0 = m.fieldSize.getD f 0 := by
        cases Conc.exec_eff he with
        | sizeWrite n => simp only [GoMap.getD_set, if_neg hf]
        | _ => rfl
      refine ⟨by cases cont l o <;> simp [hf], fun v hv => .inr (.inl (hv.trans hsame)), ?_⟩
      rintro l - n ⟨h, -⟩; exact absurd h hf
  msgLen m op v _ := by simp [sizeGauge, beforeSizeW]
  msgSize m op len v _ := by
    refine ⟨by simp [sizeGauge, beforeSizeW], ?_⟩
    rintro ⟨hf, h | ⟨_, h⟩⟩ <;> cases h
    left; rw [hf]; rfl
  sendI op r key ts v _ := by simp [sizeGauge, beforeSizeW]
  msgN m op r key ts v _ _ := by simp [sizeGauge, beforeSizeW]
  docSet op r v _ := by simp [sizeGauge, beforeSizeW]
  docPut op r v _ := by simp [sizeGauge, beforeSizeW]
  sendD op r v _ := by simp [sizeGauge, beforeSizeW]
  recvM mx mx' nf op size len v _ h := by
    refine ⟨by simp [sizeGauge, beforeSizeW], by simp [sizeGauge], ?_⟩
    have e := recv_get (f := f) h
    rintro (⟨l, h1⟩ | ⟨c, y, h1, h2⟩)
    · rw [e.1] at h1
      split at h1
      · rename_i hf; cases h1; exact .inr ⟨hf, .inr ⟨_, rfl⟩⟩
      · exact .inl (.inl ⟨l, h1⟩)
    · rw [e.2] at h1; exact .inl (.inr ⟨c, y, h1, h2⟩)
  recvN mx nf nf' op r key n ts v _ h := ⟨by simp [sizeGauge, beforeSizeW], by simp [sizeGauge], fun h => .inl h⟩
  ext0 v h := by rcases h with ⟨_, h⟩ | ⟨_, _, h, -⟩ <;> cases h
  same mx mx' nf nf' v h1 h2 h3 h4 h := by simpa only [sizeGauge, h1, cur_eq h2] using h
  killed mx nf v h := by
    rcases h with ⟨_, h⟩ | h
    · cases h
    · exact .inr h
  stepM mx mx' nf v hc h := by
    obtain ⟨h1, h2⟩ := stepM_ext hc f
    rcases h with ⟨l, h⟩ | ⟨c, y, h, hf⟩
    · exact ⟨v, .inl ⟨l, h1 _ h⟩, .inl rfl⟩
    · rcases h2 c h with h | ⟨u, hu, hf'⟩
      · exact ⟨v, .inr ⟨c, y, h, hf⟩, .inl rfl⟩
      · exact ⟨u.1, .inl ⟨u.2, hu⟩, .inr (fileM_unique hf hf').1⟩
  stepN mx nf nf' v _ hc h := ⟨v, h, .inl rfl⟩
  load s hf size length nft v hm hn h := by
    obtain ⟨h1, h2⟩ := loadM_of hf hm f
    have h : v = size.getD f 0 := h
    subst h
    unfold GoMap.getD
    cases hc : s.mx.cur f with
    | none => left; rw [(h2 hc).1]; rfl
    | some c =>
      obtain ⟨x, y, hxy, hx, -⟩ := h1 c hc
      rw [hx]; exact .inr (.inr ⟨c, y, hc, hxy⟩)

theorem lenGauge_good (f : String) : (lenGauge f).Good fun op => 0 ≤ op.field.length where
  pos op loc hv := by simp only [lenGauge]; split <;> omega
  init v h := h
  start op := by cases op <;> simp [lenGauge, CDisk.start, beforeLenW, StoreOp.isSave]
  doc m dc n v h := h
  acc m m' op k l o hv hl wf he := by
    simp only [lenGauge]
    by_cases hf : op.field.name = f
    · cases Conc.exec_eff he with
      | lenRead =>
        refine ⟨by simp [cont, beforeLenW], fun v h => .inr (.inl h), ?_⟩
        rintro l h n ⟨-, h'⟩
        simp only [cont, Option.map_some, Option.mem_def, Option.some.injEq] at h
        rw [← h] at h'
        rcases h' with h' | h' | ⟨_, h'⟩ <;> cases h'
        right; rw [hf]
      | lenWrite n =>
        have hs : op.isSave = true := hl.2
        refine ⟨by simp [cont, beforeLenW, hs, hf, hv], ?_, by simp [cont]⟩
        rintro v rfl
        refine .inr (.inr ⟨n, ⟨hf, .inl rfl⟩, ?_⟩)
        rw [hf]; simp [beforeLenW, cont, GoMap.getD_set, hs, hf, hv]
      | postEnd r => cases op <;> simp [cont, beforeLenW, CMem.afterPosts]
      | docSet r => exact hl.2.elim
      | docNew => exact hl.2.elim
      | _ => simp [cont, beforeLenW]
    · have hsame : m'.fieldLength.getD f 0 = m.fieldLength.getD f 0 := by
        cases Conc.exec_eff he with
        | lenWrite n => simp only [GoMap.getD_set, if_neg hf]
        | _ => rfl
      refine ⟨by cases cont l o <;> simp [hf], fun v hv => .inr (.inl (hv.trans hsame)), ?_⟩
      rintro l - n ⟨h, -⟩; exact absurd h hf
  msgLen m op v _ := by
    refine ⟨by simp [lenGauge, beforeLenW], ?_⟩
    rintro ⟨hf, h | h | ⟨_, h⟩⟩ <;> cases h
    show _ = _
    rw [hf]
  msgSize m op len v _ := by
    refine ⟨by simp [lenGauge, beforeLenW], ?_⟩
    rintro ⟨hf, h | h | ⟨_, h⟩⟩ <;> cases h
    exact .inr ⟨hf, .inr (.inl rfl)⟩
  sendI op r key ts v _ := by simp [lenGauge, beforeLenW]
  msgN m op r key ts v _ _ := by simp [lenGauge, beforeLenW]
  docSet op r v _ := by simp [lenGauge, beforeLenW]
  docPut op r v _ := by simp [lenGauge, beforeLenW]
  sendD op r v _ := by simp [lenGauge, beforeLenW]
  recvM mx mx' nf op size len v _ h := by
    refine ⟨by simp [lenGauge, beforeLenW], by simp [lenGauge], ?_⟩
    have e := recv_get (f := f) h
    rintro (⟨l, h1⟩ | ⟨c, y, h1, h2⟩)
    · rw [e.1] at h1
      split at h1
      · rename_i hf; cases h1; exact .inr ⟨hf, .inr (.inr ⟨_, rfl⟩)⟩
      · exact .inl (.inl ⟨l, h1⟩)
    · rw [e.2] at h1; exact .inl (.inr ⟨c, y, h1, h2⟩)
  recvN mx nf nf' op r key n ts v _ h := ⟨by simp [lenGauge, beforeLenW], by simp [lenGauge], fun h => .inl h⟩
  ext0 v h := by rcases h with ⟨_, h⟩ | ⟨_, _, h, -⟩ <;> cases h
  same mx mx' nf nf' v h1 h2 h3 h4 h := by simpa only [lenGauge, h1, cur_eq h2] using h
  killed mx nf v h := by
    rcases h with ⟨_, h⟩ | h
    · cases h
    · exact .inr h
  stepM mx mx' nf v hc h := by
    obtain ⟨h1, h2⟩ := stepM_ext hc f
    rcases h with ⟨l, h⟩ | ⟨c, y, h, hf⟩
    · exact ⟨v, .inl ⟨l, h1 _ h⟩, .inl rfl⟩
    · rcases h2 c h with h | ⟨u, hu, hf'⟩
      · exact ⟨v, .inr ⟨c, y, h, hf⟩, .inl rfl⟩
      · exact ⟨u.2, .inl ⟨u.1, hu⟩, .inr (fileM_unique hf hf').2⟩
  stepN mx nf nf' v _ hc h := ⟨v, h, .inl rfl⟩
  load s hf size length nft v hm hn h := by
    obtain ⟨h1, h2⟩ := loadM_of hf hm f
    have h : v = length.getD f 0 := h
    subst h
    unfold GoMap.getD
    cases hc : s.mx.cur f with
    | none => left; rw [(h2 hc).2]; rfl
    | some c =>
      obtain ⟨x, y, hxy, -, hy⟩ := h1 c hc
      rw [hy]; exact .inr (.inr ⟨c, x, hc, hxy⟩)

theorem dfGauge_good (f t : String) : (dfGauge f t).Good fun _ => True where
  pos op loc _ := by simp only [dfGauge]; split <;> decide
  init v h := by obtain ⟨r, -, h⟩ := h; exact h
  start op := by cases op <;> simp [dfGauge, CDisk.start, beforeTermW, StoreOp.isSave, Conc.beforeTerm]
  doc m dc n v h := h
  acc m m' op k l o _ hl wf he := by
    simp only [dfGauge]
    by_cases hf : op.field.name = f
    · cases Conc.exec_eff he with
      | postEnd r =>
        refine ⟨by cases op <;> simp [cont, beforeTermW, Conc.beforeTerm, CMem.afterPosts, StoreOp.isSave], fun v hv => .inr (.inl hv), ?_⟩
        cases op <;> simp [cont, CMem.afterPosts]
      | nftMissing h =>
        refine ⟨by simp [cont, beforeTermW, Conc.beforeTerm], ?_, by simp [cont]⟩
        rintro v ⟨r, hr, rfl⟩
        simp only [Ref.upd]
        split
        · left; rfl
        · right; left; exact ⟨r, hr, rfl⟩
      | termRead r ts key ts' hp =>
        refine ⟨?_, fun v hv => .inr (.inl hv), ?_⟩
        · simp only [cont, Option.map_some, Option.getD_some, beforeTermW, Conc.beforeTerm]
          have : t ∈ ts ↔ key = t ∨ t ∈ ts' := by rw [← hp.mem_iff]; simp [eq_comm]
          simp only [this]; exact Int.le_refl _
        · rintro l h n ⟨-, h'⟩
          simp only [cont, Option.map_some, Option.mem_def, Option.some.injEq] at h
          rw [← h] at h'
          rcases h' with ⟨_, _, h'⟩ | ⟨_, _, h'⟩ <;> cases h'
          exact .inr ⟨r, by rw [hl.1.2.1, hf], rfl⟩
      | termWrite r key n ts =>
        by_cases hk : key = t
        · subst hk
          have hn : key ∉ ts := (List.nodup_cons.1 (hl.1.2.2.2 wf)).1
          have hm : key ∈ op.field.tf.keys := hl.1.2.2.1 List.mem_cons_self
          refine ⟨by simp only [cont, Option.map_some, Option.getD_some, beforeTermW, Conc.beforeTerm, hn, and_false, if_false]; split <;> decide, ?_, by simp [cont]⟩
          rintro v ⟨r', hr, rfl⟩
          simp only [Ref.upd]
          split
          · right; right
            exact ⟨n, ⟨hf, .inl ⟨r, ts, rfl⟩⟩, by simp [GoMap.getD_set], by simp [cont, beforeTermW, GoMap.getD_set, hf, hl.1.1, hm, Conc.beforeTerm, hn]⟩
          · right; left; exact ⟨r', hr, rfl⟩
        · refine ⟨by simp only [cont, Option.map_some, Option.getD_some, beforeTermW, Conc.beforeTerm, hk, false_or]; exact Int.le_refl _, ?_, by simp [cont]⟩
          rintro v ⟨r', hr, rfl⟩
          right; left
          refine ⟨r', hr, ?_⟩
          simp only [Ref.upd]
          split
          · rename_i e; rw [GoMap.getD_set, if_neg hk, e]
          · rfl
      | nftStore r => refine ⟨by simp [cont, beforeTermW, Conc.beforeTerm], fun v hv => .inr (.inl hv), by simp [cont]⟩
      | termEnd r => refine ⟨by simp [cont, beforeTermW, Conc.beforeTerm], fun v hv => .inr (.inl hv), by simp [cont]⟩
      | _ => refine ⟨by simp [cont, beforeTermW, Conc.beforeTerm], fun v hv => .inr (.inl hv), by simp [cont]⟩
    · have hsame : ∀ r, r.tag = f → m'.nftCells r = m.nftCells r := by
        intro r hr
        cases Conc.exec_eff he with
        | nftMissing h => exact Ref.upd_tag _ _ (by rw [hr]; exact Ne.symm hf)
        | termWrite r' key n ts => exact Ref.upd_tag _ _ (by rw [hr, hl.1.2.1]; exact Ne.symm hf)
        | _ => rfl
      refine ⟨by cases cont l o <;> simp [hf], ?_, ?_⟩
      · rintro v ⟨r, hr, rfl⟩
        exact .inr (.inl ⟨r, hr, by rw [hsame r hr]⟩)
      · rintro l - n ⟨h, -⟩; exact absurd h hf
  msgLen m op v _ := by simp [dfGauge, beforeTermW]
  msgSize m op len v _ := by simp [dfGauge, beforeTermW]
  sendI op r key ts v _ := by simp [dfGauge, beforeTermW, Conc.beforeTerm]
  msgN m op r key ts v _ hl := by
    refine ⟨Int.le_refl _, ?_⟩
    rintro ⟨hf, ⟨_, _, h⟩ | ⟨_, _, h⟩⟩ <;> cases h
    exact .inr ⟨r, by rw [hl.2.1, hf], rfl⟩
  docSet op r v _ := by simp [dfGauge, beforeTermW]
  docPut op r v _ := by simp [dfGauge, beforeTermW]
  sendD op r v _ := by simp [dfGauge, beforeTermW]
  recvM mx mx' nf op size len v _ h := ⟨by simp [dfGauge, beforeTermW, Conc.beforeTerm], by simp [dfGauge], fun h => .inl h⟩
  recvN mx nf nf' op r key n ts v _ h := by
    refine ⟨Int.le_refl _, by simp [dfGauge], ?_⟩
    have e := recv_get (f := f) h
    rintro (⟨m, h1, h2⟩ | ⟨b, m, h1, h2⟩)
    · rw [e.1] at h1
      split at h1
      · rename_i hf
        cases h1
        have old : (∃ m, nf.buf.get? f = some m ∧ m.get? t = some v) → (dfGauge f t).ext mx nf v := .inl
        rw [hf] at h2
        cases hb : nf.buf.get? f with
        | none =>
          rw [hb] at h2
          simp only [putN, GoMap.get?_cons] at h2
          split at h2
          · rename_i hk; cases h2; subst hk; exact .inr ⟨hf, .inr ⟨r, ts, rfl⟩⟩
          · cases h2
        | some m =>
          rw [hb] at h2
          simp only [putN, GoMap.get?_set] at h2
          split at h2
          · rename_i hk; cases h2; subst hk; exact .inr ⟨hf, .inr ⟨r, ts, rfl⟩⟩
          · exact .inl (old ⟨m, hb, h2⟩)
      · exact .inl (.inl ⟨m, h1, h2⟩)
    · rw [e.2] at h1; exact .inl (.inr ⟨b, m, h1, h2⟩)
  ext0 v h := by rcases h with ⟨_, h, -⟩ | ⟨_, _, h, -⟩ <;> cases h
  same mx mx' nf nf' v h1 h2 h3 h4 h := by simpa only [dfGauge, h3, cur_eq h4] using h
  killed mx nf v h := by
    rcases h with ⟨_, h, -⟩ | h
    · cases h
    · exact .inr h
  stepM mx mx' nf v hc h := ⟨v, h, .inl rfl⟩
  stepN mx nf nf' v wn hc h := by
    obtain ⟨h1, h2⟩ := stepN_ext wn hc f
    rcases h with ⟨m, h, hm⟩ | ⟨b, m, h, hd, hm⟩
    · exact ⟨v, .inl ⟨m, h1 _ h, hm⟩, .inl rfl⟩
    · rcases h2 b h with h | ⟨u, hu, hd'⟩
      · exact ⟨v, .inr ⟨b, m, h, hd, hm⟩, .inl rfl⟩
      · rw [hd] at hd'; cases hd'
        rw [get?_cut] at hm
        obtain ⟨w, hw, rfl⟩ := Option.map_eq_some_iff.1 hm
        exact ⟨w, .inl ⟨u, hu, hw⟩, .inr rfl⟩
  load s hf size length nft v hm hn h := by
    obtain ⟨h1, h2⟩ := loadN_of hf hn f
    obtain ⟨r, hr, h⟩ := h
    simp only [CMem.loaded] at h
    split at h
    · rw [hr] at h
      cases hg : nft.get? f with
      | none => rw [hg] at h; left; exact h
      | some m =>
        rw [hg] at h
        have h : v = m.getD t 0 := h
        unfold GoMap.getD at h
        cases hv : m.get? t with
        | none => left; rw [h, hv]; rfl
        | some x =>
          rw [hv] at h; subst h
          cases hc : s.nf.cur f with
          | none => rw [h2 hc] at hg; cases hg
          | some c =>
            obtain ⟨b, m', rfl, hd, -⟩ := hf.sn f c hc
            obtain ⟨m'', hd', hg'⟩ := h1 b hc
            rw [hg] at hg'; cases hg'
            exact .inr (.inr ⟨b, m, hc, hd', hv⟩)
    · left; exact h

end CDisk
end Goir
