import Verif.Props.Replicas
import Verif.Props.FolderServerEnds
/-!
# C131: a search returns, whatever the other instances do
-/
namespace Goir
open GoMap Spec Spec.Opening Opening

namespace Replicas
open BDisk Shared

variable {F : Type} [GoFloat F] {root : Path} {z : Bytes → Bytes} {fs0 : FS} {cpus : Nat → Nat}

/-- nothing is written, and a store is given a cache with room for one document at least. -/
def RoomyReads : CDisk.Act → Prop
  | .openRest n progs => 1 ≤ n ∧ OnlyReads (.openRest n progs)
  | _ => True

theorem RoomyReads.reads {a : CDisk.Act} (h : RoomyReads a) : OnlyReads a := by
  cases a <;> first | exact h.2 | trivial

theorem server_mono {allow allow' : CDisk.Act → Prop} (hm : ∀ a, allow a → allow' a) {c : Nat} {v v' : BServer F} (h : BServer.Step z root allow c v v') : BServer.Step z root allow' c v v' := by
  cases h with
  | store a d ha h => exact .store v a d (hm a ha) h
  | arrive query hu => exact .arrive v query hu
  | req i r r' d hr h => exact .req v i r r' d hr h
  | panics i r d hr h => exact .panics v i r d hr h

theorem step_mono {allow allow' : CDisk.Act → Prop} (hm : ∀ a, allow a → allow' a) {s s' : Replicas F} (h : Step z root allow cpus s s') : Step z root allow' cpus s s' := by
  cases h with
  | mk i v v' hi h => exact .mk _ i v v' hi (server_mono hm h)

theorem run_mono {allow allow' : CDisk.Act → Prop} (hm : ∀ a, allow a → allow' a) {t : Replicas F} {ss : List (Replicas F)} (h : Run z root allow cpus t ss) : Run z root allow' cpus t ss := by
  induction h with
  | start => exact .start
  | step s s' before h hs ih => exact .step s s' before ih (step_mono hm hs)

/-- only NewDiskStore's end brings a store up. -/
theorem exec_opens (hz : ∀ d, Gz.Written d (z d)) {act : CDisk.Act} {s d : BDisk} (hc : Calm fs0 root s) (hs : Speaks fs0 root z s) (h : s.exec z root act = some d) (hu : s.d.up = false) (hu' : d.d.up = true) :
    ∃ n progs, act = .openRest n progs ∧ d.d.cache.capacity = n ∧ Conc.Alloc d.d.mem := by
  by_cases h1 : act = .ix .merge
  · exfalso
    subst h1
    simp only [BDisk.exec] at h
    split at h
    · rename_i hg
      have hp : s.d.ix.proc = .opening := by rcases hg with e | e; (rw [hu] at e; cases e); exact e
      obtain ⟨hup, fsI, k1, k2, k3⟩ := hs.opens hp
      have := (merge_inv k1 hz hp hup k2 h).1
      rw [hu'] at this; cases this
    · cases h
  by_cases h2 : act = .open_
  · exfalso
    subst h2
    simp only [BDisk.exec] at h
    split at h
    · cases h; have hu' : s.d.up = true := hu'; rw [hu] at hu'; cases hu'
    · cases h
  by_cases h3 : ∃ n progs, act = .openRest n progs
  · obtain ⟨n, progs, rfl⟩ := h3
    simp only [BDisk.exec] at h
    split at h
    · split at h
      · cases h
        refine ⟨n, progs, rfl, rfl, fun r t sr e => ?_⟩
        simp only [CMem.loaded] at e ⊢
        split at e
        · obtain ⟨x, -, hx⟩ := List.mem_map.1 (GoMap.mem_of_get? e)
          cases hx
          exact Nat.one_pos
        · cases e
      · cases h; rw [kill_down] at hu'; cases hu'
    · cases h
  · exfalso
    rcases exec_same hc h h1 h2 (fun n progs e => h3 ⟨n, progs, e⟩) with e | e
    · rw [e.2] at hu'; cases hu'
    · rw [e.up, hu] at hu'; cases hu'

theorem Lively.seeing {m : CMem} {v : BServer F} {fs' : FS} (hc : Calm fs0 root { v.disk with fs := fs' }) (h : Lively fs0 root m v) : Lively fs0 root m { v with disk := { v.disk with fs := fs' } } :=
  ⟨⟨h.serves.up, hc, h.serves.grown, h.serves.known, h.serves.col⟩, h.room, h.alloc, h.ready⟩

/-- the instances that are up can answer. -/
def Alive (fs0 : FS) (root : Path) (s : Replicas F) : Prop := ∀ (i : Nat) (v : BServer F), s.procs[i]? = some v → v.disk.d.up = true → ∃ m, Lively fs0 root m (s.sees v)

theorem step_alive (hz : ∀ d, Gz.Written d (z d)) (hcpu : ∀ i, 0 < cpus i) {had : String → Prop} {s s' : Replicas F} (h : RInv fs0 root z had s) (ha : Alive fs0 root s) (h' : RInv fs0 root z had s') (hs : Step z root RoomyReads cpus s s') : Alive fs0 root s' := by
  cases hs with
  | mk i v v' hi hst =>
    intro j w hw hu
    have hlt : i < s.procs.length := (List.getElem?_eq_some_iff.1 hi).1
    have hcw := h'.inv.calm j w.disk (get_disks hw)
    by_cases e : j = i
    · subst e
      rw [show (⟨v'.disk.fs, s.procs.set j v'⟩ : Replicas F).procs[j]? = some v' from by show (s.procs.set j v')[j]? = _; rw [List.getElem?_set_self hlt]] at hw
      obtain rfl := Option.some.inj hw
      have hone := server_mono (fun a (h : RoomyReads a) => h.reads) hst
      by_cases hv : v.disk.d.up = true
      · obtain ⟨m, hm⟩ := ha j v hi hv
        exact ⟨m, lively_step (hcpu j) hm ⟨hone, hu⟩⟩
      · have hv : v.disk.d.up = false := by simpa using hv
        have hn := (h.search j v hi).idle hv
        have hn : v.reqs = [] := hn
        cases hst with
        | store a d hal hx =>
          obtain ⟨n, progs, rfl, hcap, hall⟩ := exec_opens hz (h.inv.calm j v.disk (get_disks hi)) (h.speaks j v.disk (get_disks hi)) hx hv hu
          have e : (if d.d.up then (s.sees v).reqs else []) = [] := by
            show (if d.d.up then v.reqs else []) = []
            rw [hn]; split <;> rfl
          refine ⟨d.d.mem, ⟨hu, hcw, Grown.refl _, ?_, ?_⟩, ?_, hall, ?_⟩
          · show ∀ r ∈ (if d.d.up then (s.sees v).reqs else []), _
            rw [e]; exact fun r hr => (by cases hr)
          · show ∀ r ∈ (if d.d.up then (s.sees v).reqs else []), _
            rw [e]; exact fun r hr => (by cases hr)
          · show 1 ≤ d.d.cache.capacity
            rw [hcap]; exact hal.1
          · show ∀ r ∈ (if d.d.up then (s.sees v).reqs else []), _
            rw [e]; exact fun r hr => (by cases hr)
        | arrive query hq => have hq : v.disk.d.up = true := hq; rw [hv] at hq; cases hq
        | req k r r' d hr hm => have hr : v.reqs[k]? = some r := hr; rw [hn] at hr; cases hr
        | panics k r d hr hm => have hr : v.reqs[k]? = some r := hr; rw [hn] at hr; cases hr
    · have hw : (s.procs.set i v')[j]? = some w := hw
      rw [List.getElem?_set_ne (Ne.symm e)] at hw
      obtain ⟨m, hm⟩ := ha j w hw hu
      exact ⟨m, Lively.seeing (v := s.sees w) hcw hm⟩

theorem run_alive {fs : FS} {n : Nat} (h0 : Tree root fs) (hz : ∀ d, Gz.Written d (z d)) (hcpu : ∀ i, 0 < cpus i) {ss : List (Replicas F)} (h : Run z root RoomyReads cpus (start fs (n + 1)) ss) (ho : Orderly root ss) : ∀ s before, ss = s :: before → Alive fs root s := by
  induction h with
  | start =>
    intro s before e
    cases e
    intro i v hv hu
    obtain rfl := List.eq_of_mem_replicate (List.mem_of_getElem? hv)
    cases hu
  | step s s' before h hs ih =>
    intro x xs e
    cases e
    have ho1 : Orderly root (s :: before) := ho.suffix (List.suffix_cons _ _)
    have hr := run_mono (fun a (h : RoomyReads a) => h.reads) h
    have i1 := run_rinv h0 hz hr ho1 s before rfl
    have i2 := run_rinv h0 hz (.step s s' before hr (step_mono (fun a (h : RoomyReads a) => h.reads) hs)) ho s' (s :: before) rfl
    have i1' : RInv fs root z (Had root (s' :: s :: before)) s := ⟨i1.inv.mono fun g ⟨s0, hs0, hb⟩ => ⟨s0, List.mem_cons_of_mem _ hs0, hb⟩, i1.speaks, i1.search⟩
    exact step_alive hz hcpu i1' (ih ho1 s before rfl) i2 hs

/-- **C131, no panic.** If every id that the folder lists is the name of a file, and no file of a listed document is damaged, no search ends an instance. -/
theorem c131_no_panic_partial {fs : FS} {n : Nat} (h0 : Tree root fs) (hz : ∀ d, Gz.Written d (z d)) (hp : ∀ f term d, Says fs root f term d → PlainName d ∧ ¬ DamagedDocument fs root d)
    {ss : List (Replicas F)} (h : Run z root OnlyReads cpus (start fs (n + 1)) ss) (ho : Orderly root ss) {s : Replicas F} (hs : s ∈ ss) {i : Nat} {v : BServer F} (hv : s.procs[i]? = some v) {r : DReq F} (hr : r ∈ v.reqs) (d : BDisk) :
    ¬ BReq.Move root (cpus i) (s.sees v).disk r d none := by
  obtain ⟨before, h1, h2⟩ := h.state s hs
  have hi := run_rinv h0 hz h1 (ho.suffix h2) s before rfl
  have hse := hi.search i v hv
  have hu : v.disk.d.up = true := by
    cases e : v.disk.d.up with
    | true => rfl
    | false =>
      have : v.reqs = [] := hse.idle e
      rw [this] at hr; cases hr
  obtain ⟨m, hm⟩ := hse.serve hu
  have ha : Answers fs root (v.disk.d.readsOf (doc0 fs root)) := (hi.speaks i v.disk (get_disks hv)).up hu
  rw [show v.disk.d.readsOf (doc0 fs root) = ({ v.disk.d with mem := m } : CDisk).readsOf (doc0 fs root) from Serves.answers hm _] at ha
  intro hmv
  cases hmv with
  | panics _ _ k q x ht hmv =>
    have hk := (hm.known r hr q x (List.mem_of_getElem? ht)).known
    cases hmv with
    | panics _ st fan l ids loc hg hx =>
      obtain ⟨k1, k2, -⟩ := hk.1 _ (List.mem_of_getElem? hg)
      obtain ⟨id, hid, hn⟩ := rexec_panics hm.calm k2 hx
      obtain ⟨term, -, hl⟩ := k1 id hid
      have hl : GoSet.contains (({ v.disk.d with mem := m } : CDisk).getDocuments q.fieldName term).1 id = true := by
        obtain ⟨⟨dc, n', e⟩, -, -⟩ := hm.grown
        rw [e] at hl
        exact hl
      obtain ⟨p1, p2⟩ := hp _ _ _ ((ha.documents q.fieldName term id).1 ((has_iff _ (doc0 fs root) _ _ _).2 hl))
      exact p2 ((damaged_iff p1).1 (hn p1))

/-- **C131, progress.** … and a search that has not returned can make its next step, whatever the other instances have done. -/
theorem c131_progress_partial {fs : FS} {n : Nat} (h0 : Tree root fs) (hz : ∀ d, Gz.Written d (z d)) (hp : ∀ f term d, Says fs root f term d → PlainName d ∧ ¬ DamagedDocument fs root d) (hcpu : ∀ i, 0 < cpus i)
    {ss : List (Replicas F)} (h : Run z root RoomyReads cpus (start fs (n + 1)) ss) (ho : Orderly root ss) {s : Replicas F} (hs : s ∈ ss) {i : Nat} {v : BServer F} (hv : s.procs[i]? = some v) {k : Nat} {r : DReq F} (hr : v.reqs[k]? = some r) (hn : r.result = none) :
    ∃ v', BServer.ReqStep root (cpus i) k (s.sees v) v' := by
  obtain ⟨before, h1, h2⟩ := h.state s hs
  have hrd := run_mono (fun a (h : RoomyReads a) => h.reads) h1
  have hi := run_rinv h0 hz hrd (ho.suffix h2) s before rfl
  have hmem := List.mem_of_getElem? hr
  have hu : v.disk.d.up = true := by
    cases e : v.disk.d.up with
    | true => rfl
    | false =>
      have : v.reqs = [] := (hi.search i v hv).idle e
      rw [this] at hmem; cases hmem
  obtain ⟨m, hm⟩ := run_alive h0 hz hcpu h1 (ho.suffix h2) s before rfl i v hv hu
  obtain ⟨d, r', hmv⟩ := progress (cpus := cpus i) hm hmem hn
  cases r' with
  | none => exact absurd hmv (c131_no_panic_partial h0 hz hp hrd (ho.suffix h2) (List.mem_cons_self) hv hmem d)
  | some r' => exact ⟨_, r, r', d, hr, hmv, rfl⟩

/-! ### runs without end -/

/-- the states of a run until state `n`, the last one first. -/
def history (run : Nat → Replicas F) : Nat → List (Replicas F)
  | 0 => [run 0]
  | n + 1 => run (n + 1) :: history run n

/-- search `k` of instance `i` makes a step. -/
def SearchStep (root : Path) (cpus : Nat → Nat) (i k : Nat) (s s' : Replicas F) : Prop := ∃ v v', s.procs[i]? = some v ∧ BServer.ReqStep root (cpus i) k (s.sees v) v' ∧ s' = ⟨v'.disk.fs, s.procs.set i v'⟩

/-- search `k` of instance `i` has returned. -/
def Returned (i k : Nat) (s : Replicas F) : Prop := ∃ v r l, s.procs[i]? = some v ∧ v.reqs[k]? = some r ∧ r.result = some l

/-- an instance that sees other files. -/
def Sees (a b : BServer F) : Prop := ∃ fs', b = { a with disk := { a.disk with fs := fs' } }

theorem finite_seen {c : Nat} {view : Nat → BServer F} (hl : ∀ n, ∃ m, Lively fs0 root m (view n)) (hr : ∀ n, BServer.UpStep z root OnlyReads c (view n) (view (n + 1)) ∨ Sees (view n) (view (n + 1))) {i : Nat} {qs : List (Query F)}
    (hq : queries i (view 0) = some qs) : ∃ N, ∀ n, N ≤ n → ¬ BServer.ReqStep root c i (view n) (view (n + 1)) := by
  have inv : ∀ n, queries i (view n) = some qs := by
    intro n
    induction n with
    | zero => exact hq
    | succ n ih =>
      rcases hr n with h | ⟨fs', h⟩
      · exact queries_step ih h
      · rw [h]; exact ih
  obtain ⟨Nc, hNc⟩ := eventually_const (lt := (· < ·)) Nat.lt_wfRel.wf (f := fun n => crank i (view n)) fun n => by
    rcases hr n with h | ⟨fs', h⟩
    · exact crank_step (hl n).choose_spec (inv n) h
    · right; rw [h]; rfl
  have ht : ∀ m, ∃ N, ∀ j, j < m → ∀ n, N ≤ n → trank i j (view (n + 1)) = trank i j (view n) := by
    intro m
    induction m with
    | zero => exact ⟨0, fun j hj => (by omega)⟩
    | succ m ih =>
      obtain ⟨N1, h1⟩ := ih
      obtain ⟨N2, h2⟩ := eventually_const less2_wf (f := fun n => trank i m (view n)) fun n => by
        rcases hr n with h | ⟨fs', h⟩
        · exact trank_step (hl n).choose_spec (inv n) h m
        · right; rw [h]; rfl
      refine ⟨max N1 N2, fun j hj n hn => ?_⟩
      by_cases hjm : j = m
      · subst hjm
        exact (h2 (n + 1) (by omega)).trans (h2 n (by omega)).symm
      · exact h1 j (by omega) n (by omega)
  obtain ⟨Nt, hNt⟩ := ht qs.length
  refine ⟨max Nc Nt, fun n hn => ?_⟩
  rintro ⟨r, r', d, hi, hm, e⟩
  have hqr : r.query = qs := by
    have := inv n
    unfold queries at this
    rw [hi] at this
    exact Option.some.inj this
  have hd := move_drop (hl n).choose_spec hi hm
  rw [← e, hqr] at hd
  rcases hd with ⟨-, j, hj, hlt⟩ | hlt
  · rw [hNt j hj n (by omega)] at hlt
    exact less2_wf.irrefl.irrefl _ hlt
  · have := hNc n (by omega)
    have := hNc (n + 1) (by omega)
    omega

/-- **C131, every search returns.** A run without end in which no two instances merge at the same time and none ends while an index file is missing: if an instance has a search and is not killed from then on, the search makes finitely many steps, however the other instances go on;
so, if it is not left waiting for ever (a search that has not returned can always make a step, `c131_progress_partial`), it returns. -/
theorem c131_returns_partial {fs : FS} {n : Nat} (h0 : Tree root fs) (hz : ∀ d, Gz.Written d (z d)) (hcpu : ∀ i, 0 < cpus i) {run : Nat → Replicas F} (hstart : run 0 = start fs (n + 1)) (hrun : ∀ k, Step z root RoomyReads cpus (run k) (run (k + 1)))
    (ho : ∀ k, Orderly root (history run k)) {i k N0 : Nat} (hs : ∃ v, (run N0).procs[i]? = some v ∧ k < v.reqs.length) (hup : ∀ m, N0 ≤ m → ∀ v, (run m).procs[i]? = some v → v.disk.d.up = true) :
    (∃ N, ∀ m, N ≤ m → ¬ SearchStep root cpus i k (run m) (run (m + 1))) ∧ ((∀ N, ∃ m, N ≤ m ∧ (SearchStep root cpus i k (run m) (run (m + 1)) ∨ Returned i k (run m))) → ∃ m, Returned i k (run m)) := by
  have hh : ∀ m, ∃ before, history run m = run m :: before := fun m => by cases m with | zero => exact ⟨_, rfl⟩ | succ m => exact ⟨_, rfl⟩
  have hruns : ∀ m, Run z root RoomyReads cpus (start fs (n + 1)) (history run m) := by
    intro m
    induction m with
    | zero => unfold history; rw [hstart]; exact .start
    | succ m ih =>
      obtain ⟨before, e⟩ := hh m
      unfold history
      rw [e] at ih ⊢
      exact .step _ _ before ih (hrun m)
  have halive : ∀ m, Alive fs root (run m) := fun m => by
    obtain ⟨before, e⟩ := hh m
    exact run_alive h0 hz hcpu (hruns m) (ho m) (run m) before e
  obtain ⟨v0, hv0, hk⟩ := hs
  have hget : ∀ m, ∃ v, (run (N0 + m)).procs[i]? = some v := by
    intro m
    induction m with
    | zero => exact ⟨v0, hv0⟩
    | succ m ih =>
      obtain ⟨v, hv⟩ := ih
      have hlt : i < (run (N0 + m)).procs.length := (List.getElem?_eq_some_iff.1 hv).1
      have := hrun (N0 + m)
      rw [show N0 + (m + 1) = N0 + m + 1 from rfl]
      generalize hx : run (N0 + m + 1) = x at this
      cases this with
      | mk j w w' hj hst => exact ⟨_, List.getElem?_eq_getElem (by simpa using hlt)⟩
  choose vs hvs using hget
  let view : Nat → BServer F := fun m => (run (N0 + m)).sees (vs m)
  have hl : ∀ m, ∃ c, Lively fs root c (view m) := fun m => halive _ i _ (hvs m) (hup _ (by omega) _ (hvs m))
  have same : ∀ m v', run (N0 + m + 1) = ⟨v'.disk.fs, (run (N0 + m)).procs.set i v'⟩ → view (m + 1) = v' := fun m v' e => by
    have h1 := hvs (m + 1)
    rw [show N0 + (m + 1) = N0 + m + 1 from rfl, e] at h1
    have hlt : i < (run (N0 + m)).procs.length := (List.getElem?_eq_some_iff.1 (hvs m)).1
    have h1 : ((run (N0 + m)).procs.set i v')[i]? = some (vs (m + 1)) := h1
    rw [List.getElem?_set_self hlt] at h1
    show (run (N0 + m + 1)).sees (vs (m + 1)) = v'
    rw [← Option.some.inj h1, e]
    rfl
  have hstep : ∀ m, BServer.UpStep z root OnlyReads (cpus i) (view m) (view (m + 1)) ∨ Sees (view m) (view (m + 1)) := fun m => by
    have := hrun (N0 + m)
    generalize hx : run (N0 + m + 1) = x at this
    cases this with
    | mk j w w' hj hst =>
      by_cases e : j = i
      · subst e
        left
        rw [hvs m] at hj
        obtain rfl := Option.some.inj hj
        rw [same m w' hx]
        refine ⟨server_mono (fun a (h : RoomyReads a) => h.reads) hst, ?_⟩
        have := hup (N0 + (m + 1)) (by omega) _ (hvs (m + 1))
        have e2 : (view (m + 1)).disk.d.up = true := this
        rw [same m w' hx] at e2
        exact e2
      · right
        have h1 := hvs (m + 1)
        rw [show N0 + (m + 1) = N0 + m + 1 from rfl, hx] at h1
        have h1 : ((run (N0 + m)).procs.set j w')[i]? = some (vs (m + 1)) := h1
        rw [List.getElem?_set_ne e, hvs m] at h1
        refine ⟨w'.disk.fs, ?_⟩
        show (run (N0 + m + 1)).sees (vs (m + 1)) = _
        rw [← Option.some.inj h1, hx]
        rfl
  have hreq0 : ∃ qs, queries k (view 0) = some qs := by
    have h1 := hvs 0
    rw [show N0 + 0 = N0 from rfl, hv0] at h1
    unfold queries
    show ∃ qs, ((vs 0).reqs[k]?).map DReq.query = some qs
    rw [← Option.some.inj h1, List.getElem?_eq_getElem hk]
    exact ⟨_, rfl⟩
  obtain ⟨qs, hq⟩ := hreq0
  obtain ⟨N, hN⟩ := finite_seen hl hstep hq
  have fin : ∀ m, N0 + N ≤ m → ¬ SearchStep root cpus i k (run m) (run (m + 1)) := by
    rintro m hm ⟨v, v', h1, h2, h3⟩
    obtain ⟨c, rfl⟩ : ∃ c, m = N0 + c := ⟨m - N0, by omega⟩
    apply hN c (by omega)
    rw [hvs c] at h1
    obtain rfl := Option.some.inj h1
    rw [same c v' h3]
    exact h2
  refine ⟨⟨N0 + N, fin⟩, fun hf => ?_⟩
  obtain ⟨m, hm, h | h⟩ := hf (N0 + N)
  · exact absurd h (fin m hm)
  · exact ⟨m, h⟩

end Replicas
end Goir
