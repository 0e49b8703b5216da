import Verif.Props.ReplicasEnds
import Verif.Props.SharedCases
import Verif.Props.FolderServerCases
/-!
# C131, the searches: a case

Two instances on the folder of C129: the first opens it and answers a search; the second opens it while the first one is still there.
-/
namespace Goir
open GoMap Spec Spec.Opening Opening

namespace Replicas
open BDisk Shared

variable {F : Type} [GoFloat F]

def IndexThere (fs : FS) : Bool := match fs.get? ["data", "title", "index"] with | some (.file _) => true | _ => false

/-- the only index is that of the title; no two instances merge; if none merges, the index is there. -/
structure Fine (s : Replicas F) : Prop where
  title : onlyTitle s.fs = true
  one : ∀ (i j : Nat) (v w : BServer F), i ≠ j → s.procs[i]? = some v → s.procs[j]? = some w → Merging v.disk → ¬ Merging w.disk
  there : (∀ v ∈ s.procs, ¬ Merging v.disk) → IndexThere s.fs = true

omit [GoFloat F] in
theorem orderly_of_fine {ss : List (Replicas F)} (h : ∀ s ∈ ss, Fine s) : Orderly ["data"] ss := by
  refine ⟨fun s hs => (h s hs).one, fun s before hsuf hq s0 f b h0 hb => ?_⟩
  have hs := h s (hsuf.subset (by simp))
  have h0 := h s0 (hsuf.subset (List.mem_cons_of_mem _ h0))
  obtain rfl := onlyTitle_eq h0.title hb
  have ht := hs.there hq
  unfold IndexThere at ht
  split at ht
  · rename_i b' hb'; exact ⟨b', hb'⟩
  · cases ht

/-- what a process does alone: at every moment the only index is that of the title, and it is there if the process is not merging. -/
noncomputable def tidy : BDisk → List CDisk.Act → Bool
  | s, [] => onlyTitle s.fs && (isMerging s || IndexThere s.fs)
  | s, a :: as => onlyTitle s.fs && (isMerging s || IndexThere s.fs) && match s.exec packer ["data"] a with
    | some s' => tidy s' as
    | none => true

theorem tidy_head {s : BDisk} {as : List CDisk.Act} (h : tidy s as = true) : onlyTitle s.fs = true ∧ (¬ Merging s → IndexThere s.fs = true) := by
  have key : (onlyTitle s.fs && (isMerging s || IndexThere s.fs)) = true := by
    cases as with
    | nil => exact h
    | cons a as => exact (Bool.and_eq_true_iff.1 h).1
  obtain ⟨h1, h2⟩ := Bool.and_eq_true_iff.1 key
  refine ⟨h1, fun hm => ?_⟩
  rcases Bool.or_eq_true_iff.1 h2 with h2 | h2
  · exact absurd ((merging_iff s).1 h2) hm
  · exact h2

omit [GoFloat F] in
/-- after a step of one of the instances, the others not merging. -/
theorem Fine.of {s : Replicas F} {i : Nat} {v' : BServer F} (hi : i < s.procs.length) (ho : ∀ (j : Nat) (w : BServer F), j ≠ i → s.procs[j]? = some w → ¬ Merging w.disk) (ht : onlyTitle v'.disk.fs = true)
    (hf : ¬ Merging v'.disk → IndexThere v'.disk.fs = true) : Fine (⟨v'.disk.fs, s.procs.set i v'⟩ : Replicas F) := by
  have hj : ∀ (j : Nat) (w : BServer F), j ≠ i → (s.procs.set i v')[j]? = some w → ¬ Merging w.disk := fun j w hne hw => by
    rw [List.getElem?_set_ne hne.symm] at hw; exact ho j w hne hw
  refine ⟨ht, fun j k x y hne hx hy hm => ?_, fun hq => hf (hq v' (List.mem_iff_getElem?.2 ⟨i, by rw [List.getElem?_set_self hi]⟩))⟩
  by_cases e : j = i
  · exact hj k y (fun e' => hne (e.trans e'.symm)) hy
  · exact absurd hm (hj j x e hx)

omit [GoFloat F] in
theorem sees_self {s : Replicas F} {v : BServer F} (h : v.disk.fs = s.fs) : s.sees v = v := by unfold sees; rw [← h]

/-- a run of one instance's store, from the last state of a run of all. -/
theorem lift {allow : CDisk.Act → Prop} {t : Replicas F} {cpus : Nat → Nat} {i : Nat} {as : List CDisk.Act} : ∀ {s : Replicas F} {before : List (Replicas F)} {v : BServer F} {d : BDisk}, Run packer ["data"] allow cpus t (s :: before) → (∀ x ∈ s :: before, Fine x) →
    s.procs[i]? = some v → (∀ (j : Nat) (w : BServer F), j ≠ i → s.procs[j]? = some w → ¬ Merging w.disk) → (∀ a ∈ as, allow a) → (s.sees v).disk.run packer ["data"] as = some d → tidy (s.sees v).disk as = true → as ≠ [] →
    ∃ (v' : BServer F) (before' : List (Replicas F)), v'.disk = d ∧ (v.reqs = [] → v'.reqs = []) ∧ Run packer ["data"] allow cpus t (⟨d.fs, s.procs.set i v'⟩ :: before') ∧ ∀ x ∈ (⟨d.fs, s.procs.set i v'⟩ : Replicas F) :: before', Fine x := by
  induction as with
  | nil => intro s before v d _ _ _ _ _ _ _ hne; exact absurd rfl hne
  | cons a as ih =>
    intro s before v d hrun hfine hi ho hr hx ht _
    have hlt : i < s.procs.length := (List.getElem?_eq_some_iff.1 hi).1
    obtain ⟨d1, h1, h2⟩ := brun_cons.1 hx
    have ht1 : tidy d1 as = true := by
      have := (Bool.and_eq_true_iff.1 ht).2
      rw [h1] at this; exact this
    obtain ⟨g1, g2⟩ := tidy_head ht1
    let v1 : BServer F := { disk := d1, reqs := if d1.d.up then v.reqs else [] }
    have hs : Step packer ["data"] allow cpus s ⟨d1.fs, s.procs.set i v1⟩ := .mk s i v v1 hi (.store (s.sees v) a d1 (hr a (by simp)) h1)
    have hrun1 := Run.step s _ before hrun hs
    have hfine1 : ∀ x ∈ (⟨d1.fs, s.procs.set i v1⟩ : Replicas F) :: s :: before, Fine x := fun x hx => by
      rcases List.mem_cons.1 hx with rfl | hx
      · exact Fine.of (v' := v1) hlt ho g1 g2
      · exact hfine x hx
    by_cases e : as = []
    · subst e
      cases h2
      exact ⟨v1, _, rfl, fun e => (by show (if d.d.up then v.reqs else []) = []; rw [e]; split <;> rfl), hrun1, hfine1⟩
    · have hi1 : (⟨d1.fs, s.procs.set i v1⟩ : Replicas F).procs[i]? = some v1 := by show (s.procs.set i v1)[i]? = _; rw [List.getElem?_set_self hlt]
      have hse : (⟨d1.fs, s.procs.set i v1⟩ : Replicas F).sees v1 = v1 := sees_self rfl
      obtain ⟨v', before', e1, e0, e2, e3⟩ := ih hrun1 hfine1 hi1 (fun j w hne hw => ho j w hne (by
        have hw : (s.procs.set i v1)[j]? = some w := hw
        rw [List.getElem?_set_ne hne.symm] at hw; exact hw)) (fun a ha => hr a (List.mem_cons_of_mem _ ha)) (by rw [hse]; exact h2) (by rw [hse]; exact ht1) e
      refine ⟨v', before', e1, fun e => e0 (by show (if d1.d.up then v.reqs else []) = []; rw [e]; split <;> rfl), ?_⟩
      have es : (s.procs.set i v1).set i v' = s.procs.set i v' := List.set_set ..
      have e2 : Run packer ["data"] allow cpus t (⟨d.fs, (s.procs.set i v1).set i v'⟩ :: before') := e2
      have e3 : ∀ x ∈ (⟨d.fs, (s.procs.set i v1).set i v'⟩ : Replicas F) :: before', Fine x := e3
      rw [es] at e2 e3
      exact ⟨e2, e3⟩

/-- a search of one instance, none merging. -/
theorem lift_search {allow : CDisk.Act → Prop} {t : Replicas F} {cpus : Nat → Nat} {i : Nat} {s : Replicas F} {before : List (Replicas F)} {v v' : BServer F} (hrun : Run packer ["data"] allow cpus t (s :: before)) (hfine : ∀ x ∈ s :: before, Fine x)
    (hi : s.procs[i]? = some v) (hv : v.disk.fs = s.fs) (hm : ∀ w ∈ s.procs, ¬ Merging w.disk) (h : Reaches (fun a b => BServer.Step packer ["data"] allow (cpus i) a b ∧ Aloof a.disk b.disk) v v') :
    Aloof v.disk v'.disk ∧ ∃ before', Run packer ["data"] allow cpus t (⟨v'.disk.fs, s.procs.set i v'⟩ :: before') ∧ ∀ x ∈ (⟨v'.disk.fs, s.procs.set i v'⟩ : Replicas F) :: before', Fine x := by
  have hlt : i < s.procs.length := (List.getElem?_eq_some_iff.1 hi).1
  refine h.invariant (P := fun v' => Aloof v.disk v'.disk ∧ ∃ before', Run packer ["data"] allow cpus t (⟨v'.disk.fs, s.procs.set i v'⟩ :: before') ∧ ∀ x ∈ (⟨v'.disk.fs, s.procs.set i v'⟩ : Replicas F) :: before', Fine x) ?_ ?_
  · refine ⟨.refl _, before, ?_⟩
    have e : (⟨v.disk.fs, s.procs.set i v⟩ : Replicas F) = s := by
      rw [hv]
      have : s.procs.set i v = s.procs := List.ext_getElem? fun k => by
        rw [List.getElem?_set]
        split
        · rename_i e; subst e; rw [hi]
        · rfl
      rw [this]
    rw [e]
    exact ⟨hrun, hfine⟩
  · rintro x y ⟨a1, b1, r1, f1⟩ ⟨hs, a2⟩
    have a3 : Aloof v.disk y.disk := ⟨a2.fs.trans a1.fs, a2.ix.trans a1.ix, a2.save.trans a1.save, a2.up.trans a1.up⟩
    have hix : (⟨x.disk.fs, s.procs.set i x⟩ : Replicas F).procs[i]? = some x := by show (s.procs.set i x)[i]? = _; rw [List.getElem?_set_self hlt]
    have hst : Step packer ["data"] allow cpus ⟨x.disk.fs, s.procs.set i x⟩ ⟨y.disk.fs, (s.procs.set i x).set i y⟩ := .mk _ i x y hix (by rw [sees_self (s := ⟨x.disk.fs, s.procs.set i x⟩) rfl]; exact hs)
    rw [List.set_set] at hst
    refine ⟨a3, _, .step _ _ _ r1 hst, fun z hz => ?_⟩
    rcases List.mem_cons.1 hz with rfl | hz
    · have hf := hfine s (by simp)
      have hfs : y.disk.fs = s.fs := a3.fs.trans hv
      refine Fine.of (v' := y) hlt (fun j w _ hw => hm w (List.mem_of_getElem? hw)) (by rw [hfs]; exact hf.title) fun _ => by rw [hfs]; exact hf.there hm
    · exact f1 z hz

set_option maxRecDepth 100000 in
/-- the two openings. -/
theorem both_open : ∃ s s' : BDisk, ({ fs := shelf aFile } : BDisk).kill.run packer ["data"] (opening 113 5 []) = some s ∧ ({ fs := s.fs } : BDisk).kill.run packer ["data"] (opening 113 5 []) = some s' ∧
    s.d.up = true ∧ s'.d.up = true ∧ tidy ({ fs := shelf aFile } : BDisk).kill (opening 113 5 []) = true ∧ tidy ({ fs := s.fs } : BDisk).kill (opening 113 5 []) = true ∧ ¬ Merging s ∧ ¬ Merging s' ∧ onlyTitle (shelf aFile) = true := by
  obtain ⟨s, h1, h2⟩ : ∃ s, ({ fs := shelf aFile } : BDisk).kill.run packer ["data"] (opening 113 5 []) = some s ∧
      (s.d.up && tidy ({ fs := shelf aFile } : BDisk).kill (opening 113 5 []) && !isMerging s && onlyTitle (shelf aFile) && tidy ({ fs := s.fs } : BDisk).kill (opening 113 5 []) && match ({ fs := s.fs } : BDisk).kill.run packer ["data"] (opening 113 5 []) with
        | some s' => s'.d.up && !isMerging s'
        | none => false) = true := exists_of (by decide +kernel)
  split at h2
  · rename_i s' h3
    simp only [Bool.and_eq_true, Bool.not_eq_true'] at h2
    obtain ⟨⟨⟨⟨⟨a1, a2⟩, a3⟩, a4⟩, a5⟩, a6, a7⟩ := h2
    exact ⟨s, s', h1, h3, a1, a6, a2, a5, fun h => (by rw [(merging_iff s).2 h] at a3; cases a3), fun h => (by rw [(merging_iff s').2 h] at a7; cases a7), a4⟩
  · simp at h2

theorem opening_roomy {k : Nat} {n : Int} (hn : 1 ≤ n) : ∀ a ∈ opening k n [], RoomyReads a := by
  intro a ha
  simp only [opening, List.mem_cons, List.mem_append, List.not_mem_nil, or_false] at ha
  rcases ha with rfl | ha | rfl
  · exact trivial
  · obtain rfl := List.eq_of_mem_replicate ha; exact trivial
  · exact ⟨hn, fun p hp => by cases hp⟩

theorem two_instances_fine : ∃ (s : Replicas F) (before : List (Replicas F)) (v w : BServer F) (r : DReq F) (l : Scores F), Run packer ["data"] RoomyReads (fun _ => 2) (start (shelf aFile) 2) (s :: before) ∧ (∀ x ∈ s :: before, Fine x) ∧ s = ⟨w.disk.fs, [v, w]⟩ ∧
    v.disk.d.up = true ∧ w.disk.d.up = true ∧ ¬ Merging v.disk ∧ ¬ Merging w.disk ∧ v.reqs[0]? = some r ∧ r.query = [askX F] ∧ r.result = some l ∧ ∃ x, ("a", x) ∈ l := by
  obtain ⟨d, d', o1, o2, u1, u2, t1, t2, m1, m2, ot⟩ := both_open
  have down : ¬ Merging ({ fs := shelf aFile } : BDisk).kill := not_merging.2 (.inl rfl)
  -- the first instance opens the folder
  have f0 : ∀ x ∈ [(start (shelf aFile) 2 : Replicas F)], Fine x := fun x hx => by
    obtain rfl := List.mem_singleton.1 hx
    have hall : ∀ v ∈ (start (shelf aFile) 2 : Replicas F).procs, ¬ Merging v.disk := fun v hv => by rw [List.eq_of_mem_replicate hv]; exact down
    exact ⟨ot, fun i j v w _ hv _ hm => absurd hm (hall v (List.mem_of_getElem? hv)), fun _ => rfl⟩
  obtain ⟨v1, b1, rfl, q1, r1, f1⟩ := lift (F := F) (cpus := fun _ => 2) (i := 0) Run.start f0 (v := { disk := ({ fs := shelf aFile } : BDisk).kill }) rfl
    (fun j w _ hw => by rw [List.eq_of_mem_replicate (List.mem_of_getElem? hw)]; exact down) (opening_roomy (k := 113) (n := 5) (by decide)) o1 t1 (by simp [opening])
  -- it answers a search
  have hv1 : v1 = { disk := v1.disk } := by
    have := q1 rfl
    cases v1; cases this; rfl
  have ho : ∀ p ∈ ([] : List (List DOp)), ∀ op ∈ p, ∃ ids name, op = DOp.getFields ids name := fun p hp => by cases hp
  let v2 : BServer F := { disk := v1.disk, reqs := [DReq.start [askX F]] }
  have h1 : Reaches (BServer.UpStep packer ["data"] OnlyReads 2) v1 v2 := by rw [hv1]; exact Reaches.single ⟨.arrive { disk := v1.disk } [askX F] u1, u1⟩
  obtain ⟨-, ⟨v3, l, h2, h3⟩, -⟩ := c129_ends (shelf_tree aFile) packer_written ho o1 u1 (by decide) (fun _ _ _ => shelf_whole) (by decide : 0 < 2) (hv1 ▸ h1) (i := 0) rfl
  obtain ⟨hs, -, hq⟩ : Reaches (fun a b => BServer.Step packer ["data"] RoomyReads 2 a b ∧ Aloof a.disk b.disk) v1 v3 ∧ Reaches (BServer.UpStep packer ["data"] OnlyReads 2) v1 v3 ∧ queries 0 v3 = some [askX F] :=
    h2.invariant (P := fun t' => Reaches (fun a b => BServer.Step packer ["data"] RoomyReads 2 a b ∧ Aloof a.disk b.disk) v1 t' ∧ Reaches (BServer.UpStep packer ["data"] OnlyReads 2) v1 t' ∧ queries 0 t' = some [askX F])
      ⟨by rw [hv1]; exact Reaches.single ⟨.arrive { disk := v1.disk } [askX F] u1, .refl _⟩, h1, rfl⟩ fun a b hp hs => by
      have hu' : BServer.UpStep packer ["data"] OnlyReads 2 a b := reqStep_up (lively (shelf_tree aFile) ho o1 u1 (by decide) (by decide) (hv1 ▸ hp.2.1)) hs
      refine ⟨hp.1.tail ?_, hp.2.1.tail hu', queries_step hp.2.2 hu'⟩
      obtain ⟨r, r', x, hi, hm, rfl⟩ := hs
      exact ⟨.req a 0 r r' x hi hm, move_aloof hm⟩
  obtain ⟨r, hr, hq⟩ := Option.map_eq_some_iff.1 hq
  unfold BServer.resultOf at h3
  rw [hr] at h3
  have none2 : ∀ w ∈ (start (shelf aFile) 2 : Replicas F).procs.set 0 v1, ¬ Merging w.disk := fun w hw => by
    rcases List.mem_or_eq_of_mem_set hw with hw | rfl
    · rw [List.eq_of_mem_replicate hw]; exact down
    · exact m1
  obtain ⟨a3, b3, r3, f3⟩ := lift_search r1 f1 (i := 0) (v := v1) rfl rfl none2 hs
  -- the second one opens the folder
  have hfs : v3.disk.fs = v1.disk.fs := a3.fs
  obtain ⟨w, b4, rfl, -, r4, f4⟩ := lift (F := F) (cpus := fun _ => 2) (i := 1) r3 f3 (v := { disk := ({ fs := shelf aFile } : BDisk).kill }) rfl
    (fun j w hne hw => by
      match j, hne, hw with
      | 0, _, hw => cases hw; exact fun h => m1 (a3.merging.1 h)
      | j + 2, _, hw => cases hw) (opening_roomy (k := 113) (n := 5) (by decide)) (d := d') (by rw [← o2, ← hfs]; rfl) (by rw [← t2, ← hfs]; rfl) (by simp [opening])
  have hord := orderly_of_fine f4
  obtain ⟨st, ha, -, -, qs, hp, hy⟩ := c131_search_partial (n := 1) (shelf_tree aFile) packer_written (run_mono (fun a (h : RoomyReads a) => h.reads) r4) hord (s := _) List.mem_cons_self (v := v3) (by show v3 ∈ [v3, w]; simp) (List.mem_of_getElem? hr) h3
  rw [hq] at hp
  obtain rfl := List.perm_singleton.1 hp
  have hm : st.matches "title" ["x"] "a" = true := by
    unfold Reads.matches
    rw [List.any_eq_true]
    exact ⟨"x", by simp, (ha.documents _ _ _).2 (shelf_listed _)⟩
  have hf : st.fieldOf "a" "title" = some ⟨"title", 1, [("x", 1)]⟩ := by
    unfold Reads.fieldOf
    exact (ha.fields _ _ _ plain_a _).2 ⟨by simp, aFile, _, rfl, holds_aFile, rfl⟩
  refine ⟨_, _, v3, w, r, l, r4, f4, rfl, a3.up.trans u1, u2, fun h => m1 (a3.merging.1 h), m2, hr, hq, h3, _, (hy "a" plain_a _).2 ⟨?_, rfl⟩⟩
  unfold docScores queryScore
  simp [askX, hm, hf]

/-- the hypotheses of `c131_search_partial` are met: both instances are up, and the first has returned a search, that found document `a`. -/
theorem two_instances : ∃ (ss : List (Replicas F)) (s : Replicas F) (v w : BServer F) (r : DReq F) (l : Scores F), Run packer ["data"] OnlyReads (fun _ => 2) (start (shelf aFile) 2) ss ∧ Orderly ["data"] ss ∧ s ∈ ss ∧ s.procs = [v, w] ∧
    v.disk.d.up = true ∧ w.disk.d.up = true ∧ r ∈ v.reqs ∧ r.query = [askX F] ∧ r.result = some l ∧ ∃ x, ("a", x) ∈ l := by
  obtain ⟨s, before, v, w, r, l, h1, h2, rfl, h3, h4, -, -, h5, h6, h7, h8⟩ := two_instances_fine (F := F)
  exact ⟨_, _, v, w, r, l, run_mono (fun a (h : RoomyReads a) => h.reads) h1, orderly_of_fine h2, List.mem_cons_self, rfl, h3, h4, List.mem_of_getElem? h5, h6, h7, h8⟩

/-- the hypotheses of `c131_no_panic_partial` and `c131_progress_partial` are met: a search that has just begun at the second instance goes on. -/
example : ∃ (ss : List (Replicas F)) (s : Replicas F) (w : BServer F) (k : Nat) (r : DReq F), Run packer ["data"] RoomyReads (fun _ => 2) (start (shelf aFile) 2) ss ∧ Orderly ["data"] ss ∧ s ∈ ss ∧ s.procs[1]? = some w ∧ w.reqs[k]? = some r ∧ r.query = [askX F] ∧ r.result = none ∧
    (∀ d, ¬ BReq.Move ["data"] 2 (s.sees w).disk r d none) ∧ ∃ v', BServer.ReqStep ["data"] 2 k (s.sees w) v' := by
  obtain ⟨s, before, v, w, r, l, h1, h2, rfl, h3, h4, n1, n2, h5, h6, h7, h8⟩ := two_instances_fine (F := F)
  obtain ⟨-, b, r1, f1⟩ := lift_search h1 h2 (i := 1) (v := w) (v' := { w with reqs := w.reqs ++ [DReq.start [askX F]] }) rfl rfl (fun x hx => by
    simp only [List.mem_cons, List.not_mem_nil, or_false] at hx
    rcases hx with rfl | rfl
    · exact n1
    · exact n2) (Reaches.single ⟨.arrive w [askX F] h4, .refl _⟩)
  have hr : ({ w with reqs := w.reqs ++ [DReq.start [askX F]] } : BServer F).reqs[w.reqs.length]? = some (DReq.start [askX F]) := by
    show (w.reqs ++ [DReq.start [askX F]])[w.reqs.length]? = _
    simp
  have hord := orderly_of_fine f1
  exact ⟨_, _, _, w.reqs.length, DReq.start [askX F], r1, hord, List.mem_cons_self, rfl, hr, rfl, rfl,
    fun d => c131_no_panic_partial (n := 1) (cpus := fun _ => 2) (shelf_tree aFile) packer_written (fun _ _ _ => shelf_whole) (run_mono (fun a (h : RoomyReads a) => h.reads) r1) hord List.mem_cons_self (i := 1) rfl (List.mem_of_getElem? hr) d,
    c131_progress_partial (n := 1) (cpus := fun _ => 2) (shelf_tree aFile) packer_written (fun _ _ _ => shelf_whole) (fun _ => by decide) r1 hord List.mem_cons_self (i := 1) rfl hr rfl⟩

/-- a run that goes on without end. -/
theorem run_on {z : Bytes → Bytes} {root : Path} {allow : CDisk.Act → Prop} {cpus : Nat → Nat} {t : Replicas F} {ss : List (Replicas F)} (h : Run z root allow cpus t ss) : ∀ g : Nat → Replicas F, ss.head? = some (g 0) → (∀ k, Step z root allow cpus (g k) (g (k + 1))) →
    ∃ (run : Nat → Replicas F) (N : Nat), run 0 = t ∧ (∀ k, Step z root allow cpus (run k) (run (k + 1))) ∧ (∀ k, run (N + k) = g k) ∧ ∀ m, run m ∈ ss ∨ ∃ k, run m = g k := by
  induction h with
  | start =>
    intro g hg hs
    exact ⟨g, 0, (Option.some.inj hg).symm, hs, fun k => by rw [Nat.zero_add], fun m => .inr ⟨m, rfl⟩⟩
  | step s s' before h hst ih =>
    intro g hg hs
    obtain rfl := Option.some.inj hg
    obtain ⟨run, N, h1, h2, h3, h4⟩ := ih (fun | 0 => s | k + 1 => g k) rfl fun k => by
      cases k with
      | zero => exact hst
      | succ k => exact hs k
    refine ⟨run, N + 1, h1, h2, fun k => by rw [show N + 1 + k = N + (k + 1) by omega]; exact h3 (k + 1), fun m => ?_⟩
    rcases h4 m with h | ⟨k, h⟩
    · exact .inl (List.mem_cons_of_mem _ h)
    · cases k with
      | zero => left; rw [h]; simp
      | succ k => exact .inr ⟨k, h⟩

/-- the hypotheses of `c131_returns_partial` are met by a run in which both instances are up and more and more searches arrive at the second one: the first one's search returns. -/
example : ∃ (run : Nat → Replicas F) (N0 : Nat), run 0 = start (shelf aFile) 2 ∧ (∀ k, Step packer ["data"] RoomyReads (fun _ => 2) (run k) (run (k + 1))) ∧ (∀ k, Orderly ["data"] (history run k)) ∧ (∃ v, (run N0).procs[0]? = some v ∧ 0 < v.reqs.length) ∧
    (∀ m, N0 ≤ m → ∀ v, (run m).procs[0]? = some v → v.disk.d.up = true) ∧ (∀ N, ∃ m, N ≤ m ∧ (SearchStep ["data"] (fun _ => 2) 0 0 (run m) (run (m + 1)) ∨ Returned 0 0 (run m))) ∧ ∃ m, Returned 0 0 (run m) := by
  obtain ⟨s, before, v, w, r, l, h1, h2, rfl, h3, h4, n1, n2, h5, h6, h7, h8⟩ := two_instances_fine (F := F)
  let more : Nat → BServer F := fun k => { w with reqs := w.reqs ++ List.replicate k (DReq.start [askX F]) }
  let g : Nat → Replicas F := fun k => ⟨w.disk.fs, [v, more k]⟩
  have hg0 : g 0 = ⟨w.disk.fs, [v, w]⟩ := by
    show (⟨w.disk.fs, [v, { w with reqs := w.reqs ++ [] }]⟩ : Replicas F) = _
    rw [List.append_nil]
  have hstep : ∀ k, Step packer ["data"] RoomyReads (fun _ => 2) (g k) (g (k + 1)) := fun k => by
    have hb : BServer.Step packer ["data"] RoomyReads 2 ((g k).sees (more k)) (more (k + 1)) := by
      have := BServer.Step.arrive (z := packer) (root := ["data"]) (allow := RoomyReads) (cpus := 2) ((g k).sees (more k)) [askX F] h4
      have e : ({ (g k).sees (more k) with reqs := ((g k).sees (more k)).reqs ++ [DReq.start [askX F]] } : BServer F) = more (k + 1) := by
        show ({ disk := w.disk, reqs := (w.reqs ++ List.replicate k (DReq.start [askX F])) ++ [DReq.start [askX F]] } : BServer F) = { w with reqs := w.reqs ++ List.replicate (k + 1) (DReq.start [askX F]) }
        rw [List.append_assoc, ← List.replicate_succ']
      rw [e] at this
      exact this
    exact .mk (g k) 1 (more k) (more (k + 1)) rfl hb
  obtain ⟨run, N, r1, r2, r3, r4⟩ := run_on h1 g (by rw [hg0]; rfl) hstep
  have hf : ∀ m, Fine (run m) := fun m => by
    rcases r4 m with h | ⟨k, h⟩
    · exact h2 _ h
    · rw [h]
      have f0 := h2 _ List.mem_cons_self
      refine ⟨f0.title, fun i j x y hne hx hy hm => ?_, fun _ => f0.there fun x hx => ?_⟩
      · match i, hx with
        | 0, hx => cases hx; exact absurd hm n1
        | 1, hx => cases hx; exact absurd hm n2
        | _ + 2, hx => cases hx
      · simp only [List.mem_cons, List.not_mem_nil, or_false] at hx
        rcases hx with rfl | rfl
        · exact n1
        · exact n2
  have hor : ∀ k, Orderly ["data"] (history run k) := fun k => orderly_of_fine fun x hx => by
    have : ∀ k, ∀ x ∈ history run k, ∃ m, x = run m := fun k => by
      induction k with
      | zero => intro x hx; exact ⟨0, List.mem_singleton.1 hx⟩
      | succ k ih =>
        intro x hx
        rcases List.mem_cons.1 hx with rfl | hx
        · exact ⟨_, rfl⟩
        · exact ih x hx
    obtain ⟨m, rfl⟩ := this k x hx
    exact hf m
  have hat : ∀ m, N ≤ m → ∃ k, run m = g k := fun m hm => ⟨m - N, by rw [← r3, Nat.add_sub_cancel' hm]⟩
  have hret : ∀ m, N ≤ m → Returned 0 0 (run m) := fun m hm => by
    obtain ⟨k, e⟩ := hat m hm
    rw [e]
    exact ⟨v, r, l, rfl, h5, h7⟩
  have hup : ∀ m, N ≤ m → ∀ x, (run m).procs[0]? = some x → x.disk.d.up = true := fun m hm x hx => by
    obtain ⟨k, e⟩ := hat m hm
    rw [e] at hx
    cases hx
    exact h3
  have hhas : ∃ v, (run N).procs[0]? = some v ∧ 0 < v.reqs.length := by
    obtain ⟨k, e⟩ := hat N le_rfl
    rw [e]
    exact ⟨v, rfl, (List.getElem?_eq_some_iff.1 h5).1⟩
  have hfair : ∀ M, ∃ m, M ≤ m ∧ (SearchStep ["data"] (fun _ => 2) 0 0 (run m) (run (m + 1)) ∨ Returned 0 0 (run m)) := fun M => ⟨max M N, by omega, .inr (hret _ (by omega))⟩
  exact ⟨run, N, r1, r2, hor, hhas, hup, hfair, (c131_returns_partial (n := 1) (shelf_tree aFile) packer_written (fun _ => by decide) r1 r2 hor hhas hup).2 hfair⟩

end Replicas
end Goir
