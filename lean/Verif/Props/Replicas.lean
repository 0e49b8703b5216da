import Verif.Model.Replicas
import Verif.Props.SharedAnswers
import Verif.Props.FolderServer
/-!
# C131: the searches of several instances that have one folder open
-/
namespace Goir
open GoMap Spec Spec.Opening Opening

namespace Replicas
open BDisk Shared

variable {F : Type} [GoFloat F] {root : Path} {z : Bytes → Bytes} {fs0 : FS} {cpus : Nat → Nat}

/-- the processes, without their searches. -/
def disks (s : Replicas F) : Shared := ⟨s.fs, s.procs.map BServer.disk⟩

/-- no two instances merge in a state of the run; and whenever none merges, every index file is there that was there before. -/
def Orderly (root : Path) (ss : List (Replicas F)) : Prop :=
  (∀ s ∈ ss, ∀ (i j : Nat) (v w : BServer F), i ≠ j → s.procs[i]? = some v → s.procs[j]? = some w → Merging v.disk → ¬ Merging w.disk) ∧
  ∀ (s : Replicas F) (before : List (Replicas F)), s :: before <:+ ss → (∀ v ∈ s.procs, ¬ Merging v.disk) → ∀ (s0 : Replicas F) (f : String) (b : Bytes), s0 ∈ before → s0.fs.get? (root ++ [f, "index"]) = some (.file b) →
    ∃ b', s.fs.get? (root ++ [f, "index"]) = some (.file b')

/-- a step of a search does not touch the files, nor what the merge is doing. -/
structure Aloof (s s' : BDisk) : Prop where
  fs : s'.fs = s.fs
  ix : s'.d.ix = s.d.ix
  save : s'.saveI = s.saveI
  up : s'.d.up = s.d.up

theorem Aloof.refl (s : BDisk) : Aloof s s := ⟨rfl, rfl, rfl, rfl⟩

theorem rexec_aloof {s s' : BDisk} {f : String} {loc : RLoc} {y : RLoc ⊕ GoMap String Field} (h : s.rexec root f loc = some (s', some y)) : Aloof s s' := by
  have hd : ∀ {loc : RLoc} {x : CDisk × (RLoc ⊕ GoMap String Field)}, s.d.rexec f loc = some x → x.1.ix = s.d.ix ∧ x.1.up = s.d.up := by
    intro loc x hx
    unfold CDisk.rexec at hx
    split at hx <;> (try split at hx) <;> (try split at hx) <;> first | (cases hx; done) | (cases hx; exact ⟨rfl, rfl⟩) | (obtain ⟨c, h1, h2⟩ := Option.map_eq_some_iff.1 hx; cases h2; exact ⟨rfl, rfl⟩)
  unfold BDisk.rexec at h
  split at h
  · split at h
    · cases h
    · cases h; exact .refl _
    · cases h; exact ⟨rfl, rfl, rfl, rfl⟩
  · obtain ⟨x, hx, e⟩ := Option.map_eq_some_iff.1 h
    cases e
    obtain ⟨h1, h2⟩ := hd hx
    exact ⟨rfl, h1, rfl, h2⟩

theorem bmove_aloof {terms : List String} {f : String} {c : Nat} {s s' : BDisk} {x x' : DSearch} (h : BMove root terms f c s x s' (some x')) : Aloof s s' := by
  cases h with
  | fetch _ st fan i ids loc loc' hg h => exact rexec_aloof h
  | fetched _ st fan i ids loc out rem hg h hp => exact rexec_aloof h
  | _ => exact .refl _

theorem move_aloof {c : Nat} {s s' : BDisk} {r r' : DReq F} (h : BReq.Move root c s r s' (some r')) : Aloof s s' := by
  cases h with
  | inner _ _ i q x x' ht h => exact bmove_aloof h
  | _ => exact .refl _

theorem move_dies {c : Nat} {s s' : BDisk} {r : DReq F} (h : BReq.Move root c s r s' none) : s' = s.kill := by
  cases h with
  | panics _ _ i q x ht h =>
    cases h with
    | panics _ st fan i ids loc hg h =>
      cases loc with
      | load id todo out => simp only [BDisk.rexec] at h; split at h <;> cases h; rfl
      | get todo o => obtain ⟨y, hy, e⟩ := Option.map_eq_some_iff.1 h; cases e
      | field id r todo o => cases h
      | put id r todo o => obtain ⟨y, hy, e⟩ := Option.map_eq_some_iff.1 h; cases e

/-- what an instance does to its store: an action of the store, or a step of a search. -/
theorem server_step {allow : CDisk.Act → Prop} {c : Nat} {v v' : BServer F} (hd : v.disk.d.ix.proc = .down → v.disk.d.up = false) (hi : v.disk.d.up = false → v.reqs = []) (h : BServer.Step z root allow c v v') :
    (∃ act, (allow act ∨ act = .crash) ∧ v.disk.exec z root act = some v'.disk) ∨ (v.disk.d.up = true ∧ Aloof v.disk v'.disk) := by
  have up : ∀ {i : Nat} {r : DReq F}, v.reqs[i]? = some r → v.disk.d.up = true := fun {i r} hr => by
    cases e : v.disk.d.up with
    | true => rfl
    | false => rw [hi e] at hr; cases hr
  cases h with
  | store a d ha h => exact .inl ⟨a, .inl ha, h⟩
  | arrive query hu => exact .inr ⟨hu, .refl _⟩
  | req i r r' d hr h => exact .inr ⟨up hr, move_aloof h⟩
  | panics i r d hr h =>
    refine .inl ⟨.crash, .inr rfl, ?_⟩
    rw [move_dies h]
    show v.disk.exec z root .crash = some v.disk.kill
    unfold BDisk.exec
    rw [if_neg fun e => by rw [up hr] at hd; cases hd e]

/-- the searches of an instance. -/
structure Searches (fs0 : FS) (root : Path) (v : BServer F) : Prop where
  idle : v.disk.d.up = false → v.reqs = []
  serve : v.disk.d.up = true → ∃ m, Serves fs0 root m v

theorem Searches.step {c : Nat} {v v' : BServer F} (hc : Calm fs0 root v.disk) (h : Searches fs0 root v) (hs : BServer.Step z root OnlyReads c v v') : Searches fs0 root v' := by
  by_cases hu : v'.disk.d.up = true
  · refine ⟨fun e => (by rw [hu] at e; cases e), fun _ => ?_⟩
    by_cases hv : v.disk.d.up = true
    · obtain ⟨m, hm⟩ := h.serve hv
      exact ⟨m, serves_step hm ⟨hs, hu⟩⟩
    · have hv : v.disk.d.up = false := by simpa using hv
      have hn := h.idle hv
      cases hs with
      | store a d ha hx =>
        have e : (if d.d.up then v.reqs else []) = [] := by rw [hn]; split <;> rfl
        refine ⟨d.d.mem, hu, exec_calm hc ha hx, Grown.refl _, ?_, ?_⟩ <;> rw [e] <;> exact fun r hr => by cases hr
      | arrive query hq => rw [hv] at hq; cases hq
      | req i r r' d hr h => rw [hn] at hr; cases hr
      | panics i r d hr h => rw [hn] at hr; cases hr
  · have hu : v'.disk.d.up = false := by simpa using hu
    refine ⟨fun _ => ?_, fun e => by rw [hu] at e; cases e⟩
    cases hs with
    | store a d ha hx =>
      have hu : d.d.up = false := hu
      show (if d.d.up then v.reqs else []) = []
      rw [hu]; rfl
    | arrive query hq =>
      have hu : v.disk.d.up = false := hu
      rw [hu] at hq; cases hq
    | req i r r' d hr hm =>
      have hu : d.d.up = false := hu
      rw [(move_aloof hm).up] at hu
      rw [h.idle hu] at hr; cases hr
    | panics i r d hr h => rfl

/-- other files, and an instance that they do not disturb. -/
theorem Searches.seeing {v : BServer F} {fs' : FS} (hc : Calm fs0 root { v.disk with fs := fs' }) (h : Searches fs0 root v) : Searches fs0 root { v with disk := { v.disk with fs := fs' } } :=
  ⟨h.idle, fun hu => by obtain ⟨m, hm⟩ := h.serve hu; exact ⟨m, hm.up, hc, hm.grown, hm.known, hm.col⟩⟩

theorem Aloof.merging {s s' : BDisk} (h : Aloof s s') : Merging s' ↔ Merging s := by unfold Merging; rw [h.ix]

/-- the processes after a step of a search. -/
theorem aloof_inv {had : String → Prop} {s : Shared} {i : Nat} {p p' : BDisk} (h : Inv fs0 root z had s) (hp : s.procs[i]? = some p) (ha : Aloof (s.sees p) p') (hc : Calm fs0 root p') : Inv fs0 root z had ⟨p'.fs, s.procs.set i p'⟩ := by
  have hlt : i < s.procs.length := (List.getElem?_eq_some_iff.1 hp).1
  have hi' : (s.procs.set i p')[i]? = some p' := by rw [List.getElem?_set_self hlt]
  have hj' : ∀ (j : Nat) (q : BDisk), j ≠ i → ((s.procs.set i p')[j]? = some q ↔ s.procs[j]? = some q) := fun j q hne => by rw [List.getElem?_set_ne hne.symm]
  have hfs : p'.fs = s.fs := ha.fs
  obtain ⟨o, po, hpo, hko, hother⟩ := h.kept
  refine ⟨fun j q hq => ?_, ?_⟩
  · by_cases e : j = i
    · subst e
      rw [show (s.procs.set j p')[j]? = some p' from hi'] at hq
      obtain rfl := Option.some.inj hq
      exact hc
    · show Calm fs0 root { q with fs := p'.fs }
      rw [hfs]
      exact h.calm j q ((hj' j q e).1 hq)
  · have hm : Merging p' ↔ Merging p := ha.merging
    by_cases e : o = i
    · subst e
      rw [hp] at hpo
      obtain rfl := Option.some.inj hpo
      exact ⟨o, p', hi', hko.of ha.fs (by rw [show (Shared.sees ⟨p'.fs, s.procs.set o p'⟩ p').d.ix = (s.sees p).d.ix from ha.ix]) ha.save, fun j q hne hq => hother j q hne ((hj' j q hne).1 hq)⟩
    · refine ⟨o, po, (hj' o po e).2 hpo, ?_, fun j q hne hq => ?_⟩
      · show KeptState fs0 root z had { po with fs := p'.fs }
        rw [hfs]; exact hko
      · by_cases e' : j = i
        · subst e'
          rw [show (s.procs.set j p')[j]? = some p' from hi'] at hq
          obtain rfl := Option.some.inj hq
          exact fun h => hother j p hne hp (hm.1 h)
        · exact hother j q hne ((hj' j q e').1 hq)

theorem Serves.answers {m : CMem} {v : BServer F} (h : Serves fs0 root m v) (files : String → GoMap String Field) : v.disk.d.readsOf files = ({ v.disk.d with mem := m } : CDisk).readsOf files := Grown.reads (d := { v.disk.d with mem := m }) h.grown files

theorem aloof_speaks {s s' : BDisk} (ha : Aloof s s') (hu : s.d.up = true) (h : Speaks fs0 root z s) (hr : s'.d.readsOf (doc0 fs0 root) = s.d.readsOf (doc0 fs0 root)) : Speaks fs0 root z s' := by
  have hp : s.d.ix.proc = s'.d.ix.proc := by rw [ha.ix]
  have hu' : s'.d.up = true := by rw [ha.up, hu]
  refine ⟨fun e => ?_, fun _ e => ?_, fun e => ?_, fun _ => by rw [hr]; exact h.up hu⟩
  · have := (h.opens (hp.trans e)).1; rw [hu] at this; cases this
  · rw [hu'] at e; cases e
  · have := h.down (hp.trans e); rw [hu] at this; cases this

/-- what holds of every state of a run. -/
structure RInv (fs0 : FS) (root : Path) (z : Bytes → Bytes) (had : String → Prop) (s : Replicas F) : Prop where
  inv : Inv fs0 root z had s.disks
  speaks : ∀ (i : Nat) (p : BDisk), s.disks.procs[i]? = some p → Speaks fs0 root z (s.disks.sees p)
  search : ∀ (i : Nat) (v : BServer F), s.procs[i]? = some v → Searches fs0 root (s.sees v)

theorem disks_get {s : Replicas F} {i : Nat} {p : BDisk} (h : s.disks.procs[i]? = some p) : ∃ v, s.procs[i]? = some v ∧ v.disk = p := by
  unfold disks at h
  rw [List.getElem?_map] at h
  exact Option.map_eq_some_iff.1 h

theorem get_disks {s : Replicas F} {i : Nat} {v : BServer F} (h : s.procs[i]? = some v) : s.disks.procs[i]? = some v.disk := by
  unfold disks
  rw [List.getElem?_map, h]; rfl

theorem step_rinv (hz : ∀ d, Gz.Written d (z d)) {had : String → Prop} {s s' : Replicas F} (h : RInv fs0 root z had s) (h1 : OneMerges s.disks) (h1' : OneMerges s'.disks) (hs : Step z root OnlyReads cpus s s')
    (hh : ∀ g b, s.fs.get? (root ++ [g, "index"]) = some (.file b) → had g) (hd : (∀ v ∈ s'.procs, ¬ Merging v.disk) → ∀ g, had g → ∃ b, s'.fs.get? (root ++ [g, "index"]) = some (.file b)) : RInv fs0 root z had s' := by
  obtain ⟨i, v, v', hi, hst⟩ := hs
  have hp := get_disks hi
  have hcv : Calm fs0 root (s.sees v).disk := h.inv.calm i v.disk hp
  have hsv : Speaks fs0 root z (s.sees v).disk := h.speaks i v.disk hp
  have hse := h.search i v hi
  have hse' := Searches.step hcv hse hst
  have hset : (⟨v'.disk.fs, s.procs.set i v'⟩ : Replicas F).disks = ⟨v'.disk.fs, s.disks.procs.set i v'.disk⟩ := by
    unfold disks
    rw [List.map_set]
  have both : Inv fs0 root z had (⟨v'.disk.fs, s.procs.set i v'⟩ : Replicas F).disks ∧ ∀ (j : Nat) (p : BDisk), (⟨v'.disk.fs, s.procs.set i v'⟩ : Replicas F).disks.procs[j]? = some p → Speaks fs0 root z ((⟨v'.disk.fs, s.procs.set i v'⟩ : Replicas F).disks.sees p) := by
    rcases server_step hsv.down hse.idle hst with ⟨act, ho, he⟩ | ⟨hu, ha⟩
    · have ho : OnlyReads act := by rcases ho with ho | rfl; exact ho; trivial
      have hex : s.disks.exec z root (i, act) = some (⟨v'.disk.fs, s.procs.set i v'⟩ : Replicas F).disks := by
        rw [hset]
        unfold Shared.exec
        rw [show s.disks.procs[(i, act).1]? = some v.disk from hp]
        show ((s.sees v).disk.exec z root act).map _ = _
        rw [he]; rfl
      refine ⟨step_inv hz h.inv ho h1 h1' hex hh fun hq => hd fun w hw => hq w.disk (List.mem_map.2 ⟨w, hw, rfl⟩), step_speaks hz h.inv h.speaks ho h1 h1' hex⟩
    · obtain ⟨m, hm⟩ := hse.serve hu
      have hu' : v'.disk.d.up = true := by rw [ha.up, hu]
      have hm' := serves_step hm ⟨hst, hu'⟩
      rw [hset]
      refine ⟨aloof_inv h.inv hp ha hm'.calm, fun j q hq => ?_⟩
      have hlt : i < s.disks.procs.length := (List.getElem?_eq_some_iff.1 hp).1
      by_cases e : j = i
      · subst e
        rw [show (⟨v'.disk.fs, s.disks.procs.set j v'.disk⟩ : Shared).procs[j]? = some v'.disk from by show (s.disks.procs.set j v'.disk)[j]? = _; rw [List.getElem?_set_self hlt]] at hq
        obtain rfl := Option.some.inj hq
        exact aloof_speaks (s := (s.sees v).disk) ha hu hsv ((Serves.answers hm' _).trans (Serves.answers hm _).symm)
      · have hq : (s.disks.procs.set i v'.disk)[j]? = some q := hq
        rw [List.getElem?_set_ne (Ne.symm e)] at hq
        show Speaks fs0 root z { q with fs := v'.disk.fs }
        rw [ha.fs]
        exact h.speaks j q hq
  refine ⟨both.1, both.2, fun j w hw => ?_⟩
  have hlt : i < s.procs.length := (List.getElem?_eq_some_iff.1 hi).1
  by_cases e : j = i
  · subst e
    rw [show (⟨v'.disk.fs, s.procs.set j v'⟩ : Replicas F).procs[j]? = some v' from by show (s.procs.set j v')[j]? = _; rw [List.getElem?_set_self hlt]] at hw
    obtain rfl := Option.some.inj hw
    exact hse'
  · have hc := both.1.calm j w.disk (get_disks hw)
    have hw : (s.procs.set i v')[j]? = some w := hw
    rw [List.getElem?_set_ne (Ne.symm e)] at hw
    exact Searches.seeing (v := s.sees w) hc (h.search j w hw)

/-- a field whose index file was there in one of the states. -/
def Had (root : Path) (ss : List (Replicas F)) (f : String) : Prop := ∃ s0 ∈ ss, ∃ b, s0.fs.get? (root ++ [f, "index"]) = some (.file b)

theorem run_rinv {fs : FS} {n : Nat} (h0 : Tree root fs) (hz : ∀ d, Gz.Written d (z d)) {ss : List (Replicas F)} (h : Run z root OnlyReads cpus (start fs (n + 1)) ss) : Orderly root ss → ∀ s before, ss = s :: before → RInv fs root z (Had root ss) s := by
  induction h with
  | start =>
    intro _ s before e
    cases e
    have get : ∀ {i : Nat} {p : BDisk}, (start fs (n + 1) : Replicas F).disks.procs[i]? = some p → p = ({ fs := fs } : BDisk).kill := fun h => by
      obtain ⟨v, hv, rfl⟩ := disks_get h
      rw [List.eq_of_mem_replicate (List.mem_of_getElem? hv)]
    refine ⟨⟨fun i p hp => ?_, 0, ({ fs := fs } : BDisk).kill, rfl, ⟨fun _ _ => rfl, fun _ _ _ => Iff.rfl⟩, fun j q _ hq => ?_⟩, fun i p hp => ?_, fun i v hv => ?_⟩
    · obtain rfl := get hp
      exact Calm.kill (s := { fs := fs }) h0 fun _ => rfl
    · obtain rfl := get hq
      exact not_merging.2 (.inl rfl)
    · obtain rfl := get hp
      exact Ended.speaks ⟨rfl, rfl⟩
    · obtain rfl := List.eq_of_mem_replicate (List.mem_of_getElem? hv)
      exact ⟨fun _ => rfl, fun e => by cases e⟩
  | step s s' before h hs ih =>
    intro ho x xs e
    cases e
    have ho1 : Orderly root (s :: before) := ⟨fun t ht => ho.1 t (List.mem_cons_of_mem _ ht), fun t bs hbs => ho.2 t bs (hbs.trans (List.suffix_cons _ _))⟩
    have one : ∀ t ∈ s' :: s :: before, OneMerges t.disks := fun t ht i j p q hne hp hq => by
      obtain ⟨v, hv, rfl⟩ := disks_get hp
      obtain ⟨w, hw, rfl⟩ := disks_get hq
      exact ho.1 t ht i j v w hne hv hw
    have hi := ih ho1 s before rfl
    have hh : ∀ g b, s.fs.get? (root ++ [g, "index"]) = some (.file b) → Had root (s :: before) g := fun g b hb => ⟨s, by simp, b, hb⟩
    have key := step_rinv hz hi (one s (by simp)) (one s' (by simp)) hs hh fun hq g hg => by
      obtain ⟨s0, hs0, b, hb⟩ := hg
      exact ho.2 s' (s :: before) (List.suffix_refl _) hq s0 g b hs0 hb
    exact ⟨key.inv.mono fun g ⟨s0, hs0, hb⟩ => ⟨s0, List.mem_cons_of_mem _ hs0, hb⟩, key.speaks, key.search⟩

theorem Run.state {t : Replicas F} {allow : CDisk.Act → Prop} {ss : List (Replicas F)} (h : Run z root allow cpus t ss) : ∀ s ∈ ss, ∃ before, Run z root allow cpus t (s :: before) ∧ s :: before <:+ ss := by
  induction h with
  | start =>
    intro s hs
    obtain rfl := List.mem_singleton.1 hs
    exact ⟨[], .start, List.suffix_refl _⟩
  | step s s' before h hs ih =>
    intro x hx
    rcases List.mem_cons.1 hx with rfl | hx
    · exact ⟨_, .step s _ before h hs, List.suffix_refl _⟩
    · obtain ⟨bs, h1, h2⟩ := ih x hx
      exact ⟨bs, h1, h2.trans (List.suffix_cons _ _)⟩

omit [GoFloat F] in
theorem Orderly.suffix {ss ss' : List (Replicas F)} (h : Orderly root ss) (hs : ss' <:+ ss) : Orderly root ss' := ⟨fun t ht => h.1 t (hs.subset ht), fun t bs hbs => h.2 t bs (hbs.trans hs)⟩

/-- **C131, the searches.** Any number of instances of the program have one folder, are opened and killed at any time, and answer any number of searches side by side. If no two of them merge at the same time, and none ends while an index file is missing:
in every state of the run, every search that has returned, at whatever instance, has returned every document (whose id is the name of a file) once, with the BM25 scores that a store gives it that says what the folder said at first. -/
theorem c131_search_partial {fs : FS} {n : Nat} (h0 : Tree root fs) (hz : ∀ d, Gz.Written d (z d)) {ss : List (Replicas F)} (h : Run z root OnlyReads cpus (start fs (n + 1)) ss) (ho : Orderly root ss)
    {s : Replicas F} (hs : s ∈ ss) {v : BServer F} (hv : v ∈ s.procs) {r : DReq F} (hr : r ∈ v.reqs) {l : Scores F} (hl : r.result = some l) :
    ∃ st : Reads, Answers fs root st ∧ st.Consistent ∧ (l.map Prod.fst).Nodup ∧ ∃ qs : List (Query F), qs.Perm r.query ∧ ∀ d, PlainName d → ∀ x, (d, x) ∈ l ↔ docScores st qs d ≠ [] ∧ x = (docScores st qs d).foldl GoFloat.add (GoFloat.lit 0) := by
  obtain ⟨before, h1, h2⟩ := h.state s hs
  have hi := run_rinv h0 hz h1 (ho.suffix h2) s before rfl
  obtain ⟨i, hv⟩ := List.getElem?_of_mem hv
  have hse := hi.search i v hv
  have hu : v.disk.d.up = true := by
    cases e : v.disk.d.up with
    | true => rfl
    | false =>
      have : v.reqs = [] := hse.idle e
      rw [this] at hr; cases hr
  obtain ⟨m, hm⟩ := hse.serve hu
  have ha := (hi.speaks i v.disk (get_disks hv)).up hu
  have ha : Answers fs root (v.disk.d.readsOf (doc0 fs root)) := ha
  refine ⟨_, ha, readsOf_consistent _ _, ?_⟩
  obtain ⟨as, a1, a2, a3, -⟩ := DReq.collects_result (hm.col r hr) hl
  refine ⟨a3.1, as.map Answer.query, a1, fun d hp x => ?_⟩
  have em : v.disk.d.readsOf (doc0 fs root) = ({ v.disk.d with mem := m } : CDisk).readsOf (doc0 fs root) := Serves.answers hm _
  have e : as.filterMap (·.score d) = docScores (v.disk.d.readsOf (doc0 fs root)) (as.map Answer.query) d := by
    unfold docScores
    rw [List.filterMap_map, em]
    exact List.filterMap_congr fun a ha' => Right.score (s := { v.disk.d with mem := m }) (a2 a ha') hp
  rw [a3.2, e]

/-- … so, over the reals, two searches with the same queries return the same documents with the same scores, at whatever instances and at whatever times. -/
theorem c131_agree_partial {fs : FS} {n : Nat} (h0 : Tree root fs) (hz : ∀ d, Gz.Written d (z d)) (one : OneMetrics fs root) {ss : List (Replicas ℝ)} (h : Run z root OnlyReads cpus (start fs (n + 1)) ss) (ho : Orderly root ss)
    {s s' : Replicas ℝ} (hs : s ∈ ss) (hs' : s' ∈ ss) {v v' : BServer ℝ} (hv : v ∈ s.procs) (hv' : v' ∈ s'.procs) {r r' : DReq ℝ} (hr : r ∈ v.reqs) (hr' : r' ∈ v'.reqs) (hq : r.query.Perm r'.query)
    {l l' : Scores ℝ} (hl : r.result = some l) (hl' : r'.result = some l') {d : String} (hp : PlainName d) (x : ℝ) : (d, x) ∈ l ↔ (d, x) ∈ l' := by
  obtain ⟨st, a1, -, -, qs, p1, e1⟩ := c131_search_partial h0 hz h ho hs hv hr hl
  obtain ⟨st', b1, -, -, qs', p2, e2⟩ := c131_search_partial h0 hz h ho hs' hv' hr' hl'
  have e : docScores st qs d = docScores st' qs d := List.filterMap_congr fun q _ => Answers.score (fun _ => rfl) one a1 b1 q hp
  rw [e1 d hp, e2 d hp, foldl_add_real, foldl_add_real, e]
  have hpp := docScores_perm (st := st') (p1.trans (hq.trans p2.symm)) d
  rw [hpp.sum_eq, ne_eq, ne_eq, perm_nil_iff hpp]

end Replicas
end Goir
