import Verif.Props.DiskBytesLive
import Verif.Props.DiskBytesDocsCases
import Mathlib.Data.Fintype.Pi
import Mathlib.Data.Fintype.BigOperators
/-!
# C118: every call completes, on the bytes (C91): the theorems
-/
namespace Goir
open GoMap Spec

namespace BDisk
open CDisk
variable {root : Path} {fs : FS} {z : Bytes → Bytes} {D : String → Prop} {s : BDisk} {a : CDisk}

theorem roomy_filter {as bs : List Act} (h : bs.filter isOpen = as.filter isOpen) (hr : Roomy as) : Roomy bs := fun n progs hm => by
  have : Act.openRest n progs ∈ bs.filter isOpen := List.mem_filter.2 ⟨hm, rfl⟩
  rw [h] at this
  exact hr n progs (List.mem_filter.1 this).1

theorem plainLoops_init : PlainLoops ({ fs := fs } : BDisk).d := ⟨fun _ _ _ _ e => (by cases e), fun _ _ _ _ e => (by cases e), fun _ _ _ _ e => (by cases e)⟩

theorem fragOk_init : FragOk { fs := fs } := fun _ _ e => by cases e

/-- **C118, no deadlock** (C91 on bytes). However the store got here, byte by byte: for every client that has calls to make or to complete, that client or one of the writers can take a step now, without waiting for another client or for
a ticker, and the process does not end by it, unless what a writer has to write is larger than a serializer can make (1 GiB, C111). The uuids are assumed not to be used up. -/
theorem c118_no_deadlock {as : List Act} {i : Nat} (hroot : EmptyRoot root fs) (hz : ∀ d, Gz.Written d (z d)) (hD : Ids D) (hn : Named D as) (hr : Roomy as) (h : run z root { fs := fs } as = some s)
    (hu : s.d.up = true) (hleft : NamesLeft root s) (hd : ¬ DoneAt s.d i) : ∃ act s', serves i act = true ∧ s.exec z root act = some s' ∧ (s'.d.up = true ∨ TooBig s) := by
  obtain ⟨bs, a, h1, h2, h3, h4⟩ := sim hz hD (brel_init hroot) (AInv.init D) hn h
  have gv : GoValues (written bs) := by rw [same_written h4]; exact named_values hn
  have hd' : ¬ DoneAt a i := fun e => hd fun cl hcl => e cl (by rw [h2.clients]; exact hcl)
  obtain ⟨act, a', g1, g2, -⟩ := c91_no_deadlock h1 gv (roomy_filter h4 hr) (by rw [h2.up]; exact hu) hd'
  exact serves_back hD h2 h3 (plainLoops_run plainLoops_init h) (fragOk_run fragOk_init h) hu hleft z g1 g2

/-! ### no run of such steps goes on for ever -/

/-- system calls a save has left. -/
def callsLeft : Option (SaveCall × SavePc) → Nat
  | none => 0
  | some (c, pc) => match pc with
    | .start => c.buf.length + 6
    | .writing n => c.buf.length - n + 5
    | .written => 4
    | .moved => 3
    | .installed => 2
    | _ => 1

/-- whether a writer is between two files. -/
def between : Option (SaveCall × SavePc) → Nat
  | none => 1
  | some _ => 0

/-- bytes a fragment has left. -/
def fragLeft : Option (Bytes × Nat) → Nat
  | none => 0
  | some (bs, n) => bs.length - n

def saves (s : BDisk) : Nat := between s.saveM + between s.saveN + between s.saveD
def calls (s : BDisk) : Nat := callsLeft s.saveM + callsLeft s.saveN + callsLeft s.saveD + fragLeft s.frag

/-- less is left to do: steps of the clients and of the writers, or else files to begin, or else system calls and bytes. -/
def Less (s' s : BDisk) : Prop :=
  work s'.d < work s.d ∨ work s'.d = work s.d ∧ (saves s' < saves s ∨ saves s' = saves s ∧ calls s' < calls s)

theorem less_acc (s : BDisk) : Acc Less s := by
  generalize hw : work s.d = w
  induction w using Nat.strongRecOn generalizing s with
  | _ w ihw =>
    generalize hv : saves s = v
    induction v using Nat.strongRecOn generalizing s with
    | _ v ihv =>
      generalize hc : calls s = c
      induction c using Nat.strongRecOn generalizing s with
      | _ c ihc =>
        refine ⟨_, fun t ht => ?_⟩
        rcases ht with ht | ⟨e1, ht | ⟨e2, ht⟩⟩
        · exact ihw (work t.d) (by omega) t rfl
        · exact ihv (saves t) (by omega) t (by omega) rfl
        · exact ihc (calls t) (by omega) t (by omega) (by omega) rfl

theorem save_less {c : SaveCall} {fs fs' : FS} {pc pc' : SavePc} (h : c.step (fs, pc) = some (fs', pc')) (hf : pc' ≠ .failed) : callsLeft (some (c, pc')) < callsLeft (some (c, pc)) := by
  cases pc <;> simp only [SaveCall.step] at h <;> (repeat' split at h) <;> cases h <;> first | exact absurd rfl hf | (simp only [callsLeft]; omega)

/-- what a step of a writer leaves: it goes to the next file, or begins one, or makes one more system call. -/
theorem flush_less {B : Type} {dir : String → Path} {name : String → String} {ser : String → B → Option Bytes} {fs fs' : FS} {fl fl' : Flusher B} {sv sv' : Option (SaveCall × SavePc)}
    (h : BDisk.flush z dir name ser fs fl sv = some (fs', some (fl', sv'))) :
    Disk.flushLeft fl'.pc < Disk.flushLeft fl.pc ∨ fl'.pc = fl.pc ∧ (between sv' < between sv ∨ between sv' = between sv ∧ callsLeft sv' < callsLeft sv) := by
  cases sv with
  | none =>
    simp only [BDisk.flush] at h
    split at h
    · rename_i hp; cases h; left; simp [hp, Disk.flushLeft]
    · repeat' split at h
      all_goals first
        | (cases h; done)
        | (cases h; right; exact ⟨rfl, .inl (by simp [between])⟩)
    · cases h
  | some x =>
    obtain ⟨c, pc⟩ := x
    by_cases hdone : pc = .done
    · subst hdone
      simp only [BDisk.flush] at h
      split at h
      · rename_i hp; cases h; left; simp only [hp, Disk.flushLeft, List.length_cons]; omega
      · cases h
    · have h' : (match c.step (fs, pc) with
        | none => none
        | some (fs', .failed) => some (fs', none)
        | some (fs', pc') => some (fs', some (fl, some (c, pc')))) = some (fs', some (fl', sv')) := by
        cases pc <;> first | exact absurd rfl hdone | exact h
      split at h'
      · cases h'
      · cases h'
      · rename_i hst
        cases h'
        refine .inr ⟨rfl, .inr ⟨rfl, save_less hst ?_⟩⟩
        rename_i hne
        exact fun e => hne (by rw [e])

theorem prompt_less (hD : Ids D) (h : BRel root D s a) (hi : AInv D a) {act : Act} {s' : BDisk} (hp : prompt act = true) (hu : s.d.up = true) (he : s.exec z root act = some s') (hu' : s'.d.up = true) : Less s' s := by
  have talkS : ∀ {d' a' : CDisk}, talk act = true → s.d.exec act = some d' → a.exec act = some a' → a'.clients = d'.clients → a'.ix.chan = d'.ix.chan → Less { s with d := d' } s := by
    intro d' a' ht e1 e2 c1 c2
    obtain ⟨f1, f2, f3, f4, -⟩ := talk_frame ht (exec_step e1)
    obtain ⟨g1, g2, g3, g4, -⟩ := talk_frame ht (exec_step e2)
    have w := (work_step hi.ok (by rw [h.up]; exact hu) hp (exec_step e2)).1
    left
    unfold CDisk.work at w ⊢
    rw [g1, g2, g3, g4, c1, c2, h.clients, h.ichan] at w
    simp only [f1, f2, f3, f4]
    omega
  cases act with
  | client j k =>
    by_cases hl : ∃ ids name id todo out, s.d.curOf j = some (.read ids name (.load id todo out))
    · obtain ⟨ids, name, id, todo, out, hc⟩ := hl
      have he' : s' = s.readDoc root j ids name id todo out := by
        simp only [BDisk.exec, hc] at he
        rw [if_pos hu] at he; cases he; rfl
      subst he'
      obtain ⟨b, a', e1, e2, e3⟩ := readDoc_sim (k := k) h hi hD hu hc
      rcases e3 with rfl | rfl
      · obtain ⟨g1, g2, g3, g4, -⟩ := talk_frame rfl (exec_step e1)
        have w := (work_step hi.ok (by rw [h.up]; exact hu) hp (exec_step e1)).1
        have fr : (s.readDoc root j ids name id todo out).d.ix.writer = s.d.ix.writer ∧ (s.readDoc root j ids name id todo out).d.mx.pc = s.d.mx.pc ∧ (s.readDoc root j ids name id todo out).d.nf.pc = s.d.nf.pc ∧
            (s.readDoc root j ids name id todo out).d.fl.pc = s.d.fl.pc := by
          revert hu'
          unfold BDisk.readDoc
          split
          · intro e; cases e
          · exact fun _ => ⟨rfl, rfl, rfl, rfl⟩
          · exact fun _ => ⟨rfl, rfl, rfl, rfl⟩
        obtain ⟨f1, f2, f3, f4⟩ := fr
        left
        unfold CDisk.work at w ⊢
        rw [g1, g2, g3, g4, e2.clients, e2.ichan, h.clients, h.ichan] at w
        simp only [f1, f2, f3, f4]
        omega
      · have : a'.up = false := by
          cases exec_step e1
          rfl
        rw [e2.up, hu'] at this; cases this
    · have hl : ∀ ids name id todo out, s.d.curOf j ≠ some (.read ids name (.load id todo out)) := fun ids name id todo out e => hl ⟨ids, name, id, todo, out, e⟩
      rw [exec_plain hl] at he
      obtain ⟨d', e1, rfl⟩ := Option.map_eq_some_iff.1 he
      obtain ⟨a', e2, e3⟩ := client_sim h hl e1
      exact talkS rfl e1 e2 e3.clients e3.ichan
  | recvM j =>
    obtain ⟨d', e1, rfl⟩ := Option.map_eq_some_iff.1 he
    obtain ⟨a', e2, e3⟩ := loops_sim h (.inl ⟨j, .inl rfl⟩) e1
    exact talkS rfl e1 e2 e3.clients e3.ichan
  | recvN j =>
    obtain ⟨d', e1, rfl⟩ := Option.map_eq_some_iff.1 he
    obtain ⟨a', e2, e3⟩ := loops_sim h (.inl ⟨j, .inr (.inl rfl)⟩) e1
    exact talkS rfl e1 e2 e3.clients e3.ichan
  | recvD j =>
    obtain ⟨d', e1, rfl⟩ := Option.map_eq_some_iff.1 he
    obtain ⟨a', e2, e3⟩ := loops_sim h (.inl ⟨j, .inr (.inr rfl)⟩) e1
    exact talkS rfl e1 e2 e3.clients e3.ichan
  | stepM =>
    obtain ⟨⟨fs', r⟩, hf, rfl⟩ := Option.map_eq_some_iff.1 he
    cases r with
    | none => cases hu'
    | some x =>
      have := flush_less hf
      unfold Less CDisk.work saves calls
      rcases this with this | ⟨e, this⟩
      · left; simp only; omega
      · refine .inr ⟨by simp only [e], ?_⟩
        rcases this with this | ⟨e2, this⟩
        · left; dsimp only; omega
        · right; dsimp only; omega
  | stepN =>
    obtain ⟨⟨fs', r⟩, hf, rfl⟩ := Option.map_eq_some_iff.1 he
    cases r with
    | none => cases hu'
    | some x =>
      have := flush_less hf
      unfold Less CDisk.work saves calls
      rcases this with this | ⟨e, this⟩
      · left; simp only; omega
      · refine .inr ⟨by simp only [e], ?_⟩
        rcases this with this | ⟨e2, this⟩
        · left; dsimp only; omega
        · right; dsimp only; omega
  | stepD =>
    obtain ⟨⟨fs', r⟩, hf, rfl⟩ := Option.map_eq_some_iff.1 he
    cases r with
    | none => cases hu'
    | some x =>
      have := flush_less hf
      unfold Less CDisk.work saves calls
      rcases this with this | ⟨e, this⟩
      · left; simp only; omega
      · refine .inr ⟨by simp only [e], ?_⟩
        rcases this with this | ⟨e2, this⟩
        · left; dsimp only; omega
        · right; dsimp only; omega
  | ix b =>
    simp only [BDisk.exec] at he
    rw [if_pos (.inl hu)] at he
    have hproc : s.d.ix.proc = .up := by rw [← h.iproc]; exact hi.ok.proc (by rw [h.up]; exact hu)
    cases b with
    | recv =>
      obtain ⟨d', e1, rfl⟩ := Option.map_eq_some_iff.1 he
      simp only [CDisk.exec] at e1
      split at e1
      · obtain ⟨ix, e2, rfl⟩ := Option.map_eq_some_iff.1 e1
        simp only [IxState.exec] at e2
        split at e2
        · rename_i q1 q2 q3
          cases e2
          left
          split <;> rename_i hpr
          · have hpr : s.d.ix.proc = .down := hpr
            rw [hproc] at hpr; cases hpr
          · unfold CDisk.work; simp only [q3, List.length_cons]; omega
        · cases e2
      · cases e1
    | flushed =>
      obtain ⟨d', e1, rfl⟩ := Option.map_eq_some_iff.1 he
      simp only [CDisk.exec] at e1
      split at e1
      · obtain ⟨ix, e2, rfl⟩ := Option.map_eq_some_iff.1 e1
        simp only [IxState.exec] at e2
        split at e2
        · rename_i q1
          cases e2
          left
          split <;> rename_i hpr
          · have hpr : s.d.ix.proc = .down := hpr
            rw [hproc] at hpr; cases hpr
          · unfold CDisk.work; simp only [q1, Disk.writerLeft, List.length_nil]; omega
        · cases e2
      · cases e1
    | create n =>
      simp only [BDisk.ixExec, BDisk.create] at he
      split at he
      · rename_i f p rest hw hf
        repeat' split at he
        all_goals first
          | (cases he; done)
          | (cases he; cases hu'; done)
          | (cases he; left; unfold CDisk.work; simp only [hw, Disk.writerLeft, List.length_cons]; omega)
      · cases he
    | write =>
      simp only [BDisk.ixExec, BDisk.write] at he
      split at he
      · rename_i f p rest name bs n hw hf
        split at he
        · rename_i hlt
          cases he
          right
          refine ⟨rfl, .inr ⟨rfl, ?_⟩⟩
          unfold calls
          simp only [hf, fragLeft]; omega
        · cases he
          left; unfold CDisk.work; simp only [hw, Disk.writerLeft, List.length_cons]; omega
      · cases he
    | _ => cases hp
  | _ => cases hp

/-- **C118, every run stops** (C91 on bytes). The clients and the writers, byte by byte, cannot take turns for ever: sooner or later a ticker has to fire, or the process has ended. -/
theorem c118_ends {as : List Act} (hroot : EmptyRoot root fs) (hz : ∀ d, Gz.Written d (z d)) (hD : Ids D) (hn : Named D as) (h : run z root { fs := fs } as = some s)
    (σ : Nat → BDisk) (h0 : σ 0 = s) (hs : ∀ n, ∃ act, prompt act = true ∧ (σ n).exec z root act = some (σ (n + 1))) : ∃ n, (σ n).d.up = false := by
  by_contra hup
  have hup : ∀ n, (σ n).d.up = true := fun n => by
    cases e : (σ n).d.up with
    | true => rfl
    | false => exact absurd ⟨n, e⟩ hup
  have reach : ∀ n, ∃ bs, (∀ b ∈ bs, prompt b = true) ∧ s.run z root bs = some (σ n) := by
    intro n
    induction n with
    | zero => exact ⟨[], by simp, by rw [h0]; rfl⟩
    | succ n ih =>
      obtain ⟨bs, h1, h2⟩ := ih
      obtain ⟨act, h3, h4⟩ := hs n
      refine ⟨bs ++ [act], ?_, brun_append.2 ⟨_, h2, brun_one.2 h4⟩⟩
      intro b hb
      rcases List.mem_append.1 hb with hb | hb
      · exact h1 b hb
      · rw [List.mem_singleton.1 hb]; exact h3
  have less : ∀ n, Less (σ (n + 1)) (σ n) := by
    intro n
    obtain ⟨bs, h1, h2⟩ := reach n
    have hn' : Named D (as ++ bs) := fun m p hm => by
      rcases List.mem_append.1 hm with hm | hm
      · exact hn m p hm
      · cases h1 _ hm
    obtain ⟨bs', a, -, q2, q3, -⟩ := sim hz hD (brel_init hroot) (AInv.init D) hn' (brun_append.2 ⟨s, h, h2⟩)
    obtain ⟨act, g1, g2⟩ := hs n
    exact prompt_less hD q2 q3 g1 (hup n) g2 (hup (n + 1))
  have : ∀ t, Acc Less t → ∀ n, σ n ≠ t := by
    intro t ht
    induction ht with
    | intro t _ ih => intro n e; exact ih _ (e ▸ less n) (n + 1) rfl
  exact this (σ 0) (less_acc _) 0 rfl

/-- **C118, every schedule** (C91 on bytes). A run of such steps that cannot be continued has reached a store all of whose clients have finished (and by `c118_ends` every run stops). -/
theorem c118_every_schedule {as bs : List Act} {s' : BDisk} (hroot : EmptyRoot root fs) (hz : ∀ d, Gz.Written d (z d)) (hD : Ids D) (hn : Named D as) (hr : Roomy as) (h : run z root { fs := fs } as = some s)
    (hb : ∀ b ∈ bs, prompt b = true) (hrun : s.run z root bs = some s') (hu : s'.d.up = true) (hleft : NamesLeft root s') (hmax : ∀ act, prompt act = true → s'.exec z root act = none) : Finished s'.d := by
  rw [finished_iff]
  intro i
  by_cases hd : DoneAt s'.d i
  · exact hd
  · have hmem : ∀ {n progs}, Act.openRest n progs ∈ as ++ bs → Act.openRest n progs ∈ as := fun hm => by
      rcases List.mem_append.1 hm with hm | hm
      · exact hm
      · cases hb _ hm
    obtain ⟨act, t, g1, g2, -⟩ := c118_no_deadlock (as := as ++ bs) hroot hz hD (fun n p hm => hn n p (hmem hm)) (fun n p hm => hr n p (hmem hm)) (brun_append.2 ⟨s, h, hrun⟩) hu hleft hd
    rw [hmax act (serves_prompt g1)] at g2; cases g2

/-- **C118, alone** (C91 on bytes). Each client can complete its calls alone: from every state there is a run, with steps of that client and of the writers only, after which it has finished, or in which something is too large for a
serializer. -/
theorem c118_alone {as : List Act} (hroot : EmptyRoot root fs) (hz : ∀ d, Gz.Written d (z d)) (hD : Ids D) (hn : Named D as) (hr : Roomy as) (h : run z root { fs := fs } as = some s) (hu : s.d.up = true) (i : Nat)
    (hleft : ∀ bs t, (∀ b ∈ bs, serves i b = true) → s.run z root bs = some t → NamesLeft root t) :
    ∃ bs t, (∀ b ∈ bs, serves i b = true) ∧ s.run z root bs = some t ∧ t.d.up = true ∧ (DoneAt t.d i ∨ TooBig t) := by
  have ha := less_acc s
  induction ha generalizing as with
  | intro s _ ih =>
    by_cases hd : DoneAt s.d i
    · exact ⟨[], s, by simp, rfl, hu, .inl hd⟩
    by_cases hbig : TooBig s
    · exact ⟨[], s, by simp, rfl, hu, .inr hbig⟩
    obtain ⟨act, t, g1, g2, g3⟩ := c118_no_deadlock hroot hz hD hn hr h hu (hleft [] s (by simp) rfl) hd
    have hut := g3.resolve_right hbig
    have hp := serves_prompt g1
    obtain ⟨bs0, a, -, q2, q3, -⟩ := sim hz hD (brel_init hroot) (AInv.init D) hn h
    have hmem : ∀ {n progs}, Act.openRest n progs ∈ as ++ [act] → Act.openRest n progs ∈ as := fun hm => by
      rcases List.mem_append.1 hm with hm | hm
      · exact hm
      · rw [← List.mem_singleton.1 hm] at hp; cases hp
    have cons : ∀ {bs : List Act}, (∀ b ∈ bs, serves i b = true) → ∀ b ∈ act :: bs, serves i b = true := fun hb b hm => by
      rcases List.mem_cons.1 hm with rfl | hm
      · exact g1
      · exact hb b hm
    obtain ⟨bs, t', k1, k2, k3⟩ := ih t (prompt_less hD q2 q3 hp hu g2 hut) (as := as ++ [act]) (fun n p hm => hn n p (hmem hm)) (fun n p hm => hr n p (hmem hm)) (brun_append.2 ⟨s, h, brun_one.2 g2⟩) hut
      (fun bs t' hb ht' => hleft (act :: bs) t' (cons hb) (brun_cons.2 ⟨t, g2, ht'⟩))
    exact ⟨act :: bs, t', cons k1, brun_cons.2 ⟨t, g2, k2⟩, k3⟩

/-- names are left if one uuid is used nowhere. -/
theorem namesLeft_of {u : String} (hu : IsUuid u) (h : ∀ e ∈ s.fs, e.1.getLast? ≠ some u) : NamesLeft root s := by
  intro f
  refine ⟨u, hu, ?_⟩
  rw [join_plain hu.plain]
  cases hg : s.fs.get? (tempDir root f ++ [u]) with
  | none => rfl
  | some x => exact absurd (List.getLast?_concat ..) (h _ (GoMap.mem_of_get? hg))

/-- the hypotheses of `c118_no_deadlock` are met while two clients are in their calls and the writer of sizes and lengths is writing a byte. -/
example : ∃ s, run packer ["data"] { fs := folder } (openEmpty 2 twoUsers ++ (turns 7 ++ [.recvM 0, .tickM ["title"]] ++ List.replicate 9 .stepM)) = some s ∧
    s.d.up = true ∧ NamesLeft ["data"] s ∧ ¬ DoneAt s.d 0 ∧ ¬ DoneAt s.d 1 ∧ (s.exec packer ["data"] (.recvM 1)).isNone = true ∧ callsLeft s.saveM > 20 := by
  have key : ∃ s, run packer ["data"] { fs := folder } (openEmpty 2 twoUsers ++ (turns 7 ++ [.recvM 0, .tickM ["title"]] ++ List.replicate 9 .stepM)) = some s ∧
      decide (s.d.up = true ∧ (∀ e ∈ s.fs, e.1.getLast? ≠ some "00000000-0000-4000-8000-000000000000") ∧ (s.d.clients[0]?.all fun cl => cl.cur.isNone) = false ∧ (s.d.clients[1]?.all fun cl => cl.cur.isNone) = false ∧
        (s.exec packer ["data"] (.recvM 1)).isNone = true ∧ callsLeft s.saveM > 20) = true := exists_of (by decide +kernel)
  obtain ⟨s, h1, h2⟩ := key
  rw [decide_eq_true_eq] at h2
  obtain ⟨k1, k2, k3, k4, k5, k6⟩ := h2
  refine ⟨s, h1, k1, namesLeft_of (by decide) k2, ?_, ?_, k5, k6⟩
  · intro hd
    cases hc : s.d.clients[0]? with
    | none => rw [hc] at k3; cases k3
    | some cl => rw [hc, Option.all_some, (hd cl hc).1] at k3; cases k3
  · intro hd
    cases hc : s.d.clients[1]? with
    | none => rw [hc] at k4; cases k4
    | some cl => rw [hc, Option.all_some, (hd cl hc).1] at k4; cases k4

/-- a name of `n` characters; there are `2 ^ n` of this kind. -/
def bitName {n : Nat} (v : Fin n → Bool) : String := String.ofList (List.ofFn fun i => if v i then '1' else '0')

theorem bitName_uuid {n : Nat} (hn : n = 36) (v : Fin n → Bool) : IsUuid (bitName v) := by
  refine ⟨?_, ?_⟩
  · simp [bitName, hn]
  · simp only [bitName, String.toList_ofList, List.mem_ofFn, not_exists]
    intro i h
    split at h <;> cases h

theorem bitName_inj {n : Nat} : Function.Injective (bitName (n := n)) := by
  intro v w h
  have h1 := congrArg String.toList h
  simp only [bitName, String.toList_ofList] at h1
  have h2 := List.ofFn_injective h1
  funext i
  have := congrFun h2 i
  cases hv : v i <;> cases hw : w i <;> simp [hv, hw] at this ⊢

theorem namesLeft_of_lt {n : Nat} (hn : n = 36) (h : s.fs.length < 2 ^ n) : NamesLeft root s := by
  intro f
  by_contra hno
  have hall : ∀ v : Fin n → Bool, tempDir root f ++ [bitName v] ∈ s.fs.map Prod.fst := by
    intro v
    by_contra hv
    refine hno ⟨bitName v, bitName_uuid hn v, ?_⟩
    rw [join_plain (bitName_uuid hn v).plain]
    cases hg : s.fs.get? (tempDir root f ++ [bitName v]) with
    | none => rfl
    | some x => exact absurd (List.mem_map.2 ⟨_, GoMap.mem_of_get? hg, rfl⟩) hv
  have inj : Function.Injective fun v : Fin n → Bool => tempDir root f ++ [bitName v] := by
    intro v w e
    have := List.append_cancel_left e
    exact bitName_inj (List.cons.inj this).1
  have sub : Finset.univ.image (fun v : Fin n → Bool => tempDir root f ++ [bitName v]) ⊆ (s.fs.map Prod.fst).toFinset := by
    intro p hp
    obtain ⟨v, -, rfl⟩ := Finset.mem_image.1 hp
    exact List.mem_toFinset.2 (hall v)
  have card := Finset.card_le_card sub
  rw [Finset.card_image_of_injective _ inj, Finset.card_univ, Fintype.card_fun, Fintype.card_bool, Fintype.card_fin] at card
  have := (s.fs.map Prod.fst).toFinset_card_le
  rw [List.length_map] at this
  omega

/-- uuids are left in every folder as long as there are fewer than `2 ^ 36` files and directories. -/
theorem namesLeft_of_few (h : s.fs.length < 2 ^ 36) : NamesLeft root s := namesLeft_of_lt rfl h

end BDisk
end Goir
