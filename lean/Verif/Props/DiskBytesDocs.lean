import Verif.Props.ServerBytes
import Verif.Props.ConcurrentDiskDocs
/-!
# C118: documents and restarts on the bytes (C93, C94 and C95)
-/
namespace Goir
open GoMap Spec

namespace BDisk
open CDisk

variable {root : Path} {fs : FS} {z : Bytes → Bytes} {D : String → Prop}

theorem named_values : ∀ {as : List Act}, Named D as → GoValues (written as)
  | [], _ => fun _ h => by cases h
  | a :: as, hn => by
    have ih := named_values (as := as) fun n p hm => hn n p (List.mem_cons_of_mem _ hm)
    cases a with
    | openRest n progs =>
      intro op hop
      rcases List.mem_append.1 (show op ∈ progs.flatMap writes ++ written as from hop) with hop | hop
      · obtain ⟨p, hp, hop⟩ := List.mem_flatMap.1 hop
        have hpn := hn n progs (by simp) p hp
        clear hn hp ih
        induction p with
        | nil => cases hop
        | cons o p ihp =>
          cases o with
          | write x =>
            rcases List.mem_cons.1 hop with rfl | hop
            · exact (show OpNames D (.write op) from hpn _ (by simp)).2.2
            · exact ihp (by exact hop) fun o ho => hpn o (List.mem_cons_of_mem _ ho)
          | getFields ids name => exact ihp (by exact hop) fun o ho => hpn o (List.mem_cons_of_mem _ ho)
      · exact ih op hop
    | _ => exact ih

theorem same_written {as bs : List Act} (h : bs.filter isOpen = as.filter isOpen) : written bs = written as := by rw [← written_filter bs, h, written_filter]

/-- a run whose last step so far is that a store is opened. -/
theorem opened_sim {as : List Act} {n : Int} {progs : List (List DOp)} {s₁ : BDisk} (hroot : EmptyRoot root fs) (hz : ∀ d, Gz.Written d (z d)) (hD : Ids D) (hn : Named D (as ++ [.openRest n progs]))
    (h1 : run z root { fs := fs } (as ++ [.openRest n progs]) = some s₁) : ∃ bs a1, CDisk.run {} (bs ++ [.openRest n progs]) = some a1 ∧ BRel root D s₁ a1 ∧ AInv D a1 ∧ bs.filter isOpen = as.filter isOpen := by
  obtain ⟨s₀, g1, g2⟩ := brun_append.1 h1
  obtain ⟨bs0, a0, q1, q2, q3, q⟩ := sim hz hD (brel_init hroot) (AInv.init D) (fun n p hm => hn n p (List.mem_append_left _ hm)) g1
  obtain ⟨a1, q4, q5⟩ := openRest_sim q2 q3 (brun_one.1 g2)
  exact ⟨bs0, a1, by rw [CDisk.run_append, q1]; exact run_one q4, q5, q3.step q4 fun n' p' e => by cases e; exact hn n progs (by simp), q⟩

theorem noOpen_named {bs : List Act} (hb : ∀ b ∈ bs, noOpen b = true) : Named D bs := fun n p hm => by have := hb _ hm; cases this

/-- **C118, for a document that one client uses** (C94 on bytes). A store was opened on the bytes of a folder, whatever had happened before, with a cache that has room for all documents that its clients save or read, and only client `c` saves or reads
document `d`. Whenever a call of GetFields of client `c` that asks for `d` returns, it returns the field that client `c` saved last in this process. -/
theorem c118_own_document {as bs : List Act} {n : Int} {progs : List (List DOp)} {s₁ s s' : BDisk} {c k : Nat} {d name : String} {ids : List String} {out : GoMap String Field} {g : Field}
    (hroot : EmptyRoot root fs) (hz : ∀ d, Gz.Written d (z d)) (hD : Ids D) (hn : Named D (as ++ [.openRest n progs])) (h1 : run z root { fs := fs } (as ++ [.openRest n progs]) = some s₁)
    (ho : OneUser c d progs) (hroom : ((progs.flatMap touched).toFinset.card : Int) ≤ n) (hb : ∀ b ∈ bs, noOpen b = true) (h : s₁.run z root bs = some s) (hu : s.d.up = true)
    (hret : s.exec z root (.client c k) = some s') (hans : s'.d.answers = s.d.answers ++ [(ids, name, out)]) (hd : d ∈ ids) (hsaved : lastSaved s.d.returned d name = some g) : out.get? d = some g := by
  obtain ⟨bs0, a1, p1, p2, p3, p4⟩ := opened_sim hroot hz hD hn h1
  obtain ⟨bs1, a, q1, q2, q3, q4⟩ := sim hz hD p2 p3 (noOpen_named hb) h
  have al := q2.alike
  have hl : ∀ ids' name' id todo out', s.d.curOf c ≠ some (.read ids' name' (.load id todo out')) := fun ids' name' id todo out' hc => by
    simp only [BDisk.exec, hc, hu, if_true, Option.some.injEq] at hret
    subst hret
    unfold BDisk.readDoc at hans
    split at hans <;> (have := congrArg List.length hans; simp [BDisk.kill, CDisk.stop, CDisk.handoff] at this)
  have hstep : ∃ d', s.d.exec (.client c k) = some d' ∧ s' = { s with d := d' } := by
    simp only [BDisk.exec] at hret
    obtain ⟨d', e1, rfl⟩ := Option.map_eq_some_iff.1 hret
    exact ⟨d', e1, rfl⟩
  obtain ⟨d', e1, rfl⟩ := hstep
  obtain ⟨a', e2, e3⟩ := client_sim q2 hl e1
  have al' := e3.alike
  have gv : GoValues (written (bs0 ++ [.openRest n progs])) := by
    have := named_values hn
    rw [written_append, ← same_written p4, ← written_append] at this
    exact this
  exact c94_own_document_partial p1 gv ho hroom (noOpen_of_filter q4 hb) q1 (by rw [al.up]; exact hu) e2 (by rw [al'.answers, al.answers]; exact hans) hd (by rw [al.returned]; exact hsaved)

/-- **C118, for a document that nobody saves** (C95 on bytes). From a moment when no process runs, clients of any number of later processes save other documents and read any, with crashes at any byte. Every GetFields that asks for `d` returns what the
bytes of its file held at the beginning. -/
theorem c118_read_only {as bs : List Act} {s s' : BDisk} {d : String} {m : GoMap String Field} (hroot : EmptyRoot root fs) (hz : ∀ d, Gz.Written d (z d)) (hD : Ids D) (hn : Named D (as ++ bs))
    (h : run z root { fs := fs } as = some s) (hu : s.d.up = false) (hdD : D d) (hfile : (BDisk.loadDoc s.fs root d).map (fun o => o.getD []) = some m) (hno : ∀ op ∈ written bs, op.isSave = true → op.doc ≠ d)
    (hr : s.run z root bs = some s') {ids : List String} {name : String} {out : GoMap String Field} (ha : (ids, name, out) ∈ s'.d.answers) (hd : d ∈ ids) : out.get? d = m.get? name := by
  obtain ⟨as0, a, p1, p2, p3, p4⟩ := sim hz hD (brel_init hroot) (AInv.init D) (fun n p hm => hn n p (List.mem_append_left _ hm)) h
  obtain ⟨bs0, a', q1, q2, q3, q4⟩ := sim hz hD p2 p3 (fun n p hm => hn n p (List.mem_append_right _ hm)) hr
  have gv : GoValues (written (as0 ++ bs0)) := by
    rw [written_append, same_written p4, same_written q4, ← written_append]
    exact named_values hn
  refine c95_read_only p1 (by rw [p2.up]; exact hu) gv ?_ (by rw [same_written q4]; exact hno) q1 (by rw [q2.answers]; exact ha) hd
  rw [← BRel.loadDoc p2 hD hdD]; exact hfile

/-- **C118, after a restart, for a document that one client used** (C94 on bytes). If the writer of documents has written what it had about `d` when the process ends, every GetFields of any client of any later process returns the field saved last (its
numbers cut to 32 bits), as long as nobody saves `d` again. -/
theorem c118_restart_document {as bs cs : List Act} {n : Int} {progs : List (List DOp)} {s₁ s s' : BDisk} {c : Nat} {d name : String} {cl : DClient} {g : Field}
    (hroot : EmptyRoot root fs) (hz : ∀ d, Gz.Written d (z d)) (hD : Ids D) (hn : Named D (as ++ [.openRest n progs])) (hn' : Named D cs) (h1 : run z root { fs := fs } (as ++ [.openRest n progs]) = some s₁)
    (ho : OneUser c d progs) (hroom : ((progs.flatMap touched).toFinset.card : Int) ≤ n) (hb : ∀ b ∈ bs, noOpen b = true) (h : s₁.run z root bs = some s) (hu : s.d.up = true)
    (hcl : s.d.clients[c]? = some cl) (hq : ∀ op loc, cl.cur = some (.write op loc) → op.doc ≠ d) (hsaved : lastSaved s.d.returned d name = some g)
    (hbuf : s.d.fl.buf.get? d = none) (hno : ∀ op ∈ written cs, op.isSave = true → op.doc ≠ d) (hr : s.run z root (.crash :: cs) = some s')
    {ids : List String} {out : GoMap String Field} (ha : (ids, name, out) ∈ s'.d.answers) (hd : d ∈ ids) : out.get? d = some (cutField g) := by
  obtain ⟨bs0, a1, p1, p2, p3, p4⟩ := opened_sim hroot hz hD hn h1
  obtain ⟨bs1, a, q1, q2, q3, q4⟩ := sim hz hD p2 p3 (noOpen_named hb) h
  obtain ⟨t, r1, r2⟩ := brun_cons.1 hr
  obtain ⟨a2, r3, r4⟩ := crash_sim q2 r1
  obtain ⟨cs0, a', t1, t2, t3, t4⟩ := sim hz hD r4 (q3.step r3 fun _ _ e => by cases e) hn' r2
  have al := q2.alike
  have gv : GoValues (written (bs0 ++ [.openRest n progs] ++ cs0)) := by
    rw [written_append, written_append, same_written p4, same_written t4, ← written_append, ← written_append]
    refine named_values (D := D) fun n' p' hm => ?_
    rcases List.mem_append.1 hm with hm | hm
    · exact hn n' p' hm
    · exact hn' n' p' hm
  exact c94_restart_partial p1 gv ho hroom (noOpen_of_filter q4 hb) q1 (by rw [al.up]; exact hu) (by rw [al.clients]; exact hcl) hq (by rw [al.returned]; exact hsaved) (by rw [q2.fl.buf]; exact hbuf)
    (by rw [same_written t4]; exact hno) (CDisk.run_cons.2 ⟨a2, r3, t1⟩) (by rw [t2.answers]; exact ha) hd

/-- **C118, the sizes and lengths after a restart** (C93 on bytes). Of a field that one client writes, and whose numbers the writer has written, the next process has the same size and length. -/
theorem c118_restart_numbers {as bs : List Act} {n n' : Int} {progs progs' : List (List DOp)} {s₁ s s' : BDisk} {c k : Nat} {f : String} {cl : DClient}
    (hroot : EmptyRoot root fs) (hz : ∀ d, Gz.Written d (z d)) (hD : Ids D) (hn : Named D (as ++ [.openRest n progs])) (h1 : run z root { fs := fs } (as ++ [.openRest n progs]) = some s₁) (hb : ∀ b ∈ bs, noOpen b = true)
    (h : s₁.run z root bs = some s) (hu : s.d.up = true) (ho : OneWriter c f progs) (hcl : s.d.clients[c]? = some cl) (hq : ∀ op loc, cl.cur = some (.write op loc) → op.field.name ≠ f)
    (hr : s.run z root (reopen k n' progs') = some s') (hbuf : s.d.mx.buf.get? f = none) :
    (FitsInt32 (s.d.getFieldSize f) → s'.d.getFieldSize f = s.d.getFieldSize f) ∧ (FitsInt32 (s.d.getFieldLength f) → s'.d.getFieldLength f = s.d.getFieldLength f) := by
  obtain ⟨bs0, a1, p1, p2, p3, p4⟩ := opened_sim hroot hz hD hn h1
  obtain ⟨bs1, a, q1, h2, hi, q4⟩ := sim hz hD p2 p3 (noOpen_named hb) h
  have al := h2.alike
  unfold reopen at hr
  obtain ⟨t1, g1, hr⟩ := brun_cons.1 hr
  obtain ⟨t2, g2, hr⟩ := brun_cons.1 hr
  obtain ⟨t3, g3, hr⟩ := brun_append.1 hr
  have g4 := brun_one.1 hr
  obtain ⟨a1', r1, r2⟩ := crash_sim h2 g1
  have i1 : AInv D a1' := hi.step r1 fun _ _ e => by cases e
  obtain ⟨a2, r3, r4⟩ := open_sim r2 i1 g2
  have i2 : AInv D a2 := i1.step r3 fun _ _ e => by cases e
  have hp : t3.d.ix.proc ≠ .down := by
    simp only [exec] at g4
    split at g4
    · rename_i hg; rw [hg.1]; intro e; cases e
    · cases g4
  obtain ⟨j, a3, r5, r6, i3⟩ := merges_sim hD hz r4 i2 g3 hp
  obtain ⟨a4, r7, r8⟩ := openRest_sim r6 i3 g4
  have hrun : a.run (reopen j n' progs') = some a4 := run_cons.2 ⟨a1', r1, run_cons.2 ⟨a2, r3, run_snoc.2 ⟨a3, r5, r7⟩⟩⟩
  have al' := r8.alike
  have gv : GoValues (progs.flatMap writes) := fun op hop => named_values hn op (by rw [written_append]; exact List.mem_append_right _ (by simpa [written] using hop))
  have key := (c93_own_field_partial p1 (noOpen_of_filter q4 hb) q1 (by rw [al.up]; exact hu) gv ho (by rw [al.clients]; exact hcl) hq hrun).1 (by rw [h2.mx.buf]; exact hbuf)
  simpa only [al.size, al.length, al'.size, al'.length] using key

end BDisk
end Goir
