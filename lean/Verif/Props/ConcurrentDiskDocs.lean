import Verif.Lemmas.ConcurrentDiskRead
import Verif.Props.ConcurrentDiskOwn
/-!
# C94, C95: the stored fields of a Disk store with several clients
-/
namespace Goir
open GoMap Spec

namespace CDisk

/-- the only step that adds an answer is the end of GetFields. -/
theorem answer_step {s s' : CDisk} {i k : Nat} (hs : Step s (.client i k) s') {ids : List String} {name : String} {out : GoMap String Field} (ha : s'.answers = s.answers ++ [(ids, name, out)]) :
    ∃ cl, s.clients[i]? = some cl ∧ cl.cur = some (.read ids name (.get [] out)) := by
  have no : ∀ {l : List (List String × String × GoMap String Field)}, l = l ++ [(ids, name, out)] → False := fun e => by
    have := congrArg List.length e; simp at this
  cases hs with
  | readEnd hu hi hc =>
    have e := List.append_cancel_left ha
    cases e; exact ⟨_, hi, hc⟩
  | _ => exact (no ha).elim

end CDisk
open CDisk

/-- **C94, for a document that one client uses.** A Disk store was opened, whatever had happened before, with a cache that has room for all documents that its clients save or read,
and only client `c` saves or reads document `d`. Whenever a call of GetFields of client `c` that asks for `d` returns, it returns the field that client `c` saved last
in this process, whatever the other clients and the background goroutines do meanwhile. -/
theorem c94_own_document_partial {as bs : List Act} {n : Int} {progs : List (List DOp)} {s₁ s s' : CDisk} {c k : Nat} {d name : String} {ids : List String} {out : GoMap String Field} {g : Field}
    (h1 : run {} (as ++ [.openRest n progs]) = some s₁) (gv : GoValues (written (as ++ [.openRest n progs])))
    (ho : OneUser c d progs) (hroom : ((progs.flatMap touched).toFinset.card : Int) ≤ n)
    (hb : ∀ b ∈ bs, noOpen b = true) (h : s₁.run bs = some s) (hu : s.up = true)
    (hret : s.exec (.client c k) = some s') (hans : s'.answers = s.answers ++ [(ids, name, out)]) (hd : d ∈ ids)
    (hsaved : lastSaved s.returned d name = some g) : out.get? d = some g := by
  obtain ⟨cl, hcl, hcur⟩ := answer_step (exec_step hret) hans
  have hown := (ownDoc_run h1 gv ho hroom hb h hu).pos cl hcl
  rw [hcur] at hown
  exact hown.2 hd (by simp) g (by rw [Conc.lastSaved_filter]; exact hsaved)

/-- nobody saved document `d` since the file was as it is. -/
theorem CDisk.readOnly_run {as bs : List Act} {s s' : CDisk} {d : String} {m : GoMap String Field} (h : run {} as = some s) (hu : s.up = false)
    (gv : GoValues (written (as ++ bs))) (hfile : (s.load d).map (fun o => o.getD []) = some m) (hno : ∀ op ∈ written bs, op.isSave = true → op.doc ≠ d) (hr : s.run bs = some s') : ReadOnly d m s' := by
  induction bs using List.reverseRecOn generalizing s' with
  | nil =>
    cases hr
    have hoff := (ok_run h).off hu
    refine ⟨by rw [hoff.fl.1]; rfl, hfile, fun r hv => ?_, ?_, ?_, ?_, ?_⟩
    · rw [hoff.cache, show LRU.val _ _ = none from LRU.val_new 0 d] at hv; cases hv
    · rw [hoff.clients]; intro _ hx; cases hx
    · rw [hoff.clients]; intro _ hx; cases hx
    · rw [hoff.clients]; intro _ hx; cases hx
    · rw [hoff.answers]; intro _ hx; cases hx
  | append_singleton bs b ih =>
    obtain ⟨u, h2, h3⟩ := CDisk.run_snoc.1 hr
    have hrun : run {} (as ++ bs) = some u := by rw [CDisk.run_append, h]; exact h2
    have gv' : GoValues (written (as ++ bs)) := fun op ho => gv op (by rw [← List.append_assoc, written_append (as ++ bs)]; exact List.mem_append_left _ ho)
    refine readOnly_step (ok_run hrun) (docsOk_run hrun fun op ho => gv' op ((hist_written hrun).1 op ho)) (exec_step h3) ?_
      (ih gv' (fun op ho => hno op (by rw [written_append]; exact List.mem_append_left _ ho)) h2)
    cases b with
    | openRest n progs =>
      intro op ho
      have hw : op ∈ written (bs ++ [Act.openRest n progs]) := by rw [written_append]; exact List.mem_append_right _ (by simpa [written] using ho)
      have := hno op hw
      simp only [Conc.onDoc, Bool.and_eq_false_iff, decide_eq_false_iff_not]
      cases hsv : op.isSave with
      | false => exact .inl rfl
      | true => exact .inr (this hsv)
    | _ => trivial

/-- **C95.** From a moment when no process runs, clients of any number of later processes, with any cache sizes, save other documents and read any documents, with crashes at any
time. If none of them saves document `d`, then every GetFields that asks for `d` returns what the file of `d` held at the beginning: all readers agree, for ever. -/
theorem c95_read_only {as bs : List Act} {s s' : CDisk} {d : String} {m : GoMap String Field} (h : run {} as = some s) (hu : s.up = false)
    (gv : GoValues (written (as ++ bs))) (hfile : (s.load d).map (fun o => o.getD []) = some m) (hno : ∀ op ∈ written bs, op.isSave = true → op.doc ≠ d) (hr : s.run bs = some s')
    {ids : List String} {name : String} {out : GoMap String Field} (ha : (ids, name, out) ∈ s'.answers) (hd : d ∈ ids) : out.get? d = m.get? name :=
  (readOnly_run h hu gv hfile hno hr).ans _ ha hd

/-- when the process ends, the file of a document that one client used holds the fields saved last, if the writer of documents had written what it had. -/
theorem CDisk.own_file {as bs : List Act} {n : Int} {progs : List (List DOp)} {s₁ s t : CDisk} {c : Nat} {d name : String} {cl : DClient} {g : Field}
    (h1 : run {} (as ++ [.openRest n progs]) = some s₁) (gv1 : GoValues (written (as ++ [.openRest n progs])))
    (ho : OneUser c d progs) (hroom : ((progs.flatMap touched).toFinset.card : Int) ≤ n)
    (hb : ∀ b ∈ bs, noOpen b = true) (h : s₁.run bs = some s) (hu : s.up = true)
    (hcl : s.clients[c]? = some cl) (hq : ∀ op loc, cl.cur = some (.write op loc) → op.doc ≠ d) (hsaved : lastSaved s.returned d name = some g)
    (hbuf : s.fl.buf.get? d = none) (h3 : s.exec .crash = some t) : t.up = false ∧ ∃ m, (t.load d).map (fun o => o.getD []) = some m ∧ m.get? name = some (cutField g) := by
  have hown := (ownDoc_run h1 gv1 ho hroom hb h hu).pos cl hcl
  have hfull : Full d (s.returned.filter (Conc.onDoc d)) s := by
    match e : cl.cur with
    | none => rw [e] at hown; exact hown
    | some (.write op loc) => rw [e] at hown; exact hown.2 (by simp [Conc.onDoc, hq op loc e])
    | some (.read ids name loc) => rw [e] at hown; exact hown.1
  have hs0 := hsaved
  rw [← Conc.lastSaved_filter] at hs0
  obtain ⟨r, hmap⟩ := hfull (fun e => by rw [e] at hs0; cases hs0)
  have hcell := hmap.cells name g hs0
  obtain ⟨b, hfile, hdes⟩ : ∃ b, s.fl.cur d = some (.full b) ∧ deserializeFieldMap b = some (DcState.cutMap (s.mem.docCells r)) := by
    rcases hmap.written with ⟨w1, -⟩ | ⟨-, w⟩
    · rw [hbuf] at w1; cases w1
    · exact w
  have hstop := exec_step h3
  have hload : t.up = false ∧ (t.load d).map (fun o => o.getD []) = some (DcState.cutMap (s.mem.docCells r)) := by
    cases hstop with
    | crash he =>
      refine ⟨rfl, ?_⟩
      rw [show (s.stop _).load d = s.load d from rfl]
      unfold load
      rw [show (s.fl.file d).cur = _ from hfile]
      simp [hdes]
  exact ⟨hload.1, _, hload.2, by rw [DcState.get?_cutMap, hcell]; rfl⟩

/-- **C94, after a restart, for a document that one client used.** If the writer of documents has written what it had about `d` (`hbuf`) when the process ends, then every GetFields of any client
of any later process returns the field saved last (its numbers cut to 32 bits), as long as nobody saves `d` again. -/
theorem c94_restart_partial {as bs cs : List Act} {n : Int} {progs : List (List DOp)} {s₁ s s' : CDisk} {c : Nat} {d name : String} {cl : DClient} {g : Field}
    (h1 : run {} (as ++ [.openRest n progs]) = some s₁) (gv : GoValues (written (as ++ [.openRest n progs] ++ cs)))
    (ho : OneUser c d progs) (hroom : ((progs.flatMap touched).toFinset.card : Int) ≤ n)
    (hb : ∀ b ∈ bs, noOpen b = true) (h : s₁.run bs = some s) (hu : s.up = true)
    (hcl : s.clients[c]? = some cl) (hq : ∀ op loc, cl.cur = some (.write op loc) → op.doc ≠ d) (hsaved : lastSaved s.returned d name = some g)
    (hbuf : s.fl.buf.get? d = none) (hno : ∀ op ∈ written cs, op.isSave = true → op.doc ≠ d) (hr : s.run (.crash :: cs) = some s')
    {ids : List String} {out : GoMap String Field} (ha : (ids, name, out) ∈ s'.answers) (hd : d ∈ ids) : out.get? d = some (cutField g) := by
  have gv1 : GoValues (written (as ++ [.openRest n progs])) := fun op hop => gv op (by rw [written_append (as ++ _)]; exact List.mem_append_left _ hop)
  obtain ⟨t, h3, h4⟩ := CDisk.run_cons.1 hr
  have hrun : run {} (as ++ [.openRest n progs] ++ bs ++ [.crash]) = some t := CDisk.run_snoc.2 ⟨s, by rw [CDisk.run_append, h1]; exact h, h3⟩
  obtain ⟨hdown, m, hload, hm⟩ := own_file h1 gv1 ho hroom hb h hu hcl hq hsaved hbuf h3
  have := c95_read_only hrun hdown (d := d) (bs := cs) (fun op hop => gv op ?_) hload hno h4 ha hd
  · rw [this, hm]
  · rw [written_append (as ++ _ ++ _ ++ _), written_append (as ++ _ ++ _), written_append (as ++ _), written_noOpen hb, show written [Act.crash] = [] from rfl, List.append_nil, List.append_nil] at hop
    rw [written_append (as ++ _)]; exact hop

namespace CDisk

/-- these steps are possible, and then GetFields has returned this in this process. -/
def Answers (s : CDisk) (as : List Act) (l : List (List String × String × GoMap String Field)) : Prop := (s.run as).map CDisk.answers = some l

instance (s : CDisk) (as : List Act) (l : List (List String × String × GoMap String Field)) : Decidable (Answers s as l) := inferInstanceAs (Decidable (_ = some l))

/-- a save of one term in a field that is new, by client `i` alone. -/
def saveAlone (i : Nat) : List Act := List.replicate 7 (.client i 0) ++ [.recvM i] ++ List.replicate 10 (.client i 0) ++ [.recvN i] ++ List.replicate 5 (.client i 0) ++ [.recvD i]

/-- two clients save two fields of one new document in turns, and everything is received (first the message of client `i`, then that of client `j`) and written. -/
def oneDocument (i j : Nat) : List Act :=
  openEmpty 5 [[.write (.save "a" ⟨"title", 1, [("x", 1)]⟩), .getFields ["a"] "title", .getFields ["a"] "body"], [.write (.save "a" ⟨"body", 2, [("x", 2)]⟩)]] ++
  (turns 7 ++ [.recvM 0, .recvM 1] ++ turns 10 ++ [.recvN 0, .recvN 1] ++ turns 5 ++ [.recvD i, .recvD j]) ++
  [.tickD ["a"]] ++ List.replicate 8 .stepD

/-- client 0 reads both fields. -/
def readBoth : List Act := List.replicate 8 (.client 0 0)

/-- the title of a document is saved and written; after a restart client 1 begins to read it, and has loaded the file when client 0 saves a new title; then client 1 goes on, and
client 0 reads the title. -/
def staleLoad : List Act :=
  openEmpty 5 [[.write (.save "a" ⟨"title", 1, [("x", 1)]⟩)]] ++ saveAlone 0 ++ [.tickD ["a"]] ++ List.replicate 8 .stepD ++
  [.crash, .open_, .ix .merge, .openRest 5 [[.write (.save "a" ⟨"title", 1, [("y", 1)]⟩), .getFields ["a"] "title"], [.getFields ["a"] "title"]]] ++
  List.replicate 3 (.client 1 0) ++ saveAlone 0 ++ List.replicate 2 (.client 1 0)

end CDisk

/-- **C94 is false when two clients save one document.** Both calls have returned and both are written, but GetFields returns only the body: the title is lost. -/
theorem c94_refuted_two_writers : ∃ s, run {} (oneDocument 0 1) = some s ∧
    (s.up = true ∧ Idle s ∧ s.fl.buf = [] ∧ s.fl.pc = .idle ∧ s.returned = [.save "a" ⟨"title", 1, [("x", 1)]⟩, .save "a" ⟨"body", 2, [("x", 2)]⟩]) ∧
    s.Answers readBoth [(["a"], "title", []), (["a"], "body", [("a", ⟨"body", 2, [("x", 2)]⟩)])] := by
  obtain ⟨s, h1, h2⟩ := exists_of_run (o := run {} (oneDocument 0 1)) (P := fun s =>
    (s.up = true ∧ Idle s ∧ s.fl.buf = [] ∧ s.fl.pc = .idle ∧ s.returned = [.save "a" ⟨"title", 1, [("x", 1)]⟩, .save "a" ⟨"body", 2, [("x", 2)]⟩]) ∧
    s.Answers readBoth [(["a"], "title", []), (["a"], "body", [("a", ⟨"body", 2, [("x", 2)]⟩)])]) (by decide +kernel)
  exact ⟨s, h1, h2⟩

/-- **C94 is false after a clean restart.** Before it GetFields returned the body and not the title, after it the title and not the body. -/
theorem c94_refuted_restart : ∃ s, run {} (oneDocument 1 0) = some s ∧
    (s.up = true ∧ Idle s ∧ s.fl.buf = [] ∧ s.fl.pc = .idle ∧ s.returned.length = 2) ∧
    s.Answers readBoth [(["a"], "title", []), (["a"], "body", [("a", ⟨"body", 2, [("x", 2)]⟩)])] ∧
    s.Answers (reopen 1 5 [[.getFields ["a"] "title", .getFields ["a"] "body"]] ++ List.replicate 9 (.client 0 0)) [(["a"], "title", [("a", ⟨"title", 1, [("x", 1)]⟩)]), (["a"], "body", [])] := by
  obtain ⟨s, h1, h2⟩ := exists_of_run (o := run {} (oneDocument 1 0)) (P := fun s =>
    (s.up = true ∧ Idle s ∧ s.fl.buf = [] ∧ s.fl.pc = .idle ∧ s.returned.length = 2) ∧
    s.Answers readBoth [(["a"], "title", []), (["a"], "body", [("a", ⟨"body", 2, [("x", 2)]⟩)])] ∧
    s.Answers (reopen 1 5 [[.getFields ["a"] "title", .getFields ["a"] "body"]] ++ List.replicate 9 (.client 0 0)) [(["a"], "title", [("a", ⟨"title", 1, [("x", 1)]⟩)]), (["a"], "body", [])]) (by decide +kernel)
  exact ⟨s, h1, h2⟩

/-- **C94 is false with one writer and one reader.** The new title has been saved and nobody is in a call, but the next GetFields, by the client that saved it, returns the old title: the reader
has put the map that it had loaded before the save into the cache. -/
theorem c94_refuted_reader : ∃ s, run {} staleLoad = some s ∧
    (s.up = true ∧ Idle s ∧ s.returned = [.save "a" ⟨"title", 1, [("y", 1)]⟩] ∧ lastSaved s.returned "a" "title" = some ⟨"title", 1, [("y", 1)]⟩) ∧
    s.Answers (List.replicate 4 (.client 0 0)) [(["a"], "title", [("a", ⟨"title", 1, [("x", 1)]⟩)]), (["a"], "title", [("a", ⟨"title", 1, [("x", 1)]⟩)])] := by
  obtain ⟨s, h1, h2⟩ := exists_of_run (o := run {} staleLoad) (P := fun s =>
    (s.up = true ∧ Idle s ∧ s.returned = [.save "a" ⟨"title", 1, [("y", 1)]⟩] ∧ lastSaved s.returned "a" "title" = some ⟨"title", 1, [("y", 1)]⟩) ∧
    s.Answers (List.replicate 4 (.client 0 0)) [(["a"], "title", [("a", ⟨"title", 1, [("x", 1)]⟩)]), (["a"], "title", [("a", ⟨"title", 1, [("x", 1)]⟩)])]) (by decide +kernel)
  exact ⟨s, h1, h2⟩

namespace CDisk

/-- client 0 saves and reads `a`, client 1 saves and reads `b`. -/
def apart : List (List DOp) := [[.write (.save "a" ⟨"title", 1, [("x", 1)]⟩), .getFields ["a"] "title"], [.write (.save "b" ⟨"title", 2, [("x", 2)]⟩), .getFields ["b"] "title"]]

/-- in turns; client 1 has not returned when client 0 is about to get its answer. -/
def apartRun : List Act := turns 7 ++ [.recvM 0, .recvM 1] ++ turns 10 ++ [.recvN 0, .recvN 1] ++ turns 5 ++ [.recvD 0] ++ List.replicate 3 (.client 0 0) ++ [.tickD ["a"]] ++ List.replicate 8 .stepD

end CDisk

/-- the hypotheses of C94 are met: the clients work in turns, and the next step of client 0 is its answer; the document is written, and can be read after a restart. -/
example : ∃ s, run {} (openEmpty 2 apart ++ apartRun) = some s ∧
    (s.up = true ∧ s.begun.length = 2 ∧ s.returned.length = 1 ∧ lastSaved s.returned "a" "title" = some ⟨"title", 1, [("x", 1)]⟩ ∧ s.fl.buf.get? "a" = none ∧ s.answers = []) ∧
    s.Answers [.client 0 0] [(["a"], "title", [("a", ⟨"title", 1, [("x", 1)]⟩)])] ∧
    s.Answers (.crash :: [.open_, .ix .merge, .openRest 1 [[.getFields ["b", "a"] "title"]]] ++ List.replicate 7 (.client 0 0)) [(["b", "a"], "title", [("a", ⟨"title", 1, [("x", 1)]⟩)])] := by
  obtain ⟨s, h⟩ := exists_of_run (o := run {} (openEmpty 2 apart ++ apartRun)) (P := fun s =>
    (s.up = true ∧ s.begun.length = 2 ∧ s.returned.length = 1 ∧ lastSaved s.returned "a" "title" = some ⟨"title", 1, [("x", 1)]⟩ ∧ s.fl.buf.get? "a" = none ∧ s.answers = []) ∧
    s.Answers [.client 0 0] [(["a"], "title", [("a", ⟨"title", 1, [("x", 1)]⟩)])] ∧
    s.Answers (.crash :: [.open_, .ix .merge, .openRest 1 [[.getFields ["b", "a"] "title"]]] ++ List.replicate 7 (.client 0 0)) [(["b", "a"], "title", [("a", ⟨"title", 1, [("x", 1)]⟩)])]) (by decide +kernel)
  exact ⟨s, h⟩

example : OneUser 0 "a" apart ∧ (((apart.flatMap touched).toFinset.card : Nat) : Int) ≤ 2 ∧ GoValues (apart.flatMap writes) ∧ ∀ b ∈ apartRun, noOpen b = true := by
  refine ⟨?_, by decide, ?_, by decide⟩
  case refine_2 => show ∀ op ∈ apart.flatMap writes, op.field.tf.WF; decide
  intro j p hj hne
  match j with
  | 0 => exact absurd rfl hne
  | 1 => cases hj; decide
  | j + 2 => cases hj

/-- the hypotheses of C95 are met: `a` was saved and written, the process has ended, and two clients of the next process read it in turns, one of them while it saves another document. -/
example : ∃ s, run {} (openEmpty 5 [[.write (.save "a" ⟨"title", 1, [("x", 1)]⟩)]] ++ saveAlone 0 ++ [.tickD ["a"]] ++ List.replicate 8 .stepD ++ [.crash]) = some s ∧
    (s.up = false ∧ (s.load "a").map (fun o => o.getD []) = some [("title", ⟨"title", 1, [("x", 1)]⟩)]) ∧
    s.Answers ([.open_, .ix .merge, .openRest 1 [[.getFields ["a"] "title"], [.write (.save "b" ⟨"title", 2, [("y", 2)]⟩), .getFields ["a"] "title"]]] ++
      (turns 5 ++ List.replicate 2 (.client 1 0) ++ [.recvM 1] ++ List.replicate 10 (.client 1 0) ++ [.recvN 1] ++ List.replicate 5 (.client 1 0) ++ [.recvD 1] ++ List.replicate 5 (.client 1 0)))
      [(["a"], "title", [("a", ⟨"title", 1, [("x", 1)]⟩)]), (["a"], "title", [("a", ⟨"title", 1, [("x", 1)]⟩)])] := by
  obtain ⟨s, h⟩ := exists_of_run (o := run {} (openEmpty 5 [[.write (.save "a" ⟨"title", 1, [("x", 1)]⟩)]] ++ saveAlone 0 ++ [.tickD ["a"]] ++ List.replicate 8 .stepD ++ [.crash])) (P := fun s =>
    (s.up = false ∧ (s.load "a").map (fun o => o.getD []) = some [("title", ⟨"title", 1, [("x", 1)]⟩)]) ∧
    s.Answers ([.open_, .ix .merge, .openRest 1 [[.getFields ["a"] "title"], [.write (.save "b" ⟨"title", 2, [("y", 2)]⟩), .getFields ["a"] "title"]]] ++
      (turns 5 ++ List.replicate 2 (.client 1 0) ++ [.recvM 1] ++ List.replicate 10 (.client 1 0) ++ [.recvN 1] ++ List.replicate 5 (.client 1 0) ++ [.recvD 1] ++ List.replicate 5 (.client 1 0)))
      [(["a"], "title", [("a", ⟨"title", 1, [("x", 1)]⟩)]), (["a"], "title", [("a", ⟨"title", 1, [("x", 1)]⟩)])]) (by decide +kernel)
  exact ⟨s, h⟩

end Goir
