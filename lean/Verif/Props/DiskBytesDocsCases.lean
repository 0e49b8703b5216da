import Verif.Props.DiskBytesDocs
import Verif.Props.DiskBytesCases
/-!
# C118: cases for documents and restarts

The hypotheses of the theorems of `Verif.Props.DiskBytesDocs` are met by a store on a folder of bytes: client 0 saves document `a` and reads it, client 1 saves `b`; then the three writers
write what they have byte by byte, the process ends, and the next one reads.
-/
namespace Goir
open Spec Spec.Gz Gzip

namespace BDisk
open CDisk

/-- client 0 saves and reads `a`, client 1 saves `b`. -/
def twoUsers : List (List DOp) := [[.write (.save "a" ⟨"title", 1, [("x", 1)]⟩), .getFields ["a"] "title"], [.write (.save "b" ⟨"body", 2, [("x", 2)]⟩)]]

/-- in turns, until client 0 is about to return the answer; client 1 has not handed over its document. -/
def usersRun : List Act := turns 7 ++ [.recvM 0, .recvM 1] ++ turns 10 ++ [.recvN 0, .recvN 1] ++ turns 5 ++ [.recvD 0] ++ List.replicate 3 (.client 0 0)

/-- the writers of documents, and of sizes and lengths, write what they have, each byte a step. -/
def usersWritten : List Act := .tickD ["a"] :: List.replicate 159 .stepD ++ .tickM ["title", "body"] :: List.replicate 149 .stepM

/-- clients of the next process: one reads `a`, the other saves `b`. -/
def nextUsers : List (List DOp) := [[.getFields ["a"] "title"], [.write (.save "b" ⟨"body", 1, [("y", 1)]⟩)]]

/-- the read while the other client is in its call. -/
def nextReads : List Act := [.open_] ++ List.replicate 113 (.ix .merge) ++ [.openRest 1 nextUsers] ++ List.replicate 4 (.client 1 0) ++ List.replicate 5 (.client 0 0)

theorem ids_ab : Ids (fun d => d = "a" ∨ d = "b") := by
  refine ⟨fun d h => by rcases h with rfl | rfl <;> decide, fun d e h h' => ?_⟩
  rcases h with rfl | rfl <;> rcases h' with rfl | rfl <;> decide

theorem users_named : Named (fun d => d = "a" ∨ d = "b") (openEmpty 2 twoUsers) := by
  intro n progs hm p hp o ho
  have : (n, progs) = (2, twoUsers) := by simpa [openEmpty] using hm
  cases this
  simp only [twoUsers, List.mem_cons, List.not_mem_nil, or_false] at hp
  rcases hp with rfl | rfl <;> simp only [List.mem_cons, List.not_mem_nil, or_false] at ho
  · rcases ho with rfl | rfl
    · exact ⟨⟨by decide, by decide⟩, fun _ => .inl rfl, by simp [StoreOp.field, GoMap.WF, GoMap.keys]⟩
    · intro i hi; rw [List.mem_singleton] at hi; exact .inl hi
  · subst ho
    exact ⟨⟨by decide, by decide⟩, fun _ => .inr rfl, by simp [StoreOp.field, GoMap.WF, GoMap.keys]⟩

theorem next_named : Named (fun d => d = "a" ∨ d = "b") nextReads := by
  intro n progs hm p hp o ho
  have : (n, progs) = (1, nextUsers) := by simpa [nextReads, List.mem_replicate] using hm
  cases this
  simp only [nextUsers, List.mem_cons, List.not_mem_nil, or_false] at hp
  rcases hp with rfl | rfl <;> simp only [List.mem_cons, List.not_mem_nil, or_false] at ho <;> subst ho
  · intro i hi; rw [List.mem_singleton] at hi; exact .inl hi
  · exact ⟨⟨by decide, by decide⟩, fun _ => .inr rfl, by simp [StoreOp.field, GoMap.WF, GoMap.keys]⟩

set_option maxRecDepth 100000 in
/-- only client 0 uses `a`, only client 0 writes the field `title`; the cache has room for both documents. -/
theorem users_own : OneUser 0 "a" twoUsers ∧ OneWriter 0 "title" twoUsers ∧ (((twoUsers.flatMap touched).toFinset.card : Nat) : Int) ≤ 2 ∧
    (∀ b ∈ usersRun, noOpen b = true) ∧ (∀ b ∈ usersRun ++ usersWritten, noOpen b = true) ∧ (∀ op ∈ written nextReads, op.isSave = true → op.doc ≠ "a") := by
  refine ⟨?_, ?_, by decide, by decide, by decide, by decide⟩ <;>
  · intro j p hj hne
    match j with
    | 0 => exact absurd rfl hne
    | 1 => cases hj; decide
    | j + 2 => cases hj

/-- while the other client is in its call, the next step of client 0 returns what it saved. -/
example : ∃ s₁ s s', run packer ["data"] { fs := folder } ([.open_, .ix .merge] ++ [.openRest 2 twoUsers]) = some s₁ ∧ s₁.run packer ["data"] usersRun = some s ∧
    s.exec packer ["data"] (.client 0 0) = some s' ∧ s.d.up = true ∧ s.d.begun.length = 2 ∧ s.d.returned.length = 1 ∧ lastSaved s.d.returned "a" "title" = some ⟨"title", 1, [("x", 1)]⟩ ∧
    s'.d.answers = s.d.answers ++ [(["a"], "title", [("a", ⟨"title", 1, [("x", 1)]⟩)])] := by
  have key : ∃ s₁, run packer ["data"] { fs := folder } ([.open_, .ix .merge] ++ [.openRest 2 twoUsers]) = some s₁ ∧
      (s₁.run packer ["data"] usersRun).any (fun s => decide (s.d.up = true ∧ s.d.begun.length = 2 ∧ s.d.returned.length = 1 ∧ lastSaved s.d.returned "a" "title" = some ⟨"title", 1, [("x", 1)]⟩) &&
        (s.exec packer ["data"] (.client 0 0)).any fun s' => decide (s'.d.answers = s.d.answers ++ [(["a"], "title", [("a", ⟨"title", 1, [("x", 1)]⟩)])])) = true := exists_of (by decide +kernel)
  obtain ⟨s₁, h1, h2⟩ := key
  obtain ⟨s, h3, h4⟩ := exists_of h2
  rw [Bool.and_eq_true, decide_eq_true_eq] at h4
  obtain ⟨s', h5, h6⟩ := exists_of h4.2
  obtain ⟨k1, k2, k3, k4⟩ := h4.1
  exact ⟨s₁, s, s', h1, h3, h5, k1, k2, k3, k4, of_decide_eq_true h6⟩

set_option maxRecDepth 100000 in
/-- the document and the numbers are written, the process ends in the middle of the other client's save, and the next process reads them back. -/
example : ∃ s₁ s, run packer ["data"] { fs := folder } ([.open_, .ix .merge] ++ [.openRest 2 twoUsers]) = some s₁ ∧ s₁.run packer ["data"] (usersRun ++ usersWritten) = some s ∧ s.d.up = true ∧
    s.d.fl.buf.get? "a" = none ∧ s.d.mx.buf.get? "title" = none ∧ (∀ cl ∈ s.d.clients[0]?, ∀ op loc, cl.cur ≠ some (.write op loc)) ∧ lastSaved s.d.returned "a" "title" = some ⟨"title", 1, [("x", 1)]⟩ ∧
    s.d.getFieldSize "title" = 1 ∧
    (∃ s', s.run packer ["data"] (.crash :: nextReads) = some s' ∧ s'.d.answers = [(["a"], "title", [("a", ⟨"title", 1, [("x", 1)]⟩)])]) ∧
    ∃ s', s.run packer ["data"] (reopen 113 1 nextUsers) = some s' ∧ s'.d.getFieldSize "title" = 1 ∧ s'.d.getFieldLength "title" = 1 := by
  have key : ∃ s₁, run packer ["data"] { fs := folder } ([.open_, .ix .merge] ++ [.openRest 2 twoUsers]) = some s₁ ∧
      (s₁.run packer ["data"] (usersRun ++ usersWritten)).any (fun s => decide (s.d.up = true ∧ s.d.fl.buf.get? "a" = none ∧ s.d.mx.buf.get? "title" = none ∧
        (s.d.clients[0]?).all (fun cl => match cl.cur with | some (.write ..) => false | _ => true) = true ∧
        lastSaved s.d.returned "a" "title" = some ⟨"title", 1, [("x", 1)]⟩ ∧ s.d.getFieldSize "title" = 1) &&
        ((s.run packer ["data"] (.crash :: nextReads)).any (fun s' => decide (s'.d.answers = [(["a"], "title", [("a", ⟨"title", 1, [("x", 1)]⟩)])])) &&
        (s.run packer ["data"] (reopen 113 1 nextUsers)).any fun s' => decide (s'.d.getFieldSize "title" = 1 ∧ s'.d.getFieldLength "title" = 1))) = true := exists_of (by decide +kernel)
  obtain ⟨s₁, h1, h2⟩ := key
  obtain ⟨s, h3, h4⟩ := exists_of h2
  rw [Bool.and_eq_true, Bool.and_eq_true, decide_eq_true_eq] at h4
  obtain ⟨⟨k1, k2, k3, k4, k5, k6⟩, h5, h6⟩ := h4
  obtain ⟨s', h7, h8⟩ := exists_of h5
  obtain ⟨s'', h9, h10⟩ := exists_of h6
  obtain ⟨m1, m2⟩ := of_decide_eq_true h10
  refine ⟨s₁, s, h1, h3, k1, k2, k3, ?_, k5, k6, ⟨s', h7, of_decide_eq_true h8⟩, s'', h9, m1, m2⟩
  intro cl hcl op loc e
  rw [Option.mem_def] at hcl
  rw [hcl] at k4
  simp [e] at k4

set_option maxRecDepth 100000 in
/-- the hypotheses of `c118_read_only` are met: no process runs, the bytes of the file of `a` hold what was saved, and the next process reads `a` while it saves `b`. -/
example : ∃ s s', run packer ["data"] { fs := folder } (openEmpty 2 twoUsers ++ (usersRun ++ usersWritten) ++ [.crash]) = some s ∧ s.d.up = false ∧
    (BDisk.loadDoc s.fs ["data"] "a").map (fun o => o.getD []) = some [("title", ⟨"title", 1, [("x", 1)]⟩)] ∧ s.run packer ["data"] nextReads = some s' ∧
    s'.d.answers = s.d.answers ++ [(["a"], "title", [("a", ⟨"title", 1, [("x", 1)]⟩)])] := by
  have key : ∃ s, run packer ["data"] { fs := folder } (openEmpty 2 twoUsers ++ (usersRun ++ usersWritten) ++ [.crash]) = some s ∧
      (decide (s.d.up = false ∧ (BDisk.loadDoc s.fs ["data"] "a").map (fun o => o.getD []) = some [("title", ⟨"title", 1, [("x", 1)]⟩)]) &&
        (s.run packer ["data"] nextReads).any fun s' => decide (s'.d.answers = s.d.answers ++ [(["a"], "title", [("a", ⟨"title", 1, [("x", 1)]⟩)])])) = true := exists_of (by decide +kernel)
  obtain ⟨s, h1, h2⟩ := key
  rw [Bool.and_eq_true, decide_eq_true_eq] at h2
  obtain ⟨⟨k1, k2⟩, h3⟩ := h2
  obtain ⟨s', h4, h5⟩ := exists_of h3
  exact ⟨s, s', h1, k1, k2, h4, of_decide_eq_true h5⟩

end BDisk
end Goir
