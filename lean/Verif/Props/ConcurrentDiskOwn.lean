import Verif.Lemmas.ConcurrentDiskParts
/-!
# C92, C93: a field that one client saves, on a Disk store with several clients

The other clients save other fields, of the same or of other documents, and read; the writers and the tickers run at any time.
-/
namespace Goir
open GoMap Spec

namespace CDisk
open Flusher CtState Conc CMem

/-- what the index part holds was there when the store was opened, or a call that has begun since then posts it. -/
theorem ix_since {as bs : List Act} {n : Int} {progs : List (List DOp)} {s₁ s : CDisk} (h1 : run {} (as ++ [.openRest n progs]) = some s₁)
    (hb : ∀ b ∈ bs, noOpen b = true) (h : s₁.run bs = some s) (hu : s.up = true) {f t d : String} (hd : has2 s.ix.mem f t d) :
    has2 s₁.ix.mem f t d ∨ Posted s.begun f t d := by
  induction bs using List.reverseRecOn generalizing s with
  | nil => cases h; exact .inl hd
  | append_singleton bs b ih =>
    obtain ⟨u, h2, h3⟩ := run_snoc.1 h
    have hrun : run {} (as ++ [.openRest n progs] ++ bs) = some u := by rw [run_append, h1]; exact h2
    have hk := ok_run hrun
    have hs := exec_step h3
    have hnb := hb b (by simp)
    have hut := up_before hs hnb hu
    have ih := ih (fun x hx => hb x (by simp [hx])) h2 hut
    have more : ∀ {op : StoreOp}, has2 s₁.ix.mem f t d ∨ Posted u.begun f t d → has2 s₁.ix.mem f t d ∨ Posted (u.begun ++ [op]) f t d :=
      fun h => h.imp id fun ⟨op, ho, hr⟩ => ⟨op, List.mem_append_left _ ho, hr⟩
    cases hs with
    | beginWrite => exact more (ih hd)
    | sendI hu' hi hc he =>
      rcases (ix_post he f t d).1 hd with h4 | ⟨rfl, rfl, rfl⟩
      · exact ih h4
      · have := hk.cur _ (List.mem_of_getElem? hi) _ hc
        exact .inr ⟨_, this.1, rfl, rfl, this.2.2.1 List.mem_cons_self⟩
    | ix hbk hu' he hpx =>
      rw [show CDisk.ix { u with ix := _ } = _ from rfl, mem_background hbk (hk.proc hut) he hpx] at hd
      exact ih hd
    | ixDown => simp [stop] at hu
    | crash => simp [stop] at hu
    | open_ he =>
      have := hk.proc hut
      simp only [IxState.exec, this] at he
      cases he
    | openRest => cases hnb
    | _ => exact ih hd

/-- the metrics of a store that has just been opened are those of its files. -/
theorem mxOk_opened {as : List Act} {n : Int} {progs : List (List DOp)} {s : CDisk} (h : run {} (as ++ [.openRest n progs]) = some s) (f : String) : MxOk f s.mem s.mx := by
  obtain ⟨s₀, h2, h3⟩ := run_snoc.1 h
  cases exec_step h3 with
  | @openRest _ _ size length nft hp hu hm hn =>
    have hoff := (ok_run h2).off hu
    have hf := flushOk_run h2
    obtain ⟨g1, g2⟩ := loadM_of hf hm f
    have hb : s₀.mx.buf.get? f = none := by rw [hoff.mx.1]; rfl
    refine .inr ⟨hb, ?_⟩
    show (∃ c, s₀.mx.cur f = some c ∧ FileM c f (toInt32 (size.getD f 0)) (toInt32 (length.getD f 0))) ∨ (s₀.mx.cur f = none ∧ size.get? f = none ∧ length.get? f = none)
    cases hc : s₀.mx.cur f with
    | none => exact .inr ⟨rfl, g2 hc⟩
    | some c =>
      obtain ⟨x, y, e1, e2, e3⟩ := g1 c hc
      obtain ⟨x', y', e4⟩ := hf.sm f c hc
      refine .inl ⟨c, rfl, ?_⟩
      obtain ⟨b, rfl, e5⟩ := e1
      obtain ⟨b', e6, e7⟩ := e4
      cases e6
      rw [e5] at e7
      simp only [Option.some.injEq, Prod.mk.injEq, true_and] at e7
      refine ⟨b, rfl, ?_⟩
      rw [e5]
      simp only [GoMap.getD, e2, e3, Option.getD_some, e7.1, e7.2, CtState.toInt32_idem]

theorem saveCounts_filter (h : List StoreOp) (f t : String) :
    saveCount (h.filter (onField f)) f = saveCount h f ∧ saveLengthSum (h.filter (onField f)) f = saveLengthSum h f ∧ termCount (h.filter (onField f)) f t = termCount h f t := by
  have e : (h.filter (onField f)).filter (fun op => decide (op.isSave = true ∧ op.field.name = f)) = h.filter fun op => decide (op.isSave = true ∧ op.field.name = f) := by
    rw [List.filter_filter]; congr 1; funext op; simp only [onField]; by_cases e : op.field.name = f <;> simp [e]
  refine ⟨?_, ?_, ?_⟩
  · unfold saveCount; rw [e]
  · unfold saveLengthSum; rw [e]
  · unfold termCount
    rw [List.filter_filter]; congr 2; funext op; simp only [onField]; by_cases e : op.field.name = f <;> simp [e]

end CDisk
open CDisk

/-- **C92.** A Disk store was opened (`s₁`), whatever had happened before, and several clients work on it. Only client `c` saves field `f` in this process. Whenever
client `c` is not in a call on `f`, size, length, document frequencies and postings of the field are exactly those found when the store was opened together with
what the returned calls of this process add — whatever the other clients and the background goroutines do meanwhile. -/
theorem c92_own_field {as bs : List Act} {n : Int} {progs : List (List DOp)} {s₁ s : CDisk} {c : Nat} {f : String} {cl : DClient}
    (h1 : run {} (as ++ [.openRest n progs]) = some s₁) (hb : ∀ b ∈ bs, noOpen b = true) (h : s₁.run bs = some s) (hu : s.up = true)
    (gv : GoValues (progs.flatMap writes)) (ho : OneWriter c f progs)
    (hcl : s.clients[c]? = some cl) (hq : ∀ op loc, cl.cur = some (.write op loc) → op.field.name ≠ f) :
    s.getFieldSize f = s₁.getFieldSize f + saveCount s.returned f ∧
    s.getFieldLength f = s₁.getFieldLength f + saveLengthSum s.returned f ∧
    (∀ t, (s.getNumberFieldTerm f [t]).getD t 0 = (s₁.getNumberFieldTerm f [t]).getD t 0 + termCount s.returned f t) ∧
    (∀ t d, GoSet.contains (s.getDocuments f t).1 d = true ↔ GoSet.contains (s₁.getDocuments f t).1 d = true ∨ Posted s.returned f t d) := by
  have hm := own_run (c := c) (f := f) (dpart_metrics (s₁.getFieldSize f) (s₁.getFieldLength f) f) h1
    ⟨(by simp [saveCount, getFieldSize, CMem.view, Memory.getFieldSize]), (by simp [saveLengthSum, getFieldLength, CMem.view, Memory.getFieldLength]), mxOk_opened h1 f⟩ gv ho hb h hu
  have hd := own_run (c := c) (f := f) (dpart_of (piece_df (fun t => s₁.mem.df f t) f)) h1 (fun t => by simp [termCount]) gv ho hb h hu
  have hp := own_run (c := c) (f := f) (dpart_of (piece_post (fun t d => GoSet.contains (s₁.getDocuments f t).1 d = true) f)) h1
    (fun t d => by rw [← CMem.view_contains]; simp [Posted, getDocuments]) gv ho hb h hu
  obtain ⟨e, m1, m2, -⟩ := hm.outside cl hcl hq
  obtain ⟨-, d1⟩ := hd.outside cl hcl hq
  obtain ⟨-, p1⟩ := hp.outside cl hcl hq
  rw [← e, (saveCounts_filter s.returned f "").1] at m1
  rw [← e, (saveCounts_filter s.returned f "").2.1] at m2
  refine ⟨m1, m2, fun t => ?_, fun t d => ?_⟩
  · have d2 := d1 t
    rw [← e, (saveCounts_filter s.returned f t).2.2] at d2
    have hv : ∀ x : CDisk, (x.getNumberFieldTerm f [t]).getD t 0 = x.mem.df f t := by
      intro x
      rw [GoMap.getD, getNumberFieldTerm, CMem.view_nft]; simp
    rw [hv, hv]; exact d2
  · have p2 := p1 t d
    rw [← e, Conc.posted_filter, or_false] at p2
    rw [getDocuments, CMem.view_contains]; exact p2

/-- **C93, for a field that one client saves.** If in addition the writers have written what concerns the field, and the store is closed and opened again (with any cache
size and any clients), then size, length (if they fit in 32 bits) and postings of the field are what they were. -/
theorem c93_own_field_partial {as bs : List Act} {n n' : Int} {progs progs' : List (List DOp)} {s₁ s s' : CDisk} {c k : Nat} {f : String} {cl : DClient}
    (h1 : run {} (as ++ [.openRest n progs]) = some s₁) (hb : ∀ b ∈ bs, noOpen b = true) (h : s₁.run bs = some s) (hu : s.up = true)
    (gv : GoValues (progs.flatMap writes)) (ho : OneWriter c f progs)
    (hcl : s.clients[c]? = some cl) (hq : ∀ op loc, cl.cur = some (.write op loc) → op.field.name ≠ f) (hr : s.run (reopen k n' progs') = some s') :
    (s.mx.buf.get? f = none → (FitsInt32 (s.getFieldSize f) → s'.getFieldSize f = s.getFieldSize f) ∧ (FitsInt32 (s.getFieldLength f) → s'.getFieldLength f = s.getFieldLength f)) ∧
    (IxSettled s → ∀ t d, GoSet.contains (s'.getDocuments f t).1 d = true ↔ GoSet.contains (s.getDocuments f t).1 d = true) := by
  have hrun : run {} (as ++ [.openRest n progs] ++ bs) = some s := by rw [run_append, h1]; exact h
  obtain ⟨q1, q2, -, q4⟩ := c92_own_field h1 hb h hu gv ho hcl hq
  have hm := own_run (c := c) (f := f) (dpart_metrics (s₁.getFieldSize f) (s₁.getFieldLength f) f) h1
    ⟨(by simp [saveCount, getFieldSize, CMem.view, Memory.getFieldSize]), (by simp [saveLengthSum, getFieldLength, CMem.view, Memory.getFieldLength]), mxOk_opened h1 f⟩ gv ho hb h hu
  obtain ⟨eret, -, -, hmx⟩ := hm.outside cl hcl hq
  have hr0 := hr
  obtain ⟨ix, size, length, nft, g1, g2, g3, g4, rfl⟩ := reopen_spec hr
  refine ⟨fun hbuf => ?_, fun hset t d => ?_⟩
  · obtain ⟨l1, l2⟩ := loadM_of (flushOk_run hrun) g3 f
    have es : (reopened s ix size length nft n' progs').getFieldSize f = size.getD f 0 := rfl
    have el : (reopened s ix size length nft n' progs').getFieldLength f = length.getD f 0 := rfl
    rw [es, el]
    rcases hmx with hmx | ⟨-, ⟨c', e1, b, rfl, e2⟩ | ⟨e1, e2, e3⟩⟩
    · rw [hbuf] at hmx; cases hmx
    · obtain ⟨x, y, ⟨b', e3, e4⟩, e5, e6⟩ := l1 _ e1
      cases e3
      rw [e2] at e4
      simp only [Option.some.injEq, Prod.mk.injEq, true_and] at e4
      refine ⟨fun hfit => ?_, fun hfit => ?_⟩
      · rw [GoMap.getD, e5, Option.getD_some, ← e4.1]; exact CtState.toInt32_fits hfit
      · rw [GoMap.getD, e6, Option.getD_some, ← e4.2]; exact CtState.toInt32_fits hfit
    · obtain ⟨e4, e5⟩ := l2 e1
      have es : s.getFieldSize f = 0 := by simp [getFieldSize, CMem.view, Memory.getFieldSize, GoMap.getD, e2]
      have el : s.getFieldLength f = 0 := by simp [getFieldLength, CMem.view, Memory.getFieldLength, GoMap.getD, e3]
      exact ⟨fun _ => by rw [es, GoMap.getD, e4]; rfl, fun _ => by rw [el, GoMap.getD, e5]; rfl⟩
  · have key := reopened_documents hrun hu hset hr0 f t d
    rw [key]
    constructor
    · intro hx
      rcases ix_since h1 hb h hu hx with hx | hx
      · refine (q4 t d).2 (.inl ?_)
        obtain ⟨s₀, h2, h3⟩ := CDisk.run_snoc.1 h1
        cases exec_step h3 with
        | openRest hp hu' hm' hn => exact (loaded_contains _ _ _ _ f t d).2 hx
      · refine (q4 t d).2 (.inr ?_)
        rw [← Conc.posted_filter, eret, Conc.posted_filter]; exact hx
    · intro hx
      obtain ⟨sr, v1, v2⟩ := (CMem.view_contains _ _ _ _).1 hx
      have etag := Conc.lookup_tag (ok_run hrun).tags v1
      rcases (sent_run hrun).mem sr d v2 with v3 | ⟨i, x, hi, op, r, ky, ts, hc, v4, -⟩
      · rwa [etag] at v3
      · rw [etag] at v4
        have e : op.field.name = f := (Prod.mk.inj v4).1.symm
        by_cases hic : i = c
        · subst hic
          rw [hcl] at hi; cases hi
          exact absurd e (hq _ _ hc)
        · exact absurd e ((hm.others i x hi hic).2 _ _ hc)

namespace CDisk

/-- client 0 is to save the title of `a`, client 1 its body. -/
def twoFields : List (List DOp) := [[.write (.save "a" ⟨"title", 1, [("x", 1)]⟩)], [.write (.save "a" ⟨"body", 2, [("x", 2)]⟩)]]

/-- they do it in turns, and client 1 is still in its call when client 0 has returned; then the writers write what they got. -/
def ownTitle : List Act :=
  turns 7 ++ [.recvM 0] ++ List.replicate 10 (.client 0 0) ++ [.recvN 0, .recvM 1] ++ turns 5 ++ [.recvD 0, .tickM ["body", "title"]] ++ List.replicate 15 .stepM ++
  [.ix .recv, .ix .recv, .ix (.tick [("title", [("x", [("a", true)])]), ("body", [("x", [("a", true)])])]), .ix (.create "u"), .ix .write, .ix (.create "v"), .ix .write, .ix .flushed]

/-- two clients are to save the same field of two documents. -/
def oneField : List (List DOp) := [[.write (.save "a" ⟨"title", 1, [("x", 1)]⟩)], [.write (.save "b" ⟨"title", 1, [("x", 1)]⟩)]]

/-- client 0 gets as far as the send of its metrics, then client 1 overtakes it; both return, and everything is written. -/
def overtaken : List Act :=
  List.replicate 7 (.client 0 0) ++ List.replicate 7 (.client 1 0) ++ [.recvM 1, .recvM 0] ++ List.replicate 10 (.client 0 0) ++ [.recvN 0] ++ List.replicate 5 (.client 0 0) ++ [.recvD 0] ++
  List.replicate 9 (.client 1 0) ++ [.recvN 1] ++ List.replicate 5 (.client 1 0) ++ [.recvD 1] ++ [.tickM ["title"]] ++ List.replicate 8 .stepM ++
  [.ix .recv, .ix .recv, .ix (.tick [("title", [("x", [("a", true), ("b", true)])])]), .ix (.create "u"), .ix .write, .ix .flushed]

end CDisk

/-- the hypotheses of C92 and C93 are met: client 0 has saved the title and is idle, client 1 is in the middle of a call on the body, everything about the title has been written, and the store can be opened again. -/
example : ∃ s, run {} (openEmpty 5 twoFields ++ ownTitle) = some s ∧
    s.up = true ∧ s.returned = [.save "a" ⟨"title", 1, [("x", 1)]⟩] ∧ s.begun.length = 2 ∧ (s.curOf 0 = none ∧ s.curOf 1 ≠ none) ∧ IxSettled s ∧ s.mx.buf.get? "title" = none ∧ s.getFieldSize "title" = 1 ∧
    ((s.run (reopen 23 5 [])).map fun s' => (s'.getFieldSize "title", (s'.getDocuments "title" "x").1)) = some (1, [("a", true)]) := by
  obtain ⟨s, h2, h3⟩ := exists_of_run (o := run {} (openEmpty 5 twoFields ++ ownTitle)) (P := fun s =>
    s.up = true ∧ s.returned = [.save "a" ⟨"title", 1, [("x", 1)]⟩] ∧ s.begun.length = 2 ∧ (s.curOf 0 = none ∧ s.curOf 1 ≠ none) ∧ IxSettled s ∧ s.mx.buf.get? "title" = none ∧ s.getFieldSize "title" = 1 ∧
    ((s.run (reopen 23 5 [])).map fun s' => (s'.getFieldSize "title", (s'.getDocuments "title" "x").1)) = some (1, [("a", true)])) (by decide +kernel)
  exact ⟨s, h2, h3⟩

example : (∀ b ∈ ownTitle, noOpen b = true) ∧ OneWriter 0 "title" twoFields ∧ GoValues (twoFields.flatMap writes) := by
  refine ⟨by decide, ?_, ?_⟩
  case refine_2 => show ∀ op ∈ twoFields.flatMap writes, op.field.tf.WF; decide
  intro j p hj hne op ho
  match j with
  | 0 => exact absurd rfl hne
  | 1 => cases hj; rw [List.mem_singleton.1 ho]; decide
  | j + 2 => cases hj

/-- **C93 is false with two clients.** Both calls have returned, the store says that the field has two documents with total length 2, and every writer has written everything; after
a clean restart it says one document with length 1: the older message was received last. -/
theorem c93_refuted : ∃ s, run {} (openEmpty 5 oneField ++ overtaken) = some s ∧
    (s.up = true ∧ IxSettled s ∧ Idle s ∧ s.mx.buf = [] ∧ s.mx.pc = .idle ∧ s.returned.length = 2 ∧ s.getFieldSize "title" = 2 ∧ s.getFieldLength "title" = 2) ∧
    ((s.run (reopen 12 5 [])).map fun s' => (s'.getFieldSize "title", s'.getFieldLength "title")) = some (1, 1) := by
  obtain ⟨s, h1, h2⟩ := exists_of_run (o := run {} (openEmpty 5 oneField ++ overtaken)) (P := fun s =>
    (s.up = true ∧ IxSettled s ∧ Idle s ∧ s.mx.buf = [] ∧ s.mx.pc = .idle ∧ s.returned.length = 2 ∧ s.getFieldSize "title" = 2 ∧ s.getFieldLength "title" = 2) ∧
    ((s.run (reopen 12 5 [])).map fun s' => (s'.getFieldSize "title", s'.getFieldLength "title")) = some (1, 1)) (by decide +kernel)
  exact ⟨s, h1, h2⟩

end Goir
