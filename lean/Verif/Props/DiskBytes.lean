import Verif.Lemmas.DiskBytesRestart
import Verif.Props.ConcurrentDiskOwn
import Verif.Props.Gzip
/-!
# C118: the Disk store on the bytes of its files

The files are gzip files of FlatBuffers in one file system, written one byte at a time; the process can end after any byte.
-/
namespace Goir
open GoMap Spec

namespace BDisk
open CDisk

/-- every program of every client uses field names and document ids that can be file names: fields are one path component and not `docs`, documents satisfy `D`. -/
def Named (D : String → Prop) (as : List Act) : Prop := ∀ n progs, Act.openRest n progs ∈ as → ∀ p ∈ progs, ∀ o ∈ p, OpNames D o

/-- the index writer has nothing left to write, and the merge goroutine is not between the two renames of SecureSaveFile. -/
def IxSettled (s : BDisk) : Prop := s.d.ix.chan = [] ∧ s.d.ix.buf = [] ∧ s.d.ix.writer = .idle ∧ ∀ c, s.saveI ≠ some (c, .moved)

theorem written_filter (as : List Act) : written (as.filter isOpen) = written as := by
  induction as with
  | nil => rfl
  | cons b bs ih =>
    cases b with
    | openRest n progs =>
      rw [List.filter_cons_of_pos (by rfl)]
      simp only [written, ih]
    | _ =>
      rw [List.filter_cons_of_neg (by simp [isOpen])]
      simpa only [written] using ih

theorem noOpen_of_filter {as bs : List Act} (h : bs.filter isOpen = as.filter isOpen) (ha : ∀ a ∈ as, noOpen a = true) : ∀ b ∈ bs, noOpen b = true := by
  have h1 : as.filter isOpen = [] := List.filter_eq_nil_iff.2 fun a hm => by
    have := ha a hm
    cases a <;> first | (cases this; done) | simp [isOpen]
  rw [h1] at h
  intro b hb
  have := List.filter_eq_nil_iff.1 h b hb
  cases b <;> first | exact absurd rfl this | rfl

/-- the two stores answer every question alike. -/
structure Alike (s : BDisk) (a : CDisk) : Prop where
  up : a.up = s.d.up
  clients : a.clients = s.d.clients
  cache : a.cache = s.d.cache
  earlier : a.earlier = s.d.earlier
  begun : a.begun = s.d.begun
  returned : a.returned = s.d.returned
  answers : a.answers = s.d.answers
  documents : ∀ f t, a.getDocuments f t = s.d.getDocuments f t
  size : ∀ f, a.getFieldSize f = s.d.getFieldSize f
  length : ∀ f, a.getFieldLength f = s.d.getFieldLength f
  terms : ∀ f ts, a.getNumberFieldTerm f ts = s.d.getNumberFieldTerm f ts

theorem _root_.Goir.BRel.alike {root : Path} {D : String → Prop} {s : BDisk} {a : CDisk} (h : BRel root D s a) : Alike s a := by
  refine ⟨h.up, h.clients, h.cache, h.earlier, h.begun, h.returned, h.answers, ?_, ?_, ?_, ?_⟩
  · intro f t
    simp only [CDisk.getDocuments, Memory.getDocuments, CMem.view, h.mem.index, h.mem.idxCells, h.mem.setCells]
  · intro f
    simp only [CDisk.getFieldSize, Memory.getFieldSize, CMem.view, GoMap.getD, h.mem.fieldSize]
  · intro f
    simp only [CDisk.getFieldLength, Memory.getFieldLength, CMem.view, GoMap.getD, h.mem.fieldLength]
  · intro f ts
    simp only [CDisk.getNumberFieldTerm, Memory.getNumberFieldTerm, CMem.view]
    have e : ∀ m : GoMap String (Ref String), GoMap.get? (Ref.follow m s.d.mem.nftCells) f = (m.get? f).map s.d.mem.nftCells := fun m => Ref.get?_follow m _ f
    simp only [h.mem.nftCells, e, h.mem.numberFieldTerm]

theorem brun_append {root : Path} {z : Bytes → Bytes} {s s' : BDisk} {as bs : List Act} : s.run z root (as ++ bs) = some s' ↔ ∃ t, s.run z root as = some t ∧ t.run z root bs = some s' := by
  induction as generalizing s with
  | nil => exact ⟨fun h => ⟨s, rfl, h⟩, fun ⟨t, h, h'⟩ => by cases h; exact h'⟩
  | cons a as ih =>
    rw [List.cons_append, brun_cons]
    constructor
    · rintro ⟨t, h1, h2⟩
      obtain ⟨u, h3, h4⟩ := ih.1 h2
      exact ⟨u, brun_cons.2 ⟨t, h1, h3⟩, h4⟩
    · rintro ⟨u, h1, h2⟩
      obtain ⟨t, h3, h4⟩ := brun_cons.1 h1
      exact ⟨t, h3, ih.2 ⟨u, h4, h2⟩⟩

theorem brun_one {root : Path} {z : Bytes → Bytes} {s s' : BDisk} {a : Act} : s.run z root [a] = some s' ↔ s.exec z root a = some s' := by
  rw [brun_cons]
  exact ⟨fun ⟨t, h, h'⟩ => by cases h'; exact h, fun h => ⟨s', h, rfl⟩⟩

/-- the run that follows, and what is known of where it ends. -/
theorem sim {root : Path} {z : Bytes → Bytes} {D : String → Prop} {as : List Act} {s s' : BDisk} {a : CDisk} (hz : ∀ d, Gz.Written d (z d)) (hD : Ids D) (h : BRel root D s a) (hi : AInv D a) (hn : Named D as)
    (hr : s.run z root as = some s') : ∃ bs a', a.run bs = some a' ∧ BRel root D s' a' ∧ AInv D a' ∧ bs.filter isOpen = as.filter isOpen := by
  obtain ⟨bs, a', h1, h2, h3⟩ := sim_run hD hz h hi hn hr
  refine ⟨bs, a', h1, h2, hi.run h1 fun n progs hm => hn n progs ?_, h3⟩
  have : Act.openRest n progs ∈ bs.filter isOpen := List.mem_filter.2 ⟨hm, rfl⟩
  rw [h3] at this
  exact (List.mem_filter.1 this).1

/-- **C118.** Whatever any number of clients do on a Disk store in an empty folder, the store with its bytes, over any number of processes and crashes after any byte, behaves as the store whose files are objects
that a crash leaves whole or torn: there is a run of that store with the same processes, programs and cache sizes, after which every question has the same answer. -/
theorem c118_refines {root : Path} {fs : FS} {z : Bytes → Bytes} {D : String → Prop} {as : List Act} {s : BDisk} (hroot : EmptyRoot root fs) (hz : ∀ d, Gz.Written d (z d)) (hD : Ids D) (hn : Named D as)
    (h : run z root { fs := fs } as = some s) : ∃ bs a, CDisk.run {} bs = some a ∧ bs.filter isOpen = as.filter isOpen ∧ Alike s a := by
  obtain ⟨bs, a, h1, h2, h3⟩ := sim_run hD hz (brel_init hroot) (AInv.init D) hn h
  exact ⟨bs, a, h1, h3, h2.alike⟩

/-- **C118, nothing is invented** (C89 on bytes). GetDocuments lists a document only if some call that has begun posts it, GetFields returns for a document and a field name only what a SaveOrUpdate of
them was given (up to the 32 bits of the file format), and each counter is at most what the calls that have begun add up to: no crash after any byte, and no file that was cut short, makes a reader see anything else. -/
theorem c118_never_invents {root : Path} {fs : FS} {z : Bytes → Bytes} {D : String → Prop} {as : List Act} {s : BDisk} (hroot : EmptyRoot root fs) (hz : ∀ d, Gz.Written d (z d)) (hD : Ids D) (hn : Named D as)
    (h : run z root { fs := fs } as = some s) :
    (∀ f t d, GoSet.contains (s.d.getDocuments f t).1 d = true → Posted s.d.hist f t d) ∧
    (∀ ids name out, (ids, name, out) ∈ s.d.answers → ∀ d f, out.get? d = some f → d ∈ ids ∧ ∃ g, StoreOp.save d g ∈ s.d.hist ∧ g.name = name ∧ (f = g ∨ f = cutField g)) ∧
    (∀ f, s.d.getFieldSize f ≤ saveCount s.d.hist f) ∧
    ((∀ op ∈ s.d.hist, 0 ≤ op.field.length) → ∀ f, s.d.getFieldLength f ≤ saveLengthSum s.d.hist f) ∧
    (∀ f t, (s.d.getNumberFieldTerm f [t]).getD t 0 ≤ termCount s.d.hist f t) := by
  obtain ⟨bs, a, h1, h2, hi, -⟩ := sim hz hD (brel_init hroot) (AInv.init D) hn h
  have e : a.hist = s.d.hist := by simp only [CDisk.hist, h2.earlier, h2.begun]
  have gv : GoValues a.hist := fun op hop => (hi.names.ops op hop).2.2
  have al := h2.alike
  obtain ⟨k1, k2, k3, k4, k5⟩ := c89_never_invents h1 gv
  rw [e] at k1 k2 k3 k4 k5
  refine ⟨fun f t d hd => k1 f t d (by rw [al.documents]; exact hd), fun ids name out ha => k2 ids name out (by rw [al.answers]; exact ha), fun f => ?_, fun hl f => ?_, fun f t => ?_⟩
  · rw [← al.size]; exact k3 f
  · rw [← al.length]; exact k4 hl f
  · rw [← al.terms]; exact k5 f t

/-- **C118, a field that one client saves is exact** (C92 on bytes). The store was opened (`s₁`), whatever had happened before, byte by byte. Only client `c` saves field `f` in this process. Whenever client `c` is
not in a call on `f`, the counters and the postings of the field are exactly those found when the store was opened plus what the returned calls of this process add. -/
theorem c118_own_field {root : Path} {fs : FS} {z : Bytes → Bytes} {D : String → Prop} {as bs : List Act} {n : Int} {progs : List (List DOp)} {s₁ s : BDisk} {c : Nat} {f : String} {cl : DClient}
    (hroot : EmptyRoot root fs) (hz : ∀ d, Gz.Written d (z d)) (hD : Ids D) (hn : Named D (as ++ [.openRest n progs]))
    (h1 : run z root { fs := fs } (as ++ [.openRest n progs]) = some s₁) (hb : ∀ b ∈ bs, noOpen b = true) (h : s₁.run z root bs = some s) (hu : s.d.up = true) (ho : OneWriter c f progs)
    (hcl : s.d.clients[c]? = some cl) (hq : ∀ op loc, cl.cur = some (.write op loc) → op.field.name ≠ f) :
    s.d.getFieldSize f = s₁.d.getFieldSize f + saveCount s.d.returned f ∧
    s.d.getFieldLength f = s₁.d.getFieldLength f + saveLengthSum s.d.returned f ∧
    (∀ t, (s.d.getNumberFieldTerm f [t]).getD t 0 = (s₁.d.getNumberFieldTerm f [t]).getD t 0 + termCount s.d.returned f t) ∧
    (∀ t d, GoSet.contains (s.d.getDocuments f t).1 d = true ↔ GoSet.contains (s₁.d.getDocuments f t).1 d = true ∨ Posted s.d.returned f t d) := by
  obtain ⟨s₀, g1, g2⟩ := brun_append.1 h1
  obtain ⟨bs0, a0, q1, q2, q3, -⟩ := sim hz hD (brel_init hroot) (AInv.init D) (fun n p hm => hn n p (List.mem_append_left _ hm)) g1
  have hpn : ∀ p ∈ progs, ∀ o ∈ p, OpNames D o := hn n progs (by simp)
  obtain ⟨a1, q4, q5⟩ := openRest_sim q2 q3 (brun_one.1 g2)
  have q6 : AInv D a1 := q3.step q4 fun n' p' e => by cases e; exact hpn
  obtain ⟨bs1, a, q7, q8, -, q9⟩ := sim hz hD q5 q6 (fun n p hm => by have := hb _ hm; cases this) h
  have hopen : CDisk.run {} (bs0 ++ [.openRest n progs]) = some a1 := by rw [CDisk.run_append, q1]; exact run_one q4
  have gv : GoValues (progs.flatMap writes) := by
    intro op hop
    obtain ⟨p, hp, hop⟩ := List.mem_flatMap.1 hop
    have : DOp.write op ∈ p := by
      clear hp
      induction p with
      | nil => cases hop
      | cons o p ih =>
        cases o with
        | write x =>
          rcases List.mem_cons.1 hop with rfl | hop
          · exact List.mem_cons_self
          · exact List.mem_cons_of_mem _ (ih hop)
        | getFields ids name => exact List.mem_cons_of_mem _ (ih hop)
    exact (hpn p hp _ this).2.2
  have al := q8.alike
  have al1 := q5.alike
  have key := c92_own_field hopen (noOpen_of_filter q9 hb) q7 (by rw [al.up]; exact hu) gv ho (by rw [al.clients]; exact hcl) hq
  simpa only [al.size, al.length, al.terms, al.documents, al.returned, al1.size, al1.length, al1.terms, al1.documents] using key

theorem settled {root : Path} {D : String → Prop} {s : BDisk} {a : CDisk} (h2 : BRel root D s a) (hns : NotSaving s.d.ix.merger) (hs : IxSettled s) : CDisk.IxSettled a := by
  obtain ⟨k1, k2, k3, k4⟩ := hs
  refine ⟨by rw [h2.ichan]; exact k1, by rw [h2.ibuf]; exact k2, ?_, ?_⟩
  · have hw := h2.writer
    cases hf : s.frag with
    | none => rw [hf] at hw; rw [← k3]; exact hw
    | some x =>
      rw [hf] at hw
      obtain ⟨f, p, rest, name, raw, b, e, -⟩ := hw
      rw [k3] at e; cases e
  · have hm := h2.merger
    cases hsv : s.saveI with
    | none =>
      rw [hsv] at hm
      have hm : a.ix.merger = s.d.ix.merger := hm
      unfold inRenameWindow
      rw [hm]
      split
      · rename_i e; exact absurd e (hns _ _ _ _ _ _ _)
      · rfl
    | some x =>
      obtain ⟨c, pc⟩ := x
      rw [hsv] at hm
      obtain ⟨f, rest, seen, td, acc, b, apc, e1, e2, -, -, -, e3⟩ := hm
      unfold inRenameWindow
      rw [e2]
      cases pc with
      | moved => exact absurd hsv (k4 c)
      | start => rw [e3.2.2]
      | writing m =>
        rw [e3.2.2.2.2]
        by_cases hm : m < c.buf.length
        · rw [if_pos hm]
        · rw [if_neg hm]
      | written => rw [e3.2.2.2]
      | installed => rw [e3.2.2.2]
      | done => rw [e3.2.2]
      | failed => exact e3.2.2.elim

/-- **C118, a clean restart keeps what was posted** (C90 on bytes). When the index writer has written what it has, the process ends, and a new one opens the folder (in any number of steps of the merge, one for
each byte that it writes), then every posting of every call that had returned is there, every posting that was visible is still there if no client was in a call, and nothing else is. -/
theorem c118_restart {root : Path} {fs : FS} {z : Bytes → Bytes} {D : String → Prop} {as : List Act} {n : Int} {progs : List (List DOp)} {k : Nat} {s s' : BDisk}
    (hroot : EmptyRoot root fs) (hz : ∀ d, Gz.Written d (z d)) (hD : Ids D) (hn : Named D as)
    (h : run z root { fs := fs } as = some s) (hu : s.d.up = true) (hs : IxSettled s) (hr : s.run z root (reopen k n progs) = some s') :
    (∀ op ∈ s.d.returned, ∀ t ∈ op.field.tf.keys, GoSet.contains (s'.d.getDocuments op.field.name t).1 op.doc = true) ∧
    (Idle s.d → ∀ f t d, GoSet.contains (s.d.getDocuments f t).1 d = true → GoSet.contains (s'.d.getDocuments f t).1 d = true) ∧
    (∀ f t d, GoSet.contains (s'.d.getDocuments f t).1 d = true → Posted s.d.hist f t d) := by
  obtain ⟨bs, a, h1, h2, hi, -⟩ := sim hz hD (brel_init hroot) (AInv.init D) hn h
  have al := h2.alike
  have hset : CDisk.IxSettled a := settled h2 (notSaving_run (fun _ _ _ _ _ _ _ e => by cases e) h) hs
  unfold reopen at hr
  obtain ⟨t1, g1, hr⟩ := brun_cons.1 hr
  obtain ⟨t2, g2, hr⟩ := brun_cons.1 hr
  obtain ⟨t3, g3, hr⟩ := brun_append.1 hr
  have g4 := brun_one.1 hr
  obtain ⟨a1, r1, r2⟩ := crash_sim h2 g1
  have i1 : AInv D a1 := hi.step r1 fun _ _ e => by cases e
  obtain ⟨a2, r3, r4⟩ := open_sim r2 i1 g2
  have i2 : AInv D a2 := i1.step r3 fun _ _ e => by cases e
  have hp : t3.d.ix.proc ≠ .down := by
    simp only [exec] at g4
    split at g4
    · rename_i hg; rw [hg.1]; intro e; cases e
    · cases g4
  obtain ⟨j, a3, r5, r6, i3⟩ := merges_sim hD hz r4 i2 g3 hp
  obtain ⟨a4, r7, r8⟩ := openRest_sim r6 i3 g4
  have hrun : a.run (reopen j n progs) = some a4 := run_cons.2 ⟨a1, r1, run_cons.2 ⟨a2, r3, run_snoc.2 ⟨a3, r5, r7⟩⟩⟩
  have al' := r8.alike
  have key := c90_complete h1 (by rw [al.up]; exact hu) hset hrun
  have e : a.hist = s.d.hist := by simp only [CDisk.hist, h2.earlier, h2.begun]
  simp only [al.returned, al.documents, al'.documents, e, CDisk.Idle, al.clients] at key
  exact key

/-- **C118, it opens again.** In the same situation the folder opens, in finitely many steps — or the index of some field has become too large: its serialized postings, all of which were saved, reach 1 GiB, and the
process ends (C111). -/
theorem c118_reopens {root : Path} {fs : FS} {z : Bytes → Bytes} {D : String → Prop} {as : List Act} {s : BDisk}
    (hroot : EmptyRoot root fs) (hz : ∀ d, Gz.Written d (z d)) (hD : Ids D) (hn : Named D as)
    (h : run z root { fs := fs } as = some s) (hu : s.d.up = true) (hs : IxSettled s) (n : Int) (progs : List (List DOp)) :
    (∃ k s', s.run z root (reopen k n progs) = some s' ∧ s'.d.up = true) ∨
    ∃ f, ∃ p : Postings, p.WF ∧ (∀ t d, GoSet.contains ((p.get? t).getD []) d = true → Posted s.d.hist f t d) ∧
      2 ^ 30 ≤ (p.map fun e => (Goir.utf8 e.1).length + (e.2.map fun q => (Goir.utf8 q.1).length + 16).sum + 90).sum + 54 := by
  obtain ⟨bs, a, h1, h2, hi, -⟩ := sim hz hD (brel_init hroot) (AInv.init D) hn h
  have hns : NotSaving s.d.ix.merger := notSaving_run (fun _ _ _ _ _ _ _ e => by cases e) h
  have hset := settled h2 hns hs
  have hua : a.up = true := by rw [h2.up]; exact hu
  obtain ⟨cs, hb⟩ := ix_reach h1
  obtain ⟨⟨k, aix, g1, g2⟩, -⟩ := c30_clean_restart cs _ hb ((ok_run h1).proc hua) hset.1 hset.2.1 hset.2.2.1 hset.2.2.2
  obtain ⟨i1, x1, g1⟩ := (IxState.run_cons _ _ _ _).1 g1
  obtain ⟨i2, x2, g3⟩ := (IxState.run_cons _ _ _ _).1 g1
  have hup : s.d.ix.proc = .up := by rw [← h2.iproc]; exact (ok_run h1).proc hua
  have y1 : s.exec z root .crash = some s.kill := by simp [exec, hup]
  have hnd : a.ix.proc ≠ .down := by rw [h2.iproc, hup]; intro e; cases e
  have r1 := crash_exec hnd
  have r2 : BRel root D s.kill (a.stop a.ix.killed) := kill_rel h2.files h2.earlier h2.begun h2.ihist h2.uuids
  have j1 : AInv D (a.stop a.ix.killed) := hi.step r1 fun _ _ e => by cases e
  have ex : i1 = a.ix.killed := by
    have x1 : (if a.ix.proc = .down then none else some a.ix.killed) = some i1 := x1
    rw [if_neg hnd] at x1
    exact (Option.some.inj x1).symm
  subst ex
  obtain ⟨s2, y2⟩ : ∃ s2, s.kill.exec z root .open_ = some s2 := ⟨_, by simp only [exec]; rw [if_pos (by rfl)]⟩
  have hop2 : s2.d.ix.proc = .opening := by
    simp only [exec] at y2
    split at y2
    · cases y2; rfl
    · cases y2
  have hns2 : NotSaving s2.d.ix.merger := notSaving_step (notSaving_step hns y1) y2
  have r3 : (a.stop a.ix.killed).exec .open_ = some { a.stop a.ix.killed with ix := i2 } := by simp [CDisk.exec, CDisk.stop, x2]
  obtain ⟨a2, r3', r4⟩ := open_sim r2 j1 y2
  rw [r3] at r3'
  cases r3'
  have j2 := j1.step r3 fun _ _ e => by cases e
  obtain ⟨j, s3, y3, y4⟩ := merges_live hD hz r4 j2 hns2 hop2 g3 g2
  have hnd3 : s3.d.ix.proc ≠ .down := by rcases y4 with e | ⟨e, -⟩ <;> rw [e] <;> intro e <;> cases e
  obtain ⟨i, a3, r5, r6, j3⟩ := merges_sim hD hz r4 j2 y3 hnd3
  obtain ⟨-, m2⟩ := merges (t := { a.stop a.ix.killed with ix := i2 }) rfl r5 (by rw [r6.iproc]; exact hnd3)
  have hup3 : s3.d.up = false := by rw [← r6.up, m2]; rfl
  rcases y4 with y4 | ⟨y4, f, rest, seen, td, acc, e1, e2, e3⟩
  · left
    obtain ⟨s', hs'⟩ : ∃ s', s3.exec z root (.openRest n progs) = some s' := by
      simp only [exec]
      rw [if_pos ⟨y4, hup3⟩]
      split <;> exact ⟨_, rfl⟩
    refine ⟨j, s', brun_cons.2 ⟨_, y1, brun_cons.2 ⟨_, y2, brun_append.2 ⟨_, y3, brun_one.2 hs'⟩⟩⟩, ?_⟩
    obtain ⟨a4, r7, r8⟩ := openRest_sim r6 j3 hs'
    rw [← r8.up]
    cases exec_step r7 with
    | openRest => rfl
  · right
    have hm3 : a3.ix.merger = .reading f rest seen [] td acc := by
      have := r6.merger
      rw [e1, e2] at this
      exact this
    have hmo := j3.ok.ix.merger
    unfold IxState.MergerOk at hmo
    rw [hm3] at hmo
    have hpost := (postOk_run (show CDisk.run {} (bs ++ (.crash :: .open_ :: List.replicate i (.ix .merge))) = some a3 by
      rw [CDisk.run_append, h1]; exact run_cons.2 ⟨_, r1, run_cons.2 ⟨_, r3, r5⟩⟩)).ix
    have hh : ∀ op, op ∈ a3.hist → op ∈ s.d.hist := by
      intro op hop
      rw [m2] at hop
      simp only [CDisk.hist, CDisk.stop, h2.earlier, h2.begun, List.append_nil, List.mem_append] at hop ⊢
      exact hop
    refine ⟨f, td, hmo.2.1.1, ?_, ?_⟩
    · intro t d hd
      have hp : hasPosting td t d = true := by
        unfold hasPosting
        cases hg : td.get? t with
        | none => rw [hg] at hd; cases hd
        | some x => rw [hg] at hd; exact hd
      have hst : IxState.OnDisk a3.ix f t d := by
        rcases (hmo.2.2.2.2.2 t d).1 hp with h | ⟨m, -, h⟩
        · exact .inl h
        · exact .inr ⟨m, h⟩
      obtain ⟨op, ho, hr⟩ := hpost f t d (j3.ok.ix.histS f t d (.inl hst))
      exact ⟨op, hh op ho, hr⟩
    · by_contra hlt
      have hlt := Nat.lt_of_not_le hlt
      obtain ⟨buf, hb, -⟩ := FBB.c111_index_fit td hmo.2.1.1 (fun e he => (hmo.2.1.2 e he).1.1) (fun e he => (hmo.2.1.2 e he).1.2) hlt
      rw [e3] at hb; cases hb

/-- the index part of a run is a run of the index part. -/
theorem ix_run {a a' : CDisk} {as : List Act} (h : a.run as = some a') : ∃ bs, a.ix.run bs = some a'.ix := by
  refine CDisk.run_inv (P := fun x => ∃ bs, a.ix.run bs = some x.ix) ?_ ⟨[], rfl⟩ h
  rintro s act s' ⟨bs, hb⟩ hs
  have ext : ∀ {b : IxState.Act} {ix : IxState}, s.ix.exec b = some ix → ∃ bs, a.ix.run bs = some ix := fun {b ix} he =>
    ⟨bs ++ [b], (IxState.run_append _ _ _ _).2 ⟨_, hb, by simp [IxState.run, he]⟩⟩
  cases hs with
  | sendI hu hi hc he => exact ext he
  | ix hb hu he hp => exact ext he
  | ixDown hb hu he hp => exact ext he
  | crash he => exact ext he
  | open_ he => exact ext he
  | _ => exact ⟨bs, hb⟩

/-- **C118, a fragment that is cut short ends the folder** (C71 on bytes). After every history, if the process ends while the index writer has written `n` of the bytes of a fragment and not all of them — also
none of them —, then whatever is tried later, the store is never open again. -/
theorem c118_every_cut_fragment_refuted {root : Path} {fs : FS} {z : Bytes → Bytes} {D : String → Prop} {as bs : List Act} {s s₁ s' : BDisk} {bytes : Bytes} {n : Nat}
    (hroot : EmptyRoot root fs) (hz : ∀ d, Gz.Written d (z d)) (hD : Ids D) (hn : Named D as) (hn' : Named D bs)
    (h : run z root { fs := fs } as = some s) (hf : s.frag = some (bytes, n)) (hlt : n < bytes.length) (hc : s.exec z root .crash = some s₁) (hr : s₁.run z root bs = some s') :
    s'.d.up = false := by
  obtain ⟨cs, a, h1, h2, hi, -⟩ := sim hz hD (brel_init hroot) (AInv.init D) hn h
  obtain ⟨a1, r1, r2⟩ := crash_sim h2 hc
  have i1 : AInv D a1 := hi.step r1 fun _ _ e => by cases e
  obtain ⟨ds, a2, r3, r4, i2, -⟩ := sim hz hD r2 i1 hn' hr
  have hw := h2.writer
  rw [hf] at hw
  obtain ⟨f, p, rest, name, raw, b, e1, -, -, -, -, e2⟩ := hw
  rw [if_pos hlt, e1] at e2
  obtain ⟨es, hb⟩ := ix_reach h1
  have hc' : a.ix.exec .crash = some a1.ix := by
    have hs := CDisk.exec_step r1
    cases hs with
    | crash he => exact he
  obtain ⟨gs, hg⟩ := ix_run r3
  have := Goir.c71_every_cut_fragment_refuted hb e2 hc' gs a2.ix hg
  cases hu : s'.d.up with
  | false => rfl
  | true =>
    have hu2 : a2.up = true := by rw [r4.up]; exact hu
    exact absurd (i2.ok.proc hu2) this

end BDisk
end Goir
