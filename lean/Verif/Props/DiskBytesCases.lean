import Verif.Props.DiskBytes
/-!
# C118: cases

A compressor that stores, a folder, and a client that saves one document: the run of the store with all its bytes.
-/
namespace Goir
open Spec.Gz Gzip

/-- a gzip file with one stored block. -/
def storedFile (d : List UInt8) : List UInt8 :=
  [0x1f, 0x8b, 8, 0, 0, 0, 0, 0, 0, 0xff] ++ (1 :: littleEndian 2 d.length ++ (littleEndian 2 d.length).map (fun b => 255 - b) ++ d) ++ littleEndian 4 (crc32 d).toNat ++ littleEndian 4 d.length

theorem byte_not (b : UInt8) : bitsOf [255 - b] = (bitsOf [b]).map not := by
  have : ∀ b : BitVec 8, bitsOf [255 - UInt8.ofBitVec b] = (bitsOf [UInt8.ofBitVec b]).map not := by decide +kernel
  exact this b.toBitVec

theorem storedFile_written {d : List UInt8} (h : d.length < 65536) : Written d (storedFile d) := by
  refine ⟨_, ⟨[true, false, false] ++ List.replicate 5 false ++ bitsOf (littleEndian 2 d.length) ++ (bitsOf (littleEndian 2 d.length)).map not ++ bitsOf d, [], ?_, by decide, ?_⟩, rfl⟩
  · refine .last (Block.stored (h := []) (pad := List.replicate 5 false) (by decide) (by decide) ?_ ?_ rfl)
    · rw [bitsOf_length, littleEndian_length]
    · simp only [littleEndian, bitsOf_cons, number_append, byteBits_number, byteBits_length, UInt8.toNat_ofNat']
      simp only [bitsOf, List.flatMap_nil, number]
      omega
  · have e : ∀ l : List UInt8, bitsOf (l.map fun b => 255 - b) = (bitsOf l).map not := by
      intro l
      induction l with
      | nil => rfl
      | cons b l ih =>
        rw [List.map_cons, ← List.singleton_append, ← List.singleton_append (l := l), bitsOf_append, bitsOf_append, ih, byte_not, List.map_append]
    have e1 : byteBits 1 = [true, false, false] ++ List.replicate 5 false := by decide
    simp only [List.cons_append, bitsOf_cons, bitsOf_append, e, e1, List.append_assoc, List.append_nil]

/-- what CompressData may be: stored for data up to 64 KiB. -/
noncomputable def packer (d : List UInt8) : List UInt8 := if d.length < 65536 then storedFile d else (written_exists d).choose

theorem packer_written (d : List UInt8) : Written d (packer d) := by
  unfold packer
  split
  · exact storedFile_written ‹_›
  · exact (written_exists d).choose_spec

namespace BDisk
open CDisk

/-- the file system: one empty folder. -/
def folder : FS := [(["data"], .dir)]

theorem folder_empty : EmptyRoot ["data"] folder := by
  refine ⟨by simp [folder, GoMap.WF, GoMap.keys], ?_, ?_⟩
  · intro i hi
    obtain rfl : i = 0 := by simp at hi; omega
    decide
  · intro x l
    simp [folder, GoMap.get?]

theorem ids_a : Ids (fun d => d = "a") := by
  refine ⟨fun d h => by subst h; decide, fun d e h h' => by subst h h'; decide⟩

/-- one client saves one document; the index writer begins with its fragment. -/
def oneSave : List Act :=
  openEmpty 5 [[.write (.save "a" ⟨"title", 1, [("x", 1)]⟩)]] ++
  (List.replicate 7 (.client 0 0) ++ [.recvM 0] ++ List.replicate 10 (.client 0 0) ++ [.recvN 0] ++ List.replicate 5 (.client 0 0) ++ [.recvD 0]) ++
  [.ix .recv, .ix (.tick [("title", [("x", [("a", true)])])]), .ix (.create "0b5bd0a9-8a8c-4f3e-9d0c-0123456789ab")]

/-- all 103 bytes of the fragment are written. -/
def oneSaved : List Act := oneSave ++ List.replicate 104 (.ix .write) ++ [.ix .flushed]

theorem oneSaved_named : Named (fun d => d = "a") oneSaved := by
  intro n progs hm p hp o ho
  have : (n, progs) = (5, [[DOp.write (.save "a" ⟨"title", 1, [("x", 1)]⟩)]]) := by
    simpa [oneSaved, oneSave, openEmpty, List.mem_replicate] using hm
  cases this
  rw [List.mem_singleton] at hp
  subst hp
  rw [List.mem_singleton] at ho
  subst ho
  exact ⟨⟨by decide, by decide⟩, fun _ => rfl, by simp [StoreOp.field, GoMap.WF, GoMap.keys]⟩

theorem exists_of {α : Type} {o : Option α} {p : α → Bool} (h : o.any p = true) : ∃ s, o = some s ∧ p s = true := by
  cases o with
  | none => cases h
  | some s => exact ⟨s, rfl, h⟩

set_option maxRecDepth 100000 in
/-- the hypotheses of the theorems of C118 are met: the call has returned, nobody is in a call, everything is written … -/
example : ∃ s, run packer ["data"] { fs := folder } oneSaved = some s ∧ s.d.up = true ∧ IxSettled s ∧ CDisk.Idle s.d ∧ s.d.returned = [.save "a" ⟨"title", 1, [("x", 1)]⟩] ∧
    (s.d.getDocuments "title" "x").1 = [("a", true)] ∧ ∃ s', s.run packer ["data"] (reopen 115 5 []) = some s' ∧ s'.d.up = true ∧ (s'.d.getDocuments "title" "x").1 = [("a", true)] := by
  obtain ⟨s, h1, h2⟩ : ∃ s, run packer ["data"] { fs := folder } oneSaved = some s ∧ (decide (s.d.up = true ∧ s.d.ix.chan = [] ∧ s.d.ix.buf = [] ∧ s.d.ix.writer = .idle ∧
      s.saveI = none ∧ (∀ cl ∈ s.d.clients, cl.cur = none) ∧ s.d.returned = [.save "a" ⟨"title", 1, [("x", 1)]⟩] ∧ (s.d.getDocuments "title" "x").1 = [("a", true)]) &&
      (s.run packer ["data"] (reopen 115 5 [])).any fun s' => decide (s'.d.up = true ∧ (s'.d.getDocuments "title" "x").1 = [("a", true)])) = true :=
    exists_of (by decide +kernel)
  rw [Bool.and_eq_true, decide_eq_true_eq] at h2
  obtain ⟨⟨k1, k2, k3, k4, k5, k6, k7, k8⟩, h3⟩ := h2
  obtain ⟨s', h4, h5⟩ := exists_of h3
  exact ⟨s, h1, k1, ⟨k2, k3, k4, fun c e => by rw [k5] at e; cases e⟩, k6, k7, k8, s', h4, of_decide_eq_true h5⟩

set_option maxRecDepth 100000 in
/-- … and **a crash while a fragment is being written makes the folder useless** (C36, on bytes): 60 of the 103 bytes are written; opening the folder ends the process without touching a file, and so does the next
attempt. -/
theorem c118_torn_fragment_refuted : ∃ s, run packer ["data"] { fs := folder } (oneSave ++ List.replicate 60 (.ix .write) ++ [.crash]) = some s ∧
    (∃ s', s.run packer ["data"] [.open_, .ix .merge, .ix .merge] = some s' ∧ s'.d.ix.proc = .down ∧ s'.fs = s.fs ∧
      ∃ s'', s'.run packer ["data"] [.open_, .ix .merge, .ix .merge] = some s'' ∧ s''.d.ix.proc = .down ∧ s''.fs = s.fs) := by
  obtain ⟨s, h1, h2⟩ : ∃ s, run packer ["data"] { fs := folder } (oneSave ++ List.replicate 60 (.ix .write) ++ [.crash]) = some s ∧
      (s.run packer ["data"] [.open_, .ix .merge, .ix .merge]).any (fun s' => decide (s'.d.ix.proc = .down ∧ s'.fs = s.fs) &&
        (s'.run packer ["data"] [.open_, .ix .merge, .ix .merge]).any fun s'' => decide (s''.d.ix.proc = .down ∧ s''.fs = s.fs)) = true := exists_of (by decide +kernel)
  obtain ⟨s', h3, h4⟩ := exists_of h2
  rw [Bool.and_eq_true, decide_eq_true_eq] at h4
  obtain ⟨s'', h5, h6⟩ := exists_of h4.2
  exact ⟨s, h1, s', h3, h4.1.1, h4.1.2, s'', h5, of_decide_eq_true h6⟩

set_option maxRecDepth 100000 in
/-- the same case for `c118_every_cut_fragment_refuted`. -/
example : ∃ s s₁, run packer ["data"] { fs := folder } (oneSave ++ List.replicate 60 (.ix .write)) = some s ∧ (∃ b, s.frag = some (b, 60) ∧ 60 < b.length) ∧ s.exec packer ["data"] .crash = some s₁ := by
  obtain ⟨s, h1, h2⟩ : ∃ s, run packer ["data"] { fs := folder } (oneSave ++ List.replicate 60 (.ix .write)) = some s ∧
      (s.frag.any (fun x => decide (x.2 = 60 ∧ 60 < x.1.length)) && (s.exec packer ["data"] .crash).isSome) = true := exists_of (by decide +kernel)
  rw [Bool.and_eq_true] at h2
  obtain ⟨⟨b, n⟩, h3, h4⟩ := exists_of h2.1
  obtain ⟨s₁, h5⟩ := Option.isSome_iff_exists.1 h2.2
  obtain ⟨e, h6⟩ := of_decide_eq_true h4
  simp only at e
  subst e
  exact ⟨s, s₁, h1, ⟨b, h3, h6⟩, h5⟩

end BDisk
end Goir
