import Verif.Lemmas.FlatRead
import Verif.Props.Serialize
/-!
# C111: the bytes of the storage files

`C45` and `C34` are about the objects of a FlatBuffers buffer.  Here the same is proved of the bytes: whatever bytes a serializer returns, the
deserializer reads back from them the data that went in (counts cut to 32 bits); it returns bytes, and does not panic, whenever the data is well below
1 GiB; and it panics when the strings of the data are longer than 1 GiB together.
-/
namespace Goir
namespace FBB
open FB (Obj Slot)

theorem toInt32_range (x : Int) : -2147483648 ≤ toInt32 x ∧ toInt32 x ≤ 2147483647 := by
  unfold toInt32
  have h1 := Int.le_bmod (x := x) (m := 4294967296) (by omega)
  have h2 := Int.bmod_lt (x := x) (m := 4294967296) (by omega)
  omega

/-! ### The four writers -/

theorem serializeCount_ref (p : String × Int) (offs : List Nat) (objs : List Obj) (b : Builder) (h : Idle offs objs b) :
    Ref ((utf8 p.1).length + 48) (Goir.serializeCount p) (serializeCount p) offs objs b OffAt := by
  refine ((createString_ref h p.1).bind (k' := 36) fun noffs new a o b' h' ha => ?_).weaken (by omega)
  have := table_ref h' 2 [.off 0 a o, .i32 1 (toInt32 p.2)]
    (by intro op hop; simp only [List.mem_cons, List.not_mem_nil, or_false] at hop
        rcases hop with rfl | rfl
        · exact ⟨by omega, ha⟩
        · exact ⟨by omega, toInt32_range _⟩) (by simp) (by omega)
  simpa [Op.runA, Op.runB] using this

theorem root_ref {offs : List Nat} {objs : List Obj} {b : Builder} (h : Idle offs objs b) (a o : Nat) (ha : OffAt offs a o) :
    Ref 26 (do FB.startObject 1; FB.offsetSlot 0 a; FB.endObject) (do startObject 1; offsetSlot 0 o; endObject) offs objs b OffAt := by
  have := table_ref h 1 [.off 0 a o]
    (by intro op hop; simp only [List.mem_cons, List.not_mem_nil, or_false] at hop
        subst hop; exact ⟨by omega, ha⟩) (by simp) (by omega)
  simpa [Op.runA, Op.runB] using this

theorem pair_ref {offs : List Nat} {objs : List Obj} {b : Builder} (h : Idle offs objs b) (a o a' o' : Nat) (ha : OffAt offs a o) (ha' : OffAt offs a' o') :
    Ref 36 (do FB.startObject 2; FB.offsetSlot 0 a; FB.offsetSlot 1 a'; FB.endObject) (do startObject 2; offsetSlot 0 o; offsetSlot 1 o'; endObject)
      offs objs b OffAt := by
  have := table_ref h 2 [.off 0 a o, .off 1 a' o']
    (by intro op hop; simp only [List.mem_cons, List.not_mem_nil, or_false] at hop
        rcases hop with rfl | rfl
        · exact ⟨by omega, ha⟩
        · exact ⟨by omega, ha'⟩) (by simp) (by omega)
  simpa [Op.runA, Op.runB] using this

theorem sum_map_add {α : Type} (f : α → Nat) (c : Nat) (l : List α) : (l.map f).sum + c * l.length = (l.map fun x => f x + c).sum := by
  induction l with
  | nil => simp
  | cons x l ih => simp only [List.map_cons, List.sum_cons, List.length_cons, Nat.mul_succ]; omega

/-- a loop over entries, the vector of their offsets, and what follows. -/
theorem entries_ref {α : Type} (f : α → FB.M Nat) (f' : α → M Nat) (k : α → Nat) (l : List α)
    (hf : ∀ x ∈ l, ∀ offs objs b, Idle offs objs b → Ref (k x) (f x) (f' x) offs objs b OffAt)
    {offs : List Nat} {objs : List Obj} {b : Builder} (h : Idle offs objs b) :
    Ref ((l.map fun x => k x + 4).sum + 12) (do FB.offsetVector (← l.mapM f)) (do offsetVector (← l.mapM f')) offs objs b OffAt := by
  refine ((mapM_ref f f' k l hf offs objs b h).bind (k' := 4 * l.length + 12) fun noffs new as os b' h' ha => ?_).weaken ?_
  · have := offsetVector_ref h' ha.1
    rwa [ha.2] at this
  · have := sum_map_add k 4 l; omega

theorem serializeFieldEntry_ref (p : String × Field) (offs : List Nat) (objs : List Obj) (b : Builder) (h : Idle offs objs b) :
    Ref ((utf8 p.1).length + (utf8 p.2.name).length + (p.2.tf.map fun q => (utf8 q.1).length + 52).sum + 118)
      (Goir.serializeFieldEntry p) (serializeFieldEntry p) offs objs b OffAt := by
  refine ((createString_ref h p.1).bind (k' := (utf8 p.2.name).length + 12 + ((p.2.tf.map fun q => (utf8 q.1).length + 52).sum + 12 + (46 + 36)))
    fun noffs new a o b' h' ha => ?_).weaken (by omega)
  refine (createString_ref h' p.2.name).bind fun noffs2 new2 a2 o2 b2 h2 ha2 => ?_
  have hv := entries_ref Goir.serializeCount serializeCount (fun q => (utf8 q.1).length + 48) p.2.tf (fun x _ => serializeCount_ref x) h2
  have := hv.bind (k' := 46 + 36) (Q' := OffAt)
    (f := fun v => do
      FB.startObject 3
      FB.offsetSlot 0 a2
      FB.int32Slot 1 (toInt32 p.2.length)
      FB.offsetSlot 2 v
      let fieldOffset ← FB.endObject
      FB.startObject 2
      FB.offsetSlot 0 a
      FB.offsetSlot 1 fieldOffset
      FB.endObject)
    (f' := fun v => do
      startObject 3
      offsetSlot 0 o2
      int32Slot 1 (toInt32 p.2.length)
      offsetSlot 2 v
      let fieldOffset ← endObject
      startObject 2
      offsetSlot 0 o
      offsetSlot 1 fieldOffset
      endObject)
    (fun noffs3 new3 a3 o3 b3 h3 ha3 => by
      have ht := table_ref h3 3 [.off 0 a2 o2, .i32 1 (toInt32 p.2.length), .off 2 a3 o3]
        (by intro op hop; simp only [List.mem_cons, List.not_mem_nil, or_false] at hop
            rcases hop with rfl | rfl | rfl
            · exact ⟨by omega, ha2.mono _⟩
            · exact ⟨by omega, toInt32_range _⟩
            · exact ⟨by omega, ha3⟩) (by simp) (by omega)
      have := ht.bind (k' := 36) (Q' := OffAt) (fun noffs4 new4 a4 o4 b4 h4 ha4 =>
        pair_ref h4 a o a4 o4 (by simpa using ((ha.mono noffs2).mono noffs3).mono noffs4) ha4)
      simpa [Op.runA, Op.runB, bind_assoc] using this)
  simpa only [bind_assoc] using this

theorem serializeTerm_ref (p : String × GoMap String Bool) (offs : List Nat) (objs : List Obj) (b : Builder) (h : Idle offs objs b) :
    Ref ((utf8 p.1).length + (p.2.map fun q => (utf8 q.1).length + 16).sum + 86)
      (Goir.serializeTerm p) (serializeTerm p) offs objs b OffAt := by
  refine ((createString_ref h p.1).bind (k' := (p.2.map fun q => (utf8 q.1).length + 16).sum + 12 + (26 + 36))
    fun noffs new a o b' h' ha => ?_).weaken (by omega)
  have hv := entries_ref FB.createString createString (fun q => (utf8 q).length + 12) p.2.keys (fun x _ _ _ _ h => createString_ref h x) h'
  have hk : (p.2.keys.map fun x => (utf8 x).length + 12 + 4).sum = (p.2.map fun q => (utf8 q.1).length + 16).sum := by
    simp only [GoMap.keys, List.map_map, Function.comp_def, Nat.add_assoc]
  rw [hk] at hv
  have := hv.bind (k' := 26 + 36) (Q' := OffAt)
    (f := fun v => do
      FB.startObject 1
      FB.offsetSlot 0 v
      let document ← FB.endObject
      FB.startObject 2
      FB.offsetSlot 0 a
      FB.offsetSlot 1 document
      FB.endObject)
    (f' := fun v => do
      startObject 1
      offsetSlot 0 v
      let document ← endObject
      startObject 2
      offsetSlot 0 o
      offsetSlot 1 document
      endObject)
    (fun noffs3 new3 a3 o3 b3 h3 ha3 => by
      have := (root_ref h3 a3 o3 ha3).bind (k' := 36) (Q' := OffAt) (fun noffs4 new4 a4 o4 b4 h4 ha4 =>
        pair_ref h4 a o a4 o4 (by simpa using (ha.mono noffs3).mono noffs4) ha4)
      simpa [bind_assoc] using this)
  simpa only [bind_assoc] using this

/-- the shape of three of the four writers: entries, their vector, the root table. -/
theorem file_ref {α : Type} (f : α → FB.M Nat) (f' : α → M Nat) (k : α → Nat) (l : List α)
    (hf : ∀ x ∈ l, ∀ offs objs b, Idle offs objs b → Ref (k x) (f x) (f' x) offs objs b OffAt) :
    Ref ((l.map fun x => k x + 4).sum + 38)
      (do let es ← l.mapM f; let v ← FB.offsetVector es; FB.startObject 1; FB.offsetSlot 0 v; FB.endObject)
      (do let es ← l.mapM f'; let v ← offsetVector es; startObject 1; offsetSlot 0 v; endObject) [] [] {} OffAt := by
  have := (entries_ref f f' k l hf init_idle).bind (k' := 26) (Q' := OffAt) (fun noffs new a o b h ha => root_ref h a o ha)
  simpa [bind_assoc] using this

theorem sizeLength_ref (name : String) (size length : Int) (hs : FitsInt32 size) (hl : FitsInt32 length) :
    Ref ((utf8 name).length + 58)
      (do let n ← FB.createString name; FB.startObject 3; FB.offsetSlot 0 n; FB.int32Slot 1 size; FB.int32Slot 2 length; FB.endObject)
      (do let n ← createString name; startObject 3; offsetSlot 0 n; int32Slot 1 size; int32Slot 2 length; endObject) [] [] {} OffAt := by
  refine ((createString_ref init_idle name).bind (k' := 46) fun noffs new a o b' h' ha => ?_).weaken (by omega)
  have := table_ref h' 3 [.off 0 a o, .i32 1 size, .i32 2 length]
    (by intro op hop; simp only [List.mem_cons, List.not_mem_nil, or_false] at hop
        rcases hop with rfl | rfl | rfl
        · exact ⟨by omega, ha⟩
        · exact ⟨by omega, hs⟩
        · exact ⟨by omega, hl⟩) (by simp) (by omega)
  simpa [Op.runA, Op.runB] using this

/-! ### Reading back -/

/-- the four deserializers read from the bytes what they read from the objects. -/
theorem read_back {act : FB.M Nat} {act' : M Nat} {k : Nat} (h : Ref k act act' [] [] {} OffAt) {α : Type} (des : FB.Buf → Option α) (des' : Bytes → Option α)
    (hd : ∀ (offs : List Nat) (objs : List Obj) (buf : Bytes) (a o : Nat), Sim offs objs buf → buf.length ≤ 1073741824 → OffAt offs a o →
      getRoot buf = some (buf.length - o) → ∀ r, des ⟨objs, a⟩ = some r → des' buf = some r)
    {r : α} (hr : (FB.finish act).bind des = some r) :
    (finish act' = none ∧ 1073741824 ≤ k + 16) ∨ ∃ buf, finish act' = some buf ∧ des' buf = some r ∧ buf.length ≤ 1073741824 := by
  rcases finish_ref h with h | ⟨offs, objs, a, o, buf, h1, h2, h3, h4, h5, h6, h7⟩
  · exact .inl h
  · rw [h1] at hr
    exact .inr ⟨buf, h2, hd offs objs buf a o h3 h7 h4 (getRoot_spec h7 h6) r hr, h7⟩

theorem counts_back (m : GoMap String Int) (wf : m.WF) :
    (serializeNumberFieldTerm m = none ∧ 1073741824 ≤ (m.map fun p => (utf8 p.1).length + 52).sum + 54) ∨
    ∃ buf, serializeNumberFieldTerm m = some buf ∧ deserializeNumberFieldTerm buf = some (m.map fun p => (p.1, toInt32 p.2)) ∧ buf.length ≤ 1073741824 := by
  refine read_back (file_ref Goir.serializeCount serializeCount (fun p => (utf8 p.1).length + 48) m fun x _ => serializeCount_ref x)
    Goir.deserializeNumberFieldTerm deserializeNumberFieldTerm ?_ (c34_counts_are_cut_to_32_bits m wf)
  intro offs objs buf a o hS hb ha hg r hr
  unfold deserializeNumberFieldTerm
  rw [hg]
  unfold Goir.deserializeNumberFieldTerm at hr
  obtain ⟨n, hn, hr⟩ := Option.bind_eq_some_iff.1 hr
  simp only [Option.bind_eq_bind, Option.bind_some, getVecLen_spec hS hb ha hn]
  exact readCounts_spec hS hb ha 0 n 0 [] r hr

theorem fields_back (m : GoMap String Field) (wf : m.WF) (wfi : ∀ p ∈ m, p.2.tf.WF) :
    (serializeFieldMap m = none ∧
      1073741824 ≤ (m.map fun p => (utf8 p.1).length + (utf8 p.2.name).length + (p.2.tf.map fun q => (utf8 q.1).length + 52).sum + 122).sum + 54) ∨
    ∃ buf, serializeFieldMap m = some buf ∧
      deserializeFieldMap buf = some (m.map fun p => (p.1, ⟨p.2.name, toInt32 p.2.length, p.2.tf.map fun q => (q.1, toInt32 q.2)⟩)) ∧ buf.length ≤ 1073741824 := by
  refine read_back (file_ref Goir.serializeFieldEntry serializeFieldEntry
      (fun p => (utf8 p.1).length + (utf8 p.2.name).length + (p.2.tf.map fun q => (utf8 q.1).length + 52).sum + 118) m fun x _ => serializeFieldEntry_ref x)
    Goir.deserializeFieldMap deserializeFieldMap ?_ (c34_fields_are_cut_to_32_bits m wf wfi)
  intro offs objs buf a o hS hb ha hg r hr
  unfold deserializeFieldMap
  rw [hg]
  unfold Goir.deserializeFieldMap at hr
  obtain ⟨n, hn, hr⟩ := Option.bind_eq_some_iff.1 hr
  simp only [Option.bind_eq_bind, Option.bind_some, getVecLen_spec hS hb ha hn]
  exact readFieldEntries_spec hS hb ha n 0 none none [] r rfl hr

theorem index_back (m : GoMap String (GoMap String Bool)) (wf : m.WF) (wfi : ∀ p ∈ m, GoMap.WF p.2) :
    (serializeIndex m = none ∧
      1073741824 ≤ (m.map fun p => (utf8 p.1).length + (p.2.map fun q => (utf8 q.1).length + 16).sum + 90).sum + 54) ∨
    ∃ buf, serializeIndex m = some buf ∧ deserializeIndex buf = some (m.map fun p => (p.1, p.2.map fun q => (q.1, true))) ∧ buf.length ≤ 1073741824 := by
  refine read_back (file_ref Goir.serializeTerm serializeTerm
      (fun p => (utf8 p.1).length + (p.2.map fun q => (utf8 q.1).length + 16).sum + 86) m fun x _ => serializeTerm_ref x)
    Goir.deserializeIndex deserializeIndex ?_ (c45_index_roundtrip_keys m wf wfi)
  intro offs objs buf a o hS hb ha hg r hr
  unfold deserializeIndex
  rw [hg]
  unfold Goir.deserializeIndex at hr
  obtain ⟨n, hn, hr⟩ := Option.bind_eq_some_iff.1 hr
  simp only [Option.bind_eq_bind, Option.bind_some, getVecLen_spec hS hb ha hn]
  exact readTerms_spec hS hb ha n 0 [] r hr

theorem metrics_back (name : String) (size length : Int) (hs : FitsInt32 size) (hl : FitsInt32 length) :
    (serializeFieldSizeLength name size length = none ∧ 1073741824 ≤ (utf8 name).length + 74) ∨
    ∃ buf, serializeFieldSizeLength name size length = some buf ∧ deserializeFieldSizeLength buf = some (name, size, length) ∧ buf.length ≤ 1073741824 := by
  refine read_back (sizeLength_ref name size length hs hl)
    Goir.deserializeFieldSizeLength deserializeFieldSizeLength ?_ (c45_sizeLength_roundtrip name size length)
  intro offs objs buf a o hS hb ha hg r hr
  unfold deserializeFieldSizeLength
  rw [hg]
  unfold Goir.deserializeFieldSizeLength at hr
  obtain ⟨n, hn, hr⟩ := Option.bind_eq_some_iff.1 hr
  obtain ⟨s, hs, hr⟩ := Option.bind_eq_some_iff.1 hr
  obtain ⟨l, hl, hr⟩ := Option.bind_eq_some_iff.1 hr
  simp only [Option.bind_eq_bind, Option.bind_some, getString_spec hS hb ha hn, getInt32_spec hS hb ha hs, getInt32_spec hS hb ha hl]
  exact hr

/-! ### How much is written at least -/

/-- the action puts at least `k` bytes before the used part. -/
def Grows {α : Type} (k : Nat) (m : M α) : Prop := ∀ b a b', m b = some (a, b') → b.used.length + k ≤ b'.used.length

theorem Grows.bind {α β : Type} {k k' : Nat} {m : M α} {f : α → M β} (h : Grows k m) (hf : ∀ a, Grows k' (f a)) : Grows (k + k') (m >>= f) := by
  intro b a b' e
  rw [run_bind] at e
  obtain ⟨⟨x, b1⟩, e1, e2⟩ := Option.bind_eq_some_iff.1 e
  have := h _ _ _ e1
  have := hf x _ _ _ e2
  simp only at this
  omega

theorem Grows.fst {α β : Type} {k : Nat} {m : M α} {f : α → M β} (h : Grows k m) (hf : ∀ a, Grows 0 (f a)) : Grows k (m >>= f) := h.bind hf

theorem Grows.snd {α β : Type} {k : Nat} {m : M α} {f : α → M β} (h : Grows 0 m) (hf : ∀ a, Grows k (f a)) : Grows k (m >>= f) := by
  have := h.bind hf
  rwa [Nat.zero_add] at this

theorem Grows.weaken {α : Type} {k k' : Nat} {m : M α} (h : Grows k m) (hk : k' ≤ k) : Grows k' m := by
  intro b a b' e; have := h b a b' e; omega

theorem grows_pure {α : Type} (a : α) : Grows 0 (pure a : M α) := by
  intro b a b' e; cases e; simp

theorem grows_get : Grows 0 (get : M Builder) := by
  intro b a b' e; cases e; simp

theorem grows_failure {α : Type} (k : Nat) : Grows k (failure : M α) := by
  intro b a b' e; cases e

theorem grows_modify {f : Builder → Builder} (hf : ∀ b, (f b).used = b.used) : Grows 0 (modify f : M PUnit) := by
  intro b a b' e
  rw [run_modify] at e; cases e
  rw [hf]; simp

theorem grows_prep (size additional : Nat) : Grows 0 (prep size additional) := by
  intro b a b' e
  unfold prep at e
  simp only at e
  split at e
  · cases e
  · cases e; simp

theorem grows_place (xs : Bytes) : Grows xs.length (place xs) := by
  intro b a b' e
  unfold place at e
  split at e
  · cases e; simp; omega
  · cases e

theorem grows_patch (o : Nat) (x : Int) : Grows 0 (patch o x) := by
  intro b a b' e
  unfold patch at e
  simp only at e
  split at e
  · cases e; simp [le32_length]; omega
  · cases e

theorem grows_prependUOffset (o : Nat) : Grows 4 (prependUOffset o) := by
  refine ((grows_prep 4 0).bind fun _ => grows_get.bind (k' := 4) fun b => ?_).weaken (by omega)
  split
  · exact grows_place _
  · exact grows_failure 4

theorem grows_prependSOffset (o : Nat) : Grows 4 (prependSOffset o) := grows_prependUOffset o

theorem grows_prependInt32 (x : Int) : Grows 4 (prependInt32 x) :=
  ((grows_prep 4 0).bind fun _ => grows_place _).weaken (by simp [le32_length])

theorem grows_prependVOffset (x : Nat) : Grows 2 (prependVOffset x) :=
  ((grows_prep 2 0).bind fun _ => grows_place _).weaken (by simp [le16_length])

theorem grows_startObject (n : Nat) : Grows 0 (startObject n) := by
  intro b a b' e
  unfold startObject at e
  split at e
  · cases e
  · cases e; simp

theorem grows_slot (i : Nat) : Grows 0 (slot i) := by
  intro b a b' e
  unfold slot at e
  split at e
  · cases e; simp
  · cases e

theorem grows_offsetSlot (i o : Nat) : Grows 0 (offsetSlot i o) := by
  unfold offsetSlot
  split
  · exact ((grows_prependUOffset o).bind fun _ => grows_slot i).weaken (by omega)
  · exact grows_pure _

theorem grows_int32Slot (i : Nat) (x : Int) : Grows 0 (int32Slot i x) := by
  unfold int32Slot
  split
  · exact ((grows_prependInt32 x).bind fun _ => grows_slot i).weaken (by omega)
  · exact grows_pure _

theorem grows_forM {α : Type} (f : α → M Unit) (k : Nat) (hf : ∀ a, Grows k (f a)) : ∀ l : List α, Grows (k * l.length) (l.forM f)
  | [] => grows_pure _
  | x :: l => ((hf x).bind fun _ => grows_forM f k hf l).weaken (by simp only [List.length_cons, Nat.mul_succ]; omega)

theorem grows_endObject : Grows 4 endObject := by
  unfold endObject
  refine (grows_get.bind (k' := 4) fun b => ?_).weaken (by omega)
  have hrest : Grows 4 (do
      prependSOffset 0
      let b ← get
      let objectOffset := b.offset
      let vtable := trim b.vtable
      match findVtable b.used vtable objectOffset b.vtables.reverse with
      | none => failure
      | some (some existing) =>
        patch objectOffset ((existing : Int) - objectOffset)
        modify fun b => { b with vtable := [], nested := false }
        return objectOffset
      | some none =>
        vtable.reverse.forM fun v => prependVOffset (if v ≠ 0 then objectOffset - v else 0)
        prependVOffset (objectOffset - b.objectEnd)
        prependVOffset ((vtable.length + 2) * 2)
        let b' ← get
        patch objectOffset ((b'.offset : Int) - objectOffset)
        modify fun b => { b with vtable := [], vtables := b.vtables ++ [b.offset], nested := false }
        return objectOffset : M Nat) := by
    refine ((grows_prependSOffset 0).bind fun _ => grows_get.bind (k' := 0) fun b => ?_).weaken (by omega)
    simp only
    split
    · exact grows_failure 0
    · exact (grows_patch _ _).fst fun _ => Grows.fst (grows_modify (by intro b; rfl)) fun _ => grows_pure _
    · refine Grows.snd ((grows_forM _ 2 (fun v => grows_prependVOffset _) _).weaken (Nat.zero_le _)) fun _ => ?_
      refine Grows.snd ((grows_prependVOffset _).weaken (Nat.zero_le _)) fun _ => ?_
      refine Grows.snd ((grows_prependVOffset _).weaken (Nat.zero_le _)) fun _ => ?_
      refine Grows.snd grows_get fun _ => ?_
      refine Grows.snd (grows_patch _ _) fun _ => ?_
      exact Grows.snd (grows_modify (by intro b; rfl)) fun _ => grows_pure _
  split
  · exact grows_failure 4
  · exact hrest

theorem grows_endVector (n : Nat) : Grows 4 (endVector n) := by
  unfold endVector
  refine (grows_get.bind (k' := 4) fun b => ?_).weaken (by omega)
  split
  · exact grows_failure 4
  · exact (grows_place (le32 n)).fst fun _ => Grows.fst (grows_modify (by intro b; rfl)) fun _ => grows_get.fst fun _ => grows_pure _

/-- `assertNotNested` and what follows. -/
theorem grows_nested {α : Type} {k : Nat} {m : M α} (h : Grows k m) :
    Grows k (do let b ← get; if b.nested then failure else (do set { b with nested := true }; m) : M α) := by
  intro b a b' e
  rw [run_bind, run_get] at e
  simp only [Option.bind_some] at e
  split at e
  · cases e
  · rw [run_bind, run_set] at e
    have := h { b with nested := true } a b' e
    exact this

theorem grows_createString (t : String) : Grows ((utf8 t).length + 5) (createString t) := by
  have h : Grows ((utf8 t).length + 5) (do
      prep 4 ((utf8 t).length + 1)
      place [0]
      place (utf8 t)
      endVector (utf8 t).length : M Nat) :=
    ((grows_prep _ _).bind fun _ => (grows_place [0]).bind fun _ => (grows_place (utf8 t)).bind fun _ => grows_endVector _).weaken (by simp only [List.length_cons, List.length_nil]; omega)
  intro b a b' e
  refine grows_nested h b a b' ?_
  rw [← e]
  unfold createString
  rw [run_bind, run_bind, run_get]
  simp only [Option.bind_some]
  split <;> rfl

theorem grows_startVector (n : Nat) : Grows 0 (startVector n) := by
  have h : Grows 0 (do prep 4 (4 * n); prep 4 (4 * n) : M Unit) := (grows_prep _ _).fst fun _ => grows_prep _ _
  intro b a b' e
  refine grows_nested h b a b' ?_
  rw [← e]
  unfold startVector
  rw [run_bind, run_bind, run_get]
  simp only [Option.bind_some]
  split <;> rfl

theorem grows_offsetVector (offs : List Nat) : Grows (4 * offs.length + 4) (offsetVector offs) :=
  (grows_startVector _).snd fun _ => ((grows_forM _ 4 grows_prependUOffset _).bind fun _ => grows_endVector _).weaken (by simp)

theorem grows_mapM {α : Type} (f : α → M Nat) (k : α → Nat) (hf : ∀ a, Grows (k a) (f a)) : ∀ l : List α,
    ∀ b as b', l.mapM f b = some (as, b') → b.used.length + (l.map k).sum ≤ b'.used.length ∧ as.length = l.length := by
  intro l
  induction l with
  | nil => intro b as b' e; cases e; simp
  | cons x l ih =>
    intro b as b' e
    rw [List.mapM_cons, run_bind] at e
    obtain ⟨⟨y, b1⟩, e1, e⟩ := Option.bind_eq_some_iff.1 e
    rw [run_bind] at e
    obtain ⟨⟨ys, b2⟩, e2, e⟩ := Option.bind_eq_some_iff.1 e
    cases e
    have h1 := hf x _ _ _ e1
    have h2 := ih _ _ _ e2
    simp only [List.map_cons, List.sum_cons, List.length_cons] at h1 h2 ⊢
    omega

theorem grows_entries {α : Type} (f : α → M Nat) (k : α → Nat) (hf : ∀ a, Grows (k a) (f a)) (l : List α) :
    Grows ((l.map fun x => k x + 4).sum + 4) (do offsetVector (← l.mapM f)) := by
  intro b a b' e
  rw [run_bind] at e
  obtain ⟨⟨ys, b1⟩, e1, e2⟩ := Option.bind_eq_some_iff.1 e
  have h1 := grows_mapM f k hf l _ _ _ e1
  have h2 := grows_offsetVector ys _ _ _ e2
  rw [h1.2] at h2
  have := sum_map_add k 4 l
  simp only at h2
  omega

theorem grows_serializeCount (p : String × Int) : Grows ((utf8 p.1).length + 9) (serializeCount p) :=
  ((grows_createString p.1).bind fun _ => (grows_startObject 2).snd fun _ => (grows_offsetSlot 0 _).snd fun _ =>
    (grows_int32Slot 1 _).snd fun _ => grows_endObject).weaken (by omega)

theorem grows_serializeFieldEntry (p : String × Field) :
    Grows ((utf8 p.1).length + (utf8 p.2.name).length + (p.2.tf.map fun q => (utf8 q.1).length + 13).sum + 22) (serializeFieldEntry p) := by
  have ht := grows_entries serializeCount (fun q => (utf8 q.1).length + 9) grows_serializeCount p.2.tf
  have : Grows ((utf8 p.1).length + 5 + ((utf8 p.2.name).length + 5 + ((p.2.tf.map fun q => (utf8 q.1).length + 13).sum + 4 + (4 + 4)))) (do
      let keyOffset ← createString p.1
      let nameOffset ← createString p.2.name
      let tfVector ← (do offsetVector (← p.2.tf.mapM serializeCount) : M Nat)
      startObject 3
      offsetSlot 0 nameOffset
      int32Slot 1 (toInt32 p.2.length)
      offsetSlot 2 tfVector
      let fieldOffset ← endObject
      startObject 2
      offsetSlot 0 keyOffset
      offsetSlot 1 fieldOffset
      endObject : M Nat) := by
    refine (grows_createString _).bind fun _ => (grows_createString _).bind fun _ => ht.bind fun _ => ?_
    refine (grows_startObject _).snd fun _ => (grows_offsetSlot _ _).snd fun _ => (grows_int32Slot _ _).snd fun _ => (grows_offsetSlot _ _).snd fun _ => ?_
    refine grows_endObject.bind fun _ => (grows_startObject _).snd fun _ => (grows_offsetSlot _ _).snd fun _ => (grows_offsetSlot _ _).snd fun _ => grows_endObject
  have := this.weaken (k' := (utf8 p.1).length + (utf8 p.2.name).length + (p.2.tf.map fun q => (utf8 q.1).length + 13).sum + 22) (by omega)
  unfold serializeFieldEntry
  simpa only [bind_assoc] using this

theorem grows_serializeTerm (p : String × GoMap String Bool) :
    Grows ((utf8 p.1).length + (p.2.map fun q => (utf8 q.1).length + 9).sum + 17) (serializeTerm p) := by
  have ht := grows_entries createString (fun q => (utf8 q).length + 5) grows_createString p.2.keys
  have hk : (p.2.keys.map fun x => (utf8 x).length + 5 + 4).sum = (p.2.map fun q => (utf8 q.1).length + 9).sum := by
    simp only [GoMap.keys, List.map_map, Function.comp_def, Nat.add_assoc]
  rw [hk] at ht
  have : Grows ((utf8 p.1).length + 5 + ((p.2.map fun q => (utf8 q.1).length + 9).sum + 4 + (4 + 4))) (do
      let keyOffset ← createString p.1
      let valuesVector ← (do offsetVector (← p.2.keys.mapM createString) : M Nat)
      startObject 1
      offsetSlot 0 valuesVector
      let document ← endObject
      startObject 2
      offsetSlot 0 keyOffset
      offsetSlot 1 document
      endObject : M Nat) := by
    refine (grows_createString _).bind fun _ => ht.bind fun _ => ?_
    refine (grows_startObject _).snd fun _ => (grows_offsetSlot _ _).snd fun _ => ?_
    refine grows_endObject.bind fun _ => (grows_startObject _).snd fun _ => (grows_offsetSlot _ _).snd fun _ => (grows_offsetSlot _ _).snd fun _ => grows_endObject
  have := this.weaken (k' := (utf8 p.1).length + (p.2.map fun q => (utf8 q.1).length + 9).sum + 17) (by omega)
  unfold serializeTerm
  simpa only [bind_assoc] using this

theorem grows_finish {act : M Nat} {k : Nat} (h : Grows k act) {buf : Bytes} (hb : finish act = some buf) : k + 4 ≤ buf.length := by
  unfold finish at hb
  have hg : Grows (k + 4) (do finishBuffer (← act) : M Unit) := by
    refine h.bind fun r => ?_
    unfold finishBuffer
    refine grows_get.snd fun b => ?_
    have : Grows 4 (do prep b.minalign 4; prependUOffset r; modify fun b => { b with finished := true } : M Unit) :=
      (grows_prep _ _).snd fun _ => (grows_prependUOffset _).fst fun _ => grows_modify (by intro b; rfl)
    split
    · exact grows_failure 4
    · exact this
  split at hb
  · rename_i b e
    have := hg _ _ _ e
    split at hb
    · cases hb; simp only [List.length_nil] at this; omega
    · cases hb
  · cases hb

theorem grows_file {α : Type} (f : α → M Nat) (k : α → Nat) (hf : ∀ a, Grows (k a) (f a)) (l : List α) {buf : Bytes}
    (hb : finish (do let es ← l.mapM f; let v ← offsetVector es; startObject 1; offsetSlot 0 v; endObject) = some buf) :
    (l.map fun x => k x + 4).sum + 12 ≤ buf.length := by
  have : Grows ((l.map fun x => k x + 4).sum + 4 + 4) (do let v ← (do offsetVector (← l.mapM f) : M Nat); startObject 1; offsetSlot 0 v; endObject : M Nat) :=
    (grows_entries f k hf l).bind fun _ => (grows_startObject _).snd fun _ => (grows_offsetSlot _ _).snd fun _ => grows_endObject
  have := grows_finish (act := do let es ← l.mapM f; let v ← offsetVector es; startObject 1; offsetSlot 0 v; endObject) (by simpa only [bind_assoc] using this) hb
  omega

theorem fit {k : Nat} {α β : Type} {x : Option α} {d : α → Option β} {r : β} {P : α → Prop}
    (h : (x = none ∧ 1073741824 ≤ k) ∨ ∃ y, x = some y ∧ d y = some r ∧ P y) (hk : k < 1073741824) : ∃ y, x = some y ∧ d y = some r ∧ P y := by
  rcases h with ⟨-, h⟩ | h
  · omega
  · exact h

theorem never_wrong {k : Nat} {α β : Type} {x : Option α} {d : α → Option β} {r : β} {P : α → Prop}
    (h : (x = none ∧ 1073741824 ≤ k) ∨ ∃ y, x = some y ∧ d y = some r ∧ P y) {y : α} (hy : x = some y) : d y = some r ∧ P y := by
  rcases h with ⟨h, -⟩ | ⟨y', h1, h2⟩
  · rw [h] at hy; cases hy
  · rw [h1] at hy; cases hy; exact h2

/-! ### The theorems -/

/-- **C111** (a file is never wrong).  Whatever bytes the four serializers return, the deserializers read back from those bytes the data that was given,
each count cut to 32 bits, each document listed as present. -/
theorem c111_counts_bytes (m : GoMap String Int) (wf : m.WF) {buf : Bytes} (h : serializeNumberFieldTerm m = some buf) :
    deserializeNumberFieldTerm buf = some (m.map fun p => (p.1, toInt32 p.2)) := (never_wrong (counts_back m wf) h).1

theorem c111_fields_bytes (m : GoMap String Field) (wf : m.WF) (wfi : ∀ p ∈ m, p.2.tf.WF) {buf : Bytes} (h : serializeFieldMap m = some buf) :
    deserializeFieldMap buf = some (m.map fun p => (p.1, ⟨p.2.name, toInt32 p.2.length, p.2.tf.map fun q => (q.1, toInt32 q.2)⟩)) :=
  (never_wrong (fields_back m wf wfi) h).1

theorem c111_index_bytes (m : GoMap String (GoMap String Bool)) (wf : m.WF) (wfi : ∀ p ∈ m, GoMap.WF p.2) {buf : Bytes} (h : serializeIndex m = some buf) :
    deserializeIndex buf = some (m.map fun p => (p.1, p.2.map fun q => (q.1, true))) := (never_wrong (index_back m wf wfi) h).1

theorem c111_metrics_bytes (name : String) (size length : Int) (hs : FitsInt32 size) (hl : FitsInt32 length) {buf : Bytes}
    (h : serializeFieldSizeLength name size length = some buf) : deserializeFieldSizeLength buf = some (name, size, length) :=
  (never_wrong (metrics_back name size length hs hl) h).1

/-- … data that fits is written, and read back: the bytes of its strings and a fixed amount for each entry are below 1 GiB. -/
theorem c111_counts_fit (m : GoMap String Int) (wf : m.WF) (hr : ∀ p ∈ m, FitsInt32 p.2)
    (hsz : (m.map fun p => (utf8 p.1).length + 52).sum + 54 < 2 ^ 30) :
    ∃ buf, serializeNumberFieldTerm m = some buf ∧ deserializeNumberFieldTerm buf = some m := by
  obtain ⟨buf, h1, h2, -⟩ := fit (counts_back m wf) hsz
  have h3 := c45_numberFieldTerm_roundtrip m wf hr
  rw [c34_counts_are_cut_to_32_bits m wf] at h3
  exact ⟨buf, h1, h2.trans h3⟩

theorem c111_fields_fit (m : GoMap String Field) (wf : m.WF) (wfi : ∀ p ∈ m, p.2.tf.WF)
    (hr : ∀ p ∈ m, FitsInt32 p.2.length ∧ ∀ q ∈ p.2.tf, FitsInt32 q.2)
    (hsz : (m.map fun p => (utf8 p.1).length + (utf8 p.2.name).length + (p.2.tf.map fun q => (utf8 q.1).length + 52).sum + 122).sum + 54 < 2 ^ 30) :
    ∃ buf, serializeFieldMap m = some buf ∧ deserializeFieldMap buf = some m := by
  obtain ⟨buf, h1, h2, -⟩ := fit (fields_back m wf wfi) hsz
  have h3 := c45_fieldMap_roundtrip m wf wfi hr
  rw [c34_fields_are_cut_to_32_bits m wf wfi] at h3
  exact ⟨buf, h1, h2.trans h3⟩

theorem c111_index_fit (m : GoMap String (GoMap String Bool)) (wf : m.WF) (wfi : ∀ p ∈ m, GoMap.WF p.2) (ht : ∀ p ∈ m, ∀ q ∈ p.2, q.2 = true)
    (hsz : (m.map fun p => (utf8 p.1).length + (p.2.map fun q => (utf8 q.1).length + 16).sum + 90).sum + 54 < 2 ^ 30) :
    ∃ buf, serializeIndex m = some buf ∧ deserializeIndex buf = some m := by
  obtain ⟨buf, h1, h2, -⟩ := fit (index_back m wf wfi) hsz
  have h3 := c45_index_roundtrip m wf wfi ht
  rw [c45_index_roundtrip_keys m wf wfi] at h3
  exact ⟨buf, h1, h2.trans h3⟩

theorem c111_metrics_fit (name : String) (size length : Int) (hs : FitsInt32 size) (hl : FitsInt32 length) (hsz : (utf8 name).length + 74 < 2 ^ 30) :
    ∃ buf, serializeFieldSizeLength name size length = some buf ∧ deserializeFieldSizeLength buf = some (name, size, length) := by
  obtain ⟨buf, h1, h2, -⟩ := fit (metrics_back name size length hs hl) hsz
  exact ⟨buf, h1, h2⟩

/-- … data that does not fit makes the serializer panic: the strings and at least 13 bytes for each entry. -/
theorem c111_counts_panic (m : GoMap String Int) (wf : m.WF) (hsz : 2 ^ 30 < (m.map fun p => (utf8 p.1).length + 13).sum) :
    serializeNumberFieldTerm m = none := by
  cases h : serializeNumberFieldTerm m with
  | none => rfl
  | some buf =>
    have h1 := (never_wrong (counts_back m wf) h).2
    have h2 := grows_file serializeCount (fun p => (utf8 p.1).length + 9) grows_serializeCount m h
    simp only [Nat.add_assoc, Nat.reduceAdd] at h2
    omega

theorem c111_fields_panic (m : GoMap String Field) (wf : m.WF) (wfi : ∀ p ∈ m, p.2.tf.WF)
    (hsz : 2 ^ 30 < (m.map fun p => (utf8 p.1).length + (utf8 p.2.name).length + (p.2.tf.map fun q => (utf8 q.1).length + 13).sum + 26).sum) :
    serializeFieldMap m = none := by
  cases h : serializeFieldMap m with
  | none => rfl
  | some buf =>
    have h1 := (never_wrong (fields_back m wf wfi) h).2
    have h2 := grows_file serializeFieldEntry (fun p => (utf8 p.1).length + (utf8 p.2.name).length + (p.2.tf.map fun q => (utf8 q.1).length + 13).sum + 22)
      grows_serializeFieldEntry m h
    simp only [Nat.add_assoc, Nat.reduceAdd] at h2 hsz
    omega

theorem c111_index_panic (m : GoMap String (GoMap String Bool)) (wf : m.WF) (wfi : ∀ p ∈ m, GoMap.WF p.2)
    (hsz : 2 ^ 30 < (m.map fun p => (utf8 p.1).length + (p.2.map fun q => (utf8 q.1).length + 9).sum + 21).sum) :
    serializeIndex m = none := by
  cases h : serializeIndex m with
  | none => rfl
  | some buf =>
    have h1 := (never_wrong (index_back m wf wfi) h).2
    have h2 := grows_file serializeTerm (fun p => (utf8 p.1).length + (p.2.map fun q => (utf8 q.1).length + 9).sum + 17) grows_serializeTerm m h
    simp only [Nat.add_assoc, Nat.reduceAdd] at h2 hsz
    omega

/-! Non-trivial cases of the hypotheses. -/

example : ∃ buf, serializeNumberFieldTerm [("go", 3), ("naïve", 0), ("go2", -7)] = some buf ∧
    deserializeNumberFieldTerm buf = some [("go", 3), ("naïve", 0), ("go2", -7)] :=
  c111_counts_fit _ (by decide) (by decide) (by decide)

example : ∃ buf, serializeIndex [("go", [("1", true), ("2", true)]), ("x", [])] = some buf ∧
    deserializeIndex buf = some [("go", [("1", true), ("2", true)]), ("x", [])] :=
  c111_index_fit _ (by decide) (by decide) (by decide) (by decide)

example : ∃ buf, serializeFieldMap [("1", ⟨"title", 2, [("go", 1), ("x", 1)]⟩), ("2", ⟨"title", 0, []⟩)] = some buf ∧
    deserializeFieldMap buf = some [("1", ⟨"title", 2, [("go", 1), ("x", 1)]⟩), ("2", ⟨"title", 0, []⟩)] :=
  c111_fields_fit _ (by decide) (by decide) (by decide) (by decide)

/-- a term of `n` letters. -/
theorem utf8_replicate (n : Nat) : (utf8 (String.ofList (List.replicate n 'a'))).length = n := by
  unfold utf8
  have h : ∀ l : List Char, (String.ofList l).toByteArray.data.toList.length = (l.map Char.utf8Size).sum := by
    intro l
    rw [String.toByteArray_ofList]
    simp [List.utf8Encode]
  rw [h, List.map_replicate, List.sum_replicate_nat]
  simp [show Char.utf8Size 'a' = 1 from rfl]

/-- … so there are maps, with a single count, that cannot be written. -/
theorem c111_any_size_refuted : ¬ ∀ m : GoMap String Int, m.WF → (∀ p ∈ m, FitsInt32 p.2) → ∃ buf, serializeNumberFieldTerm m = some buf := by
  intro h
  have hn : ∃ n, n = 1073741824 := ⟨_, rfl⟩
  obtain ⟨n, hn⟩ := hn
  have wf : GoMap.WF [(String.ofList (List.replicate n 'a'), (1 : Int))] := by simp [GoMap.WF, GoMap.keys]
  obtain ⟨buf, hb⟩ := h [(String.ofList (List.replicate n 'a'), 1)] wf
    (by intro p hp; rw [List.mem_singleton] at hp; subst hp; show FitsInt32 1; decide)
  rw [c111_counts_panic _ wf] at hb
  · cases hb
  · simp only [List.map_cons, List.map_nil, List.sum_cons, List.sum_nil, utf8_replicate]; omega

/-- An empty or nearly empty file (less than four bytes) makes every deserializer panic. -/
theorem c111_short_file (buf : Bytes) (h : buf.length < 4) : deserializeNumberFieldTerm buf = none ∧ deserializeFieldMap buf = none ∧
    deserializeIndex buf = none ∧ deserializeFieldSizeLength buf = none := by
  have hg : getRoot buf = none := by
    unfold getRoot getU32
    match buf, h with
    | [], _ => rfl
    | [_], _ => rfl
    | [_, _], _ => rfl
    | [_, _, _], _ => rfl
    | _ :: _ :: _ :: _ :: _, h => simp at h; omega
  refine ⟨?_, ?_, ?_, ?_⟩
  · unfold deserializeNumberFieldTerm; rw [hg]; rfl
  · unfold deserializeFieldMap; rw [hg]; rfl
  · unfold deserializeIndex; rw [hg]; rfl
  · unfold deserializeFieldSizeLength; rw [hg]; rfl

end FBB
end Goir
