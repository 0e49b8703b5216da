import Verif.Model.Serialize
import Mathlib.Data.List.Forall2
/-! # Helper lemmas about the FlatBuffers object model and the serializers -/
namespace Goir.FB

theorem objAt_append {objs : List Obj} {o : Nat} {x : Obj} (e : List Obj) (h : objAt objs o = some x) :
    objAt (objs ++ e) o = some x := by
  unfold objAt at *
  split at h
  · cases h
  · rename_i h0
    rw [if_neg h0]
    rw [List.getElem?_append_left (List.getElem?_eq_some_iff.1 h).1]; exact h

theorem objAt_last (objs : List Obj) (x : Obj) : objAt (objs ++ [x]) (objs.length + 1) = some x := by
  simp [objAt]

theorem slot?_append {objs : List Obj} {p i : Nat} {x} (e : List Obj) (h : slot? objs p i = some x) :
    slot? (objs ++ e) p i = some x := by
  unfold slot? at *
  split at h
  · rename_i sl hs; rw [objAt_append e hs]; exact h
  · cases h

theorem getString_append {objs : List Obj} {p i : Nat} {s} (e : List Obj) (h : getString objs p i = some s) :
    getString (objs ++ e) p i = some s := by
  unfold getString at *
  cases hs : slot? objs p i with
  | none => simp [hs] at h
  | some x =>
    rw [slot?_append e hs]; rw [hs] at h
    match x with
    | none => exact h
    | some (.i32 _) => exact h
    | some (.off o) =>
      simp only [Option.bind_eq_bind, Option.bind_some] at h ⊢
      cases ho : objAt objs o with
      | none => simp [ho] at h
      | some y => rw [objAt_append e ho]; rw [ho] at h; exact h

theorem getInt32_append {objs : List Obj} {p i : Nat} {s} (e : List Obj) (h : getInt32 objs p i = some s) :
    getInt32 (objs ++ e) p i = some s := by
  unfold getInt32 at *
  cases hs : slot? objs p i with
  | none => simp [hs] at h
  | some x => rw [slot?_append e hs]; rw [hs] at h; exact h

/-- the vector in slot `i` of the table at `p` has exactly the elements `els`. -/
def VecAt (objs : List Obj) (p i : Nat) (els : List Nat) : Prop :=
  ∃ o, slot? objs p i = some (some (.off o)) ∧ objAt objs o = some (.vec els.length els)

theorem VecAt.append {objs : List Obj} {p i els} (e : List Obj) (h : VecAt objs p i els) : VecAt (objs ++ e) p i els := by
  obtain ⟨o, h1, h2⟩ := h
  exact ⟨o, slot?_append e h1, objAt_append e h2⟩

theorem VecAt.len {objs : List Obj} {p i els} (h : VecAt objs p i els) : getVecLen objs p i = some els.length := by
  obtain ⟨o, h1, h2⟩ := h
  simp [getVecLen, h1, h2]

theorem VecAt.elem {objs : List Obj} {p i els} (h : VecAt objs p i els) {j x : Nat} (hx : els[j]? = some x) :
    getVecElem objs p i j = some (some x) := by
  obtain ⟨o, h1, h2⟩ := h
  simp [getVecElem, h1, h2, hx]

/-- a builder action that, started between objects, appends some objects and returns an offset with property `P`. -/
def Writes (act : M Nat) (P : List Obj → Nat → Prop) : Prop :=
  ∀ objs, ∃ o e, act ⟨objs, .idle⟩ = some (o, ⟨objs ++ e, .idle⟩) ∧ 0 < o ∧ o ≤ (objs ++ e).length ∧ P (objs ++ e) o

/-- `P` survives appending objects. -/
def Stable (P : List Obj → Nat → Prop) : Prop := ∀ objs e o, P objs o → P (objs ++ e) o

theorem mapM_writes {α} (f : α → M Nat) (P : α → List Obj → Nat → Prop) (hst : ∀ a, Stable (P a))
    (hf : ∀ a, Writes (f a) (P a)) (l : List α) (objs : List Obj) :
    ∃ offs e, l.mapM f ⟨objs, .idle⟩ = some (offs, ⟨objs ++ e, .idle⟩) ∧
      (∀ o ∈ offs, 0 < o ∧ o ≤ (objs ++ e).length) ∧
      List.Forall₂ (fun a o => P a (objs ++ e) o) l offs := by
  induction l generalizing objs with
  | nil => exact ⟨[], [], by simp [List.mapM_nil, pure, StateT.pure], by simp, .nil⟩
  | cons a l ih =>
    obtain ⟨o, e, h1, h2, h3, h4⟩ := hf a objs
    obtain ⟨offs, e', g1, g2, g3⟩ := ih (objs ++ e)
    refine ⟨o :: offs, e ++ e', ?_, ?_, ?_⟩
    · simp only [List.mapM_cons, bind, StateT.bind, h1, g1, Option.bind]
      simp [pure, StateT.pure]
    · intro o' ho'
      rcases List.mem_cons.1 ho' with rfl | ho'
      · refine ⟨h2, ?_⟩; simp at *; omega
      · have := g2 _ ho'; simpa [List.append_assoc] using this
    · rw [← List.append_assoc]
      exact .cons (hst _ _ _ _ h4) g3

theorem prepends (offs : List Nat) (objs : List Obj) (els : List Nat) (h : ∀ o ∈ offs, 0 < o ∧ o ≤ objs.length) :
    offs.forM prependOffset ⟨objs, .vec els⟩ = some ((), ⟨objs, .vec (offs.reverse ++ els)⟩) := by
  induction offs generalizing els with
  | nil => rfl
  | cons o offs ih =>
    have ho := h o (by simp)
    simp only [List.forM_eq_forM, List.forM_cons, bind, StateT.bind, prependOffset, ho, and_self, if_true, Option.bind]
    simp only [List.forM_eq_forM] at ih
    rw [ih _ (fun o ho => h o (by simp [ho]))]
    simp

theorem offsetVector_run (offs : List Nat) (objs : List Obj) (h : ∀ o ∈ offs, 0 < o ∧ o ≤ objs.length) :
    offsetVector offs ⟨objs, .idle⟩ = some (objs.length + 1, ⟨objs ++ [.vec offs.length offs], .idle⟩) := by
  simp only [offsetVector, bind, StateT.bind, startVector, Option.bind]
  rw [prepends _ _ _ (fun o ho => h o (by simpa using ho))]
  simp [endVector]

theorem stringAt_writes (s : String) : Writes (createString s) (fun objs o => objAt objs o = some (.str s)) := by
  intro objs
  exact ⟨_, [.str s], rfl, by simp, by simp, objAt_last _ _⟩

end Goir.FB

namespace Goir
open FB

/-- the table at `o` is the entry `p` of a count map, with the count cut to 32 bits. -/
def CountAt (p : String × Int) (objs : List Obj) (o : Nat) : Prop :=
  getString objs o 0 = some p.1 ∧ getInt32 objs o 1 = some (toInt32 p.2)

theorem CountAt.stable (p) : Stable (CountAt p) := fun _ e _ h => ⟨getString_append e h.1, getInt32_append e h.2⟩

theorem serializeCount_writes (p : String × Int) : Writes (serializeCount p) (CountAt p) := by
  intro objs
  by_cases h : toInt32 p.2 = 0
  · refine ⟨objs.length + 2, [.str p.1, .tab [some (.off (objs.length + 1)), none]], ?_, by simp, by simp, ?_⟩
    · simp [serializeCount, bind, StateT.bind, createString, startObject, offsetSlot, int32Slot, endObject, h]
    · constructor <;> simp [getString, getInt32, slot?, objAt, h]
  · refine ⟨objs.length + 2, [.str p.1, .tab [some (.off (objs.length + 1)), some (.i32 (toInt32 p.2))]], ?_,
      by simp, by simp, ?_⟩
    · simp [serializeCount, bind, StateT.bind, createString, startObject, offsetSlot, int32Slot, endObject, h]
    · constructor <;> simp [getString, getInt32, slot?, objAt]

/-- the root table with one vector slot. -/
def rootVec (offs : List Nat) : M Nat := do
  let v ← offsetVector offs
  startObject 1
  offsetSlot 0 v
  endObject

theorem rootVec_run (offs : List Nat) (objs : List Obj) (h : ∀ o ∈ offs, 0 < o ∧ o ≤ objs.length) :
    ∃ e, rootVec offs ⟨objs, .idle⟩ = some (objs.length + 2, ⟨objs ++ e, .idle⟩) ∧ e.length = 2 ∧
      VecAt (objs ++ e) (objs.length + 2) 0 offs := by
  refine ⟨[.vec offs.length offs, .tab [some (.off (objs.length + 1))]], ?_, rfl, ?_⟩
  · simp [rootVec, bind, StateT.bind, offsetVector_run _ _ h, startObject, offsetSlot, endObject]
  · exact ⟨objs.length + 1, by simp [slot?, objAt], by simp [objAt]⟩

/-- serializing a list entry by entry and collecting the offsets in a root vector. -/
theorem finish_entries {α} (f : α → M Nat) (P : α → List Obj → Nat → Prop) (hst : ∀ a, Stable (P a))
    (hf : ∀ a, Writes (f a) (P a)) (l : List α) :
    ∃ buf offs, (finish do
        let offs ← l.mapM f
        let v ← offsetVector offs
        startObject 1
        offsetSlot 0 v
        endObject) = some buf ∧ VecAt buf.objs buf.root 0 offs ∧ List.Forall₂ (fun a o => P a buf.objs o) l offs := by
  obtain ⟨offs, e, h1, h2, h3⟩ := mapM_writes f P hst hf l []
  obtain ⟨e', g1, g2, g3⟩ := rootVec_run offs ([] ++ e) h2
  refine ⟨⟨([] ++ e) ++ e', ([] ++ e).length + 2⟩, offs, ?_, g3, ?_⟩
  · have hrun : (do
        let offs ← l.mapM f
        let v ← offsetVector offs
        startObject 1
        offsetSlot 0 v
        endObject : M Nat) {} = some (([] ++ e).length + 2, ⟨([] ++ e) ++ e', .idle⟩) := by
      have : ({} : Builder) = ⟨[], .idle⟩ := rfl
      rw [this]
      show ((l.mapM f) ⟨[], .idle⟩).bind (fun p => rootVec p.1 p.2) = _
      rw [h1]; exact g1
    simp only [finish]
    rw [hrun]
    simp [g2]
  · exact h3.imp fun a o h => hst _ _ _ _ h

theorem readCounts_eq (objs : List Obj) (pos slot : Nat) (els : List Nat) (h : VecAt objs pos slot els)
    (l : GoMap String Int) (pre : List Nat) (post : List Nat) (hels : els = pre ++ post)
    (hl : List.Forall₂ (fun p o => CountAt p objs o) l post) (data : GoMap String Int)
    (hwf : l.WF) (hd : ∀ k ∈ GoMap.keys l, k ∉ GoMap.keys data) :
    readCounts objs pos slot pre.length l.length data =
      some (data ++ l.map fun p => (p.1, toInt32 p.2)) := by
  induction hl generalizing pre data with
  | nil => simp [readCounts]
  | @cons p o l post hp hl ih =>
    have hx : getVecElem objs pos slot pre.length = some (some o) := h.elem (by simp [hels])
    simp only [List.length_cons, readCounts, hx, hp.1, hp.2, Option.bind_eq_bind, Option.bind_some]
    simp only [GoMap.WF, GoMap.keys_cons, List.nodup_cons] at hwf
    have := ih (pre ++ [o]) (by simp [hels]) (data.set p.1 (toInt32 p.2)) hwf.2 (by
      intro k hk hk'
      rw [GoMap.mem_keys_set] at hk'
      rcases hk' with rfl | hk'
      · exact hwf.1 hk
      · exact hd k (by simp [hk]) hk')
    simp only [List.length_append, List.length_cons, List.length_nil, Nat.zero_add] at this
    rw [this, GoMap.set_eq_append (hd p.1 (by simp))]
    simp

/-- the table at `o` is a field map entry. -/
def FieldAt (p : String × Field) (objs : List Obj) (o : Nat) : Prop :=
  getString objs o 0 = some p.1 ∧ ∃ f, slot? objs o 1 = some (some (.off f)) ∧
    getString objs f 0 = some p.2.name ∧ getInt32 objs f 1 = some (toInt32 p.2.length) ∧
    ∃ offs, VecAt objs f 2 offs ∧ List.Forall₂ (fun p o => CountAt p objs o) p.2.tf offs

theorem FieldAt.stable (p) : Stable (FieldAt p) := by
  rintro objs e o ⟨h1, f, h2, h3, h4, offs, h5, h6⟩
  exact ⟨getString_append e h1, f, slot?_append e h2, getString_append e h3, getInt32_append e h4, offs, h5.append e,
    h6.imp fun a o h => CountAt.stable _ _ _ _ h⟩

/-- the tail of `serializeFieldEntry` once the TF vector exists. -/
def fieldTail (k n v : Nat) (len : Int) : M Nat := do
  startObject 3
  offsetSlot 0 n
  int32Slot 1 (toInt32 len)
  offsetSlot 2 v
  let fieldOffset ← endObject
  startObject 2
  offsetSlot 0 k
  offsetSlot 1 fieldOffset
  endObject

theorem fieldTail_run (objs : List Obj) (k n v : Nat) (len : Int) (hk : 0 < k ∧ k ≤ objs.length)
    (hn : 0 < n ∧ n ≤ objs.length) (hv : 0 < v ∧ v ≤ objs.length) :
    ∃ e, fieldTail k n v len ⟨objs, .idle⟩ = some (objs.length + 2, ⟨objs ++ e, .idle⟩) ∧ e.length = 2 ∧
      slot? (objs ++ e) (objs.length + 2) 0 = some (some (.off k)) ∧
      slot? (objs ++ e) (objs.length + 2) 1 = some (some (.off (objs.length + 1))) ∧
      slot? (objs ++ e) (objs.length + 1) 0 = some (some (.off n)) ∧
      getInt32 (objs ++ e) (objs.length + 1) 1 = some (toInt32 len) ∧
      slot? (objs ++ e) (objs.length + 1) 2 = some (some (.off v)) := by
  have hk0 : k ≠ 0 := by omega
  have hn0 : n ≠ 0 := by omega
  have hv0 : v ≠ 0 := by omega
  have hk1 : k ≤ objs.length + 1 := by omega
  by_cases h : toInt32 len = 0
  · refine ⟨[.tab [some (.off n), none, some (.off v)], .tab [some (.off k), some (.off (objs.length + 1))]],
      ?_, rfl, ?_⟩
    · simp [fieldTail, bind, StateT.bind, startObject, offsetSlot, int32Slot, endObject, h, hk0, hn0, hv0, hk1, hn, hv]
    · simp [getInt32, slot?, objAt, h]
  · refine ⟨[.tab [some (.off n), some (.i32 (toInt32 len)), some (.off v)],
      .tab [some (.off k), some (.off (objs.length + 1))]], ?_, rfl, ?_⟩
    · simp [fieldTail, bind, StateT.bind, startObject, offsetSlot, int32Slot, endObject, h, hk0, hn0, hv0, hk1, hn, hv]
    · simp [getInt32, slot?, objAt]

theorem getString_of {objs : List Obj} {p i o : Nat} {s : String} (h1 : slot? objs p i = some (some (.off o)))
    (h2 : objAt objs o = some (.str s)) : getString objs p i = some s := by simp [getString, h1, h2]

theorem serializeFieldEntry_writes (p : String × Field) : Writes (serializeFieldEntry p) (FieldAt p) := by
  intro objs
  obtain ⟨offs, e, h1, h2, h3⟩ := mapM_writes serializeCount CountAt CountAt.stable serializeCount_writes p.2.tf
    ((objs ++ [.str p.1]) ++ [.str p.2.name])
  have hv := offsetVector_run offs _ h2
  generalize hO : ((objs ++ [.str p.1]) ++ [.str p.2.name]) ++ e = O at *
  have hOlen : objs.length + 2 ≤ O.length := by rw [← hO]; simp
  have hkey : objAt O (objs.length + 1) = some (.str p.1) := by
    rw [← hO]; exact objAt_append _ (objAt_append _ (objAt_last _ _))
  have hname : objAt O (objs.length + 2) = some (.str p.2.name) := by
    rw [← hO]; exact objAt_append _ (by simp [objAt])
  obtain ⟨e2, t1, t2, t3, t4, t5, t6, t7⟩ := fieldTail_run (O ++ [.vec offs.length offs]) (objs.length + 1)
    (objs.length + 2) (O.length + 1) p.2.length (by simp; omega) (by simp; omega) (by simp)
  refine ⟨O.length + 1 + 2, [.str p.1, .str p.2.name] ++ e ++ [.vec offs.length offs] ++ e2, ?_, by omega, ?_, ?_⟩
  · have : objs ++ ([.str p.1, .str p.2.name] ++ e ++ [.vec offs.length offs] ++ e2) = (O ++ [.vec offs.length offs]) ++ e2 := by
      rw [← hO]; simp
    rw [this]
    show (((p.2.tf.mapM serializeCount) ⟨(objs ++ [Obj.str p.1]) ++ [Obj.str p.2.name], .idle⟩).bind fun q =>
      (offsetVector q.1 q.2).bind fun r => fieldTail (objs.length + 1) ((objs ++ [Obj.str p.1]).length + 1) r.1 p.2.length r.2) = _
    rw [h1]
    simp only [Option.bind_some, hv]
    simpa using t1
  · simp [← hO, t2]; omega
  · have : objs ++ ([.str p.1, .str p.2.name] ++ e ++ [.vec offs.length offs] ++ e2) = (O ++ [.vec offs.length offs]) ++ e2 := by
      rw [← hO]; simp
    rw [this]
    simp only [List.length_append, List.length_cons, List.length_nil, Nat.zero_add] at t3 t4 t5 t6 t7
    refine ⟨getString_of t3 (objAt_append _ (objAt_append _ hkey)), _, t4,
      getString_of t5 (objAt_append _ (objAt_append _ hname)), t6, offs,
      ⟨_, t7, objAt_append _ (objAt_last _ _)⟩, ?_⟩
    exact h3.imp fun a o h => CountAt.stable _ _ _ _ (CountAt.stable _ _ _ _ h)

/-- a field with its counters cut to 32 bits. -/
def cutField (f : Field) : Field := ⟨f.name, toInt32 f.length, f.tf.map fun p => (p.1, toInt32 p.2)⟩

theorem readFieldEntries_eq (objs : List Obj) (pos : Nat) (els : List Nat) (h : VecAt objs pos 0 els)
    (l : GoMap String Field) (pre : List Nat) (post : List Nat) (hels : els = pre ++ post)
    (hl : List.Forall₂ (fun p o => FieldAt p objs o) l post) (old : Option Nat) (data : GoMap String Field)
    (hwf : l.WF) (hin : ∀ p ∈ l, p.2.tf.WF) (hd : ∀ k ∈ GoMap.keys l, k ∉ GoMap.keys data) :
    readFieldEntries objs pos pre.length l.length old data = some (data ++ l.map fun p => (p.1, cutField p.2)) := by
  induction hl generalizing pre data old with
  | nil => simp [readFieldEntries]
  | @cons p o l post hp hl ih =>
    have hx : getVecElem objs pos 0 pre.length = some (some o) := h.elem (by simp [hels])
    obtain ⟨h1, f, h2, h3, h4, offs, h5, h6⟩ := hp
    have hc := readCounts_eq objs f 2 offs h5 p.2.tf [] offs rfl h6 [] (hin p (by simp)) (by simp)
    have hlen := h6.length_eq
    simp only [List.length_nil, List.nil_append] at hc
    have ht : getTable objs o 1 old = some (some f) := by simp [getTable, h2]
    simp only [List.length_cons, readFieldEntries, hx, h1, ht, h3, h4, h5.len, ← hlen, hc, Option.bind_eq_bind,
      Option.bind_some]
    simp only [GoMap.WF, GoMap.keys_cons, List.nodup_cons] at hwf
    have := ih (pre ++ [o]) (by simp [hels]) (some f) (data.set p.1 (cutField p.2)) hwf.2
      (fun q hq => hin q (by simp [hq])) (by
      intro k hk hk'
      rw [GoMap.mem_keys_set] at hk'
      rcases hk' with rfl | hk'
      · exact hwf.1 hk
      · exact hd k (by simp [hk]) hk')
    simp only [List.length_append, List.length_cons, List.length_nil, Nat.zero_add] at this
    simp only [cutField] at this ⊢
    rw [this, GoMap.set_eq_append (hd p.1 (by simp))]
    simp

/-- the table at `o` is an index entry. -/
def TermAt (p : String × GoMap String Bool) (objs : List Obj) (o : Nat) : Prop :=
  getString objs o 0 = some p.1 ∧ ∃ f, slot? objs o 1 = some (some (.off f)) ∧
    ∃ offs, VecAt objs f 0 offs ∧ List.Forall₂ (fun s o => objAt objs o = some (.str s)) p.2.keys offs

theorem TermAt.stable (p) : Stable (TermAt p) := by
  rintro objs e o ⟨h1, f, h2, offs, h5, h6⟩
  exact ⟨getString_append e h1, f, slot?_append e h2, offs, h5.append e, h6.imp fun a o h => objAt_append e h⟩

/-- the tail of `serializeTerm` once the value vector exists. -/
def termTail (k v : Nat) : M Nat := do
  startObject 1
  offsetSlot 0 v
  let document ← endObject
  startObject 2
  offsetSlot 0 k
  offsetSlot 1 document
  endObject

theorem termTail_run (objs : List Obj) (k v : Nat) (hk : 0 < k ∧ k ≤ objs.length) (hv : 0 < v ∧ v ≤ objs.length) :
    ∃ e, termTail k v ⟨objs, .idle⟩ = some (objs.length + 2, ⟨objs ++ e, .idle⟩) ∧ e.length = 2 ∧
      slot? (objs ++ e) (objs.length + 2) 0 = some (some (.off k)) ∧
      slot? (objs ++ e) (objs.length + 2) 1 = some (some (.off (objs.length + 1))) ∧
      slot? (objs ++ e) (objs.length + 1) 0 = some (some (.off v)) := by
  have hk0 : k ≠ 0 := by omega
  have hv0 : v ≠ 0 := by omega
  have hk1 : k ≤ objs.length + 1 := by omega
  refine ⟨[.tab [some (.off v)], .tab [some (.off k), some (.off (objs.length + 1))]], ?_, rfl, ?_⟩
  · simp [termTail, bind, StateT.bind, startObject, offsetSlot, endObject, hk0, hv0, hk1, hv]
  · simp [slot?, objAt]

theorem serializeTerm_writes (p : String × GoMap String Bool) : Writes (serializeTerm p) (TermAt p) := by
  intro objs
  obtain ⟨offs, e, h1, h2, h3⟩ := mapM_writes createString (fun s objs o => objAt objs o = some (.str s))
    (fun s _ e _ h => objAt_append e h) stringAt_writes p.2.keys (objs ++ [.str p.1])
  have hv := offsetVector_run offs _ h2
  generalize hO : (objs ++ [.str p.1]) ++ e = O at *
  have hOlen : objs.length + 1 ≤ O.length := by rw [← hO]; simp
  have hkey : objAt O (objs.length + 1) = some (.str p.1) := by
    rw [← hO]; exact objAt_append _ (objAt_last _ _)
  obtain ⟨e2, t1, t2, t3, t4, t5⟩ := termTail_run (O ++ [.vec offs.length offs]) (objs.length + 1)
    (O.length + 1) (by simp; omega) (by simp)
  have heq : objs ++ ([.str p.1] ++ e ++ [.vec offs.length offs] ++ e2) = (O ++ [.vec offs.length offs]) ++ e2 := by
    rw [← hO]; simp
  refine ⟨O.length + 1 + 2, [.str p.1] ++ e ++ [.vec offs.length offs] ++ e2, ?_, by omega, ?_, ?_⟩
  · rw [heq]
    show (((p.2.keys.mapM createString) ⟨objs ++ [Obj.str p.1], .idle⟩).bind fun q =>
      (offsetVector q.1 q.2).bind fun r => termTail (objs.length + 1) r.1 r.2) = _
    rw [h1]
    simp only [Option.bind_some, hv]
    simpa using t1
  · simp [← hO, t2]; omega
  · rw [heq]
    simp only [List.length_append, List.length_cons, List.length_nil, Nat.zero_add] at t3 t4 t5
    refine ⟨getString_of t3 (objAt_append _ (objAt_append _ hkey)), _, t4, offs,
      ⟨_, t5, objAt_append _ (objAt_last _ _)⟩, ?_⟩
    exact h3.imp fun a o h => objAt_append _ (objAt_append _ h)

theorem readValues_eq (objs : List Obj) (pos : Nat) (els : List Nat) (h : VecAt objs pos 0 els)
    (l : List String) (pre post : List Nat) (hels : els = pre ++ post)
    (hl : List.Forall₂ (fun s o => objAt objs o = some (.str s)) l post) (data : GoMap String Bool)
    (hwf : l.Nodup) (hd : ∀ k ∈ l, k ∉ GoMap.keys data) :
    readValues objs pos pre.length l.length data = some (data ++ l.map fun s => (s, true)) := by
  induction hl generalizing pre data with
  | nil => simp [readValues]
  | @cons p o l post hp hl ih =>
    have hx : getVecElem objs pos 0 pre.length = some (some o) := h.elem (by simp [hels])
    have hs : getVecString objs pos 0 pre.length = some p := by simp [getVecString, hx, hp]
    simp only [List.length_cons, readValues, hs, Option.bind_eq_bind, Option.bind_some]
    simp only [List.nodup_cons] at hwf
    have := ih (pre ++ [o]) (by simp [hels]) (data.set p true) hwf.2 (by
      intro k hk hk'
      rw [GoMap.mem_keys_set] at hk'
      rcases hk' with rfl | hk'
      · exact hwf.1 hk
      · exact hd k (by simp [hk]) hk')
    simp only [List.length_append, List.length_cons, List.length_nil, Nat.zero_add] at this
    rw [this, GoMap.set_eq_append (hd p (by simp))]
    simp

theorem readTerms_eq (objs : List Obj) (pos : Nat) (els : List Nat) (h : VecAt objs pos 0 els)
    (l : GoMap String (GoMap String Bool)) (pre post : List Nat) (hels : els = pre ++ post)
    (hl : List.Forall₂ (fun p o => TermAt p objs o) l post) (data : GoMap String (GoMap String Bool))
    (hwf : l.WF) (hin : ∀ p ∈ l, GoMap.WF p.2) (hd : ∀ k ∈ GoMap.keys l, k ∉ GoMap.keys data) :
    readTerms objs pos pre.length l.length data =
      some (data ++ l.map fun p => (p.1, p.2.map fun q => (q.1, true))) := by
  induction hl generalizing pre data with
  | nil => simp [readTerms]
  | @cons p o l post hp hl ih =>
    have hx : getVecElem objs pos 0 pre.length = some (some o) := h.elem (by simp [hels])
    obtain ⟨h1, f, h2, offs, h5, h6⟩ := hp
    have hc := readValues_eq objs f offs h5 p.2.keys [] offs rfl h6 [] (hin p (by simp)) (by simp)
    have hlen := h6.length_eq
    simp only [List.length_nil, List.nil_append] at hc
    have ht : getTable objs o 1 none = some (some f) := by simp [getTable, h2]
    simp only [List.length_cons, readTerms, hx, h1, ht, h5.len, ← hlen, hc, Option.bind_eq_bind, Option.bind_some]
    simp only [GoMap.WF, GoMap.keys_cons, List.nodup_cons] at hwf
    have := ih (pre ++ [o]) (by simp [hels]) (data.set p.1 (p.2.keys.map fun s => (s, true))) hwf.2
      (fun q hq => hin q (by simp [hq])) (by
      intro k hk hk'
      rw [GoMap.mem_keys_set] at hk'
      rcases hk' with rfl | hk'
      · exact hwf.1 hk
      · exact hd k (by simp [hk]) hk')
    simp only [List.length_append, List.length_cons, List.length_nil, Nat.zero_add] at this
    rw [this, GoMap.set_eq_append (hd p.1 (by simp))]
    simp [GoMap.keys]

theorem toInt32_eq_self {x : Int} (h : -2147483648 ≤ x ∧ x ≤ 2147483647) : toInt32 x = x := by
  unfold toInt32
  rw [Int.bmod_eq_of_le] <;> omega

end Goir
