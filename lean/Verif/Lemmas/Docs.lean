import Verif.Spec.Docs
import Verif.Lemmas.LRU
import Verif.Lemmas.Flusher
import Verif.Props.Serialize
import Mathlib.Data.List.Induction
/-! # Invariants of the stored documents -/
namespace Goir.DcState
open GoMap Flusher Spec

/-! ### runs -/

theorem run_append (s : DcState) (as bs : List Act) : s.run (as ++ bs) = (s.run as).bind fun s => s.run bs := by
  simp [run, List.foldlM_append]

theorem run_snoc {s s' : DcState} {as : List Act} {a : Act} :
    s.run (as ++ [a]) = some s' ↔ ∃ t, s.run as = some t ∧ t.exec a = some s' := by
  rw [run_append]
  cases h : s.run as with
  | none => simp
  | some t =>
    simp only [Option.bind_some, run, List.foldlM_cons, List.foldlM_nil]
    cases h2 : t.exec a <;> simp [h2]

/-- induction along a run, by the last action. -/
theorem run_induction {P : List Act → DcState → Prop} {s₀ : DcState} (h0 : P [] s₀)
    (hs : ∀ as s a s', s₀.run as = some s → P as s → s.exec a = some s' → P (as ++ [a]) s')
    {as : List Act} {s : DcState} (h : s₀.run as = some s) : P as s := by
  induction as using List.reverseRecOn generalizing s with
  | nil => cases h; exact h0
  | append_singleton as a ih =>
    obtain ⟨t, h1, h2⟩ := run_snoc.1 h
    exact hs as t a s h1 (ih h1) h2

/-! ### the specification -/

theorem latest_nil (d name : String) : latest [] d name = none := rfl

theorem latest_save (as : List Act) (d name d' : String) (f : Field) :
    latest (as ++ [.save d' f]) d name = if d' = d ∧ f.name = name then some f else latest as d name := by
  unfold latest
  simp only [List.reverse_append, List.reverse_cons, List.reverse_nil, List.nil_append, List.singleton_append, List.findSome?_cons]
  by_cases h : d' = d ∧ f.name = name
  · rw [if_pos h, if_pos h]
  · rw [if_neg h, if_neg h]

theorem latest_other (as : List Act) (a : Act) (h : ∀ d f, a ≠ .save d f) (d name : String) : latest (as ++ [a]) d name = latest as d name := by
  unfold latest
  simp only [List.reverse_append, List.reverse_cons, List.reverse_nil, List.nil_append, List.singleton_append, List.findSome?_cons]

theorem latest_mem {as : List Act} {d name : String} {f : Field} (h : latest as d name = some f) : Act.save d f ∈ as ∧ f.name = name := by
  unfold latest at h
  obtain ⟨a, ha, he⟩ := List.exists_of_findSome?_eq_some h
  cases a with
  | save d' g =>
    simp only at he
    split at he
    · rename_i hc
      cases he
      obtain ⟨rfl, rfl⟩ := hc
      exact ⟨List.mem_reverse.1 ha, rfl⟩
    · cases he
  | _ => cases he

theorem mem_savedDocs {as : List Act} {d : String} : d ∈ savedDocs as ↔ ∃ f, Act.save d f ∈ as := by
  unfold savedDocs
  rw [List.mem_filterMap]
  constructor
  · rintro ⟨a, ha, he⟩
    cases a with
    | save d' f => cases he; exact ⟨f, ha⟩
    | _ => cases he
  · rintro ⟨f, hf⟩; exact ⟨_, hf, rfl⟩

theorem latest_unsaved {as : List Act} {d : String} (h : d ∉ savedDocs as) (name : String) : latest as d name = none := by
  cases hl : latest as d name with
  | none => rfl
  | some f => exact absurd (mem_savedDocs.2 ⟨f, (latest_mem hl).1⟩) h

theorem savedDocs_snoc (as : List Act) (a : Act) : savedDocs (as ++ [a]) = savedDocs as ++ (match a with | .save d _ => [d] | _ => []) := by
  unfold savedDocs
  rw [List.filterMap_append]
  cases a <;> rfl

theorem toInt32_idem (x : Int) : toInt32 (toInt32 x) = toInt32 x := by
  unfold toInt32; simp

theorem cutField_idem (f : Field) : cutField (cutField f) = cutField f := by
  simp [cutField, toInt32_idem]

theorem cutField_wf {f : Field} (h : f.tf.WF) : (cutField f).tf.WF := by
  have : (cutField f).tf.keys = f.tf.keys := by simp [cutField, GoMap.keys]
  unfold WF; rw [this]; exact h

/-- what a round trip through a file makes of a document. -/
def cutMap (m : GoMap String Field) : GoMap String Field := m.map fun p => (p.1, cutField p.2)

theorem get?_cutMap (m : GoMap String Field) (k : String) : (cutMap m).get? k = (m.get? k).map cutField := by
  induction m with
  | nil => rfl
  | cons p m ih =>
    obtain ⟨k', v⟩ := p
    show GoMap.get? ((k', cutField v) :: cutMap m) k = Option.map cutField (GoMap.get? ((k', v) :: m) k)
    rw [get?_cons, get?_cons]
    split
    · rfl
    · exact ih

theorem cutMap_wf {m : GoMap String Field} (h : m.WF) : (cutMap m).WF := by
  have : (cutMap m).keys = m.keys := by simp [cutMap, GoMap.keys]
  unfold WF; rw [this]; exact h

theorem ser_spec {m : GoMap String Field} (h : m.WF) (ht : ∀ k f, m.get? k = some f → f.tf.WF) :
    ∃ b, serializeFieldMap m = some b ∧ deserializeFieldMap b = some (cutMap m) := by
  have := c34_fields_are_cut_to_32_bits m h fun p hp => ht p.1 p.2 (get?_of_mem h hp)
  cases hb : serializeFieldMap m with
  | none => rw [hb] at this; cases this
  | some b => rw [hb] at this; exact ⟨b, rfl, this⟩

/-! ### provenance -/

/-- the map contains only what was saved for `d`, perhaps cut to 32 bits. -/
structure Legit (as : List Act) (d : String) (m : GoMap String Field) : Prop where
  doc : d ∈ savedDocs as
  wf : m.WF
  src : ∀ name f, m.get? name = some f → f.tf.WF ∧ ∃ g, Act.save d g ∈ as ∧ g.name = name ∧ (f = g ∨ f = cutField g)

theorem Legit.mono {as : List Act} {d : String} {m : GoMap String Field} (h : Legit as d m) (bs : List Act) : Legit (as ++ bs) d m := by
  refine ⟨?_, h.wf, fun name f hf => ?_⟩
  · obtain ⟨f, hf⟩ := mem_savedDocs.1 h.doc
    exact mem_savedDocs.2 ⟨f, List.mem_append_left _ hf⟩
  · obtain ⟨h1, g, h2, h3⟩ := h.src name f hf
    exact ⟨h1, g, List.mem_append_left _ h2, h3⟩

theorem Legit.cut {as : List Act} {d : String} {m : GoMap String Field} (h : Legit as d m) : Legit as d (cutMap m) := by
  refine ⟨h.doc, cutMap_wf h.wf, fun name f hf => ?_⟩
  rw [get?_cutMap] at hf
  cases hm : m.get? name with
  | none => rw [hm] at hf; cases hf
  | some f' =>
    rw [hm] at hf; cases hf
    obtain ⟨h1, g, h2, h3, h4⟩ := h.src name f' hm
    refine ⟨cutField_wf h1, g, h2, h3, .inr ?_⟩
    rcases h4 with rfl | rfl
    · rfl
    · exact cutField_idem g

theorem Legit.set {as : List Act} {d : String} {m : GoMap String Field} {f : Field} (hd : d ∈ savedDocs as) (hm : m.WF)
    (hsrc : ∀ name f, m.get? name = some f → f.tf.WF ∧ ∃ g, Act.save d g ∈ as ∧ g.name = name ∧ (f = g ∨ f = cutField g))
    (hf : Act.save d f ∈ as) (hw : f.tf.WF) : Legit as d (m.set f.name f) := by
  refine ⟨hd, hm.set _ _, fun name g hg => ?_⟩
  rw [get?_set] at hg
  split at hg
  · rename_i hn; cases hg; exact ⟨hw, f, hf, hn, .inl rfl⟩
  · exact hsrc name g hg

/-- `r` is a map of document `d` that somebody still holds. -/
def Refs (s : DcState) (d : String) (r : Nat) : Prop := s.cache.val d = some r ∨ s.fl.buf.get? d = some r ∨ s.send = some (d, r)

/-- a buffer of a document. -/
def LegitBuf (as : List Act) (d : String) (b : FB.Buf) : Prop := ∃ m, deserializeFieldMap b = some m ∧ Legit as d m

structure Inv (as : List Act) (s : DcState) : Prop where
  lok : s.cache.Ok
  own : ∀ d r, Refs s d r → r < s.heap.length ∧ Legit as d (s.deref r)
  uniq : ∀ d d' r, Refs s d r → Refs s d' r → d = d'
  fin : FInvR (fun k _ b => LegitBuf as k b) s.fl
  files : ∀ d c, s.fl.cur d = some c → ∃ b, c = .full b ∧ LegitBuf as d b
  down : s.up = false → s.cache = LRU.new 0 ∧ s.send = none

theorem LegitBuf.mono {as : List Act} {d : String} {b : FB.Buf} (h : LegitBuf as d b) (bs : List Act) : LegitBuf (as ++ bs) d b := by
  obtain ⟨m, h1, h2⟩ := h; exact ⟨m, h1, h2.mono bs⟩

theorem inv_init : Inv [] {} := by
  refine ⟨LRU.ok_new 0, fun d r h => ?_, fun d d' r h => ?_, finv_init, fun d c h => ?_, fun _ => ⟨rfl, rfl⟩⟩
  · rcases h with h | h | h
    · rw [show ({} : DcState).cache = LRU.new 0 from rfl, LRU.val_new] at h; cases h
    · cases h
    · cases h
  · rcases h with h | h | h
    · rw [show ({} : DcState).cache = LRU.new 0 from rfl, LRU.val_new] at h; cases h
    · cases h
    · cases h
  · simp [Flusher.cur, Flusher.file] at h

theorem deref_append {s : DcState} {h' : List (GoMap String Field)} {r : Nat} (hr : r < s.heap.length) : (s.heap ++ h').getD r [] = s.deref r := by
  unfold deref
  simp [List.getD_eq_getElem?_getD, List.getElem?_append_left hr]

theorem deref_append_self {h : List (GoMap String Field)} (m : GoMap String Field) : (h ++ [m]).getD h.length [] = m := by
  simp [List.getD_eq_getElem?_getD]

theorem deref_set {h : List (GoMap String Field)} {r : Nat} (hr : r < h.length) (m : GoMap String Field) (x : Nat) :
    (h.set r m).getD x [] = if r = x then m else h.getD x [] := by
  simp only [List.getD_eq_getElem?_getD, List.getElem?_set]
  by_cases e : r = x
  · subst e; simp [hr]
  · simp [e]

/-- how a save changes the state. -/
inductive Saved (s : DcState) (d : String) (f : Field) (s' : DcState) : Prop where
  | hit (r : Nat) (c : LRU Nat) (hv : s.cache.val d = some r) (hok : c.Ok) (hval : ∀ j, c.val j = s.cache.val j)
      (hcap : c.capacity = s.cache.capacity)
      (he : s' = { s with cache := c, heap := s.heap.set r ((s.deref r).set f.name f), send := some (d, r) })
  | miss (c : LRU Nat) (hv : s.cache.val d = none) (hok : c.Ok) (hd : c.val d = some s.heap.length)
      (hcap : c.capacity = s.cache.capacity)
      (hval : (∀ j, j ≠ d → c.val j = s.cache.val j) ∨ ((s.cache.pages.length : Int) ≥ s.cache.capacity ∧
        ∃ e w, e ≠ d ∧ s.cache.val e = some w ∧ c.val e = none ∧ ∀ j, j ≠ d → j ≠ e → c.val j = s.cache.val j))
      (he : s' = { s with cache := c, heap := s.heap ++ [GoMap.set [] f.name f], send := some (d, s.heap.length) })

theorem save_spec {s s' : DcState} (h : s.cache.Ok) {d : String} {f : Field} (hs : s.save d f = some s') : Saved s d f s' := by
  obtain ⟨g1, g2, g3, g4⟩ := LRU.get_spec h d
  unfold save at hs
  have hval : s.cache.val d = (s.cache.get d).2 := rfl
  split at hs
  · rename_i c r hg
    rw [hg] at g1 g2 g3 g4 hval
    simp only [Option.map_eq_some_iff] at hs
    obtain ⟨c', hp, rfl⟩ := hs
    obtain ⟨p1, p2, p3, p4⟩ := LRU.put_spec g1 hp
    refine .hit r c' hval p1 (fun j => ?_) (p2.trans g3) rfl
    by_cases hj : j = d
    · subst hj; rw [p3, hval]
    · rcases p4 with p4 | ⟨p4, -⟩
      · rw [p4 j hj]; exact g2 j
      · rw [g2 d, hval] at p4; cases p4
  · rename_i c hg
    rw [hg] at g1 g2 g3 g4 hval
    simp only [Option.map_eq_some_iff] at hs
    obtain ⟨c', hp, rfl⟩ := hs
    obtain ⟨p1, p2, p3, p4⟩ := LRU.put_spec g1 hp
    refine .miss c' hval p1 p3 (p2.trans g3) ?_ rfl
    rcases p4 with p4 | ⟨-, p5, e, w, p6, p7, p8, p9⟩
    · exact .inl fun j hj => by rw [p4 j hj]; exact g2 j
    · refine .inr ⟨by rw [← g4, ← g3]; exact p5, e, w, p6, ?_, p8, fun j hj hje => ?_⟩
      · rw [← g2 e]; exact p7
      · rw [p9 j hj hje]; exact g2 j

/-- how a read changes the state, and what it finds. -/
inductive Read (s : DcState) (d name : String) (s' : DcState) (x : Option Field) : Prop where
  | hit (r : Nat) (c : LRU Nat) (hv : s.cache.val d = some r) (hok : c.Ok) (hval : ∀ j, c.val j = s.cache.val j)
      (hcap : c.capacity = s.cache.capacity) (he : s' = { s with cache := c }) (hx : x = (s.deref r).get? name)
  | absent (hv : s.cache.val d = none) (hc : s.fl.cur d = none) (he : s' = s) (hx : x = none)
  | loaded (m : GoMap String Field) (b : FB.Buf) (c : LRU Nat) (hv : s.cache.val d = none) (hc : s.fl.cur d = some (.full b))
      (hm : deserializeFieldMap b = some m) (hok : c.Ok) (hd : c.val d = some s.heap.length) (hcap : c.capacity = s.cache.capacity)
      (hval : (∀ j, j ≠ d → c.val j = s.cache.val j) ∨ ((s.cache.pages.length : Int) ≥ s.cache.capacity ∧
        ∃ e w, e ≠ d ∧ s.cache.val e = some w ∧ c.val e = none ∧ ∀ j, j ≠ d → j ≠ e → c.val j = s.cache.val j))
      (he : s' = { s with cache := c, heap := s.heap ++ [m] }) (hx : x = m.get? name)

theorem getField_spec {s s' : DcState} (h : s.cache.Ok) {d name : String} {x : Option Field}
    (hs : s.getField d name = some (s', x)) : Read s d name s' x := by
  obtain ⟨g1, g2, g3, g4⟩ := LRU.get_spec h d
  unfold getField at hs
  have hval : s.cache.val d = (s.cache.get d).2 := rfl
  split at hs
  · rename_i c r hg
    rw [hg] at g1 g2 g3 g4 hval
    cases hs
    exact .hit r c hval g1 g2 g3 rfl rfl
  · rename_i c hg
    have hcc : c = s.cache := by
      have hn := (LRU.val_none h d).1 (by rw [hval, hg])
      have : s.cache.get d = (s.cache, none) := by unfold LRU.get; rw [hn]
      rw [this] at hg; exact (congrArg Prod.fst hg).symm
    rw [hg] at hval
    subst hcc
    split at hs
    · cases hs
    · rename_i hl
      cases hs
      unfold load at hl
      split at hl
      · rename_i hc; exact .absent hval hc rfl rfl
      · cases hl
      · rename_i b hc
        cases hb : deserializeFieldMap b <;> rw [hb] at hl <;> cases hl
    · rename_i m hl
      simp only [Option.map_eq_some_iff] at hs
      obtain ⟨c', hp, hs⟩ := hs
      cases hs
      unfold load at hl
      split at hl
      · cases hl
      · cases hl
      · rename_i b hc
        cases hb : deserializeFieldMap b with
        | none => rw [hb] at hl; cases hl
        | some m' =>
          rw [hb] at hl; cases hl
          obtain ⟨p1, p2, p3, p4⟩ := LRU.put_spec h hp
          refine .loaded m b c' hval hc hb p1 p3 p2 ?_ rfl rfl
          rcases p4 with p4 | ⟨-, p5, p6⟩
          · exact .inl p4
          · exact .inr ⟨p5, p6⟩

/-- the state after a read does not depend on the name asked for. -/
theorem getField_state (s : DcState) (d name : String) : (s.getField d name).map Prod.fst = (s.getField d "").map Prod.fst := by
  unfold getField
  split
  · rfl
  · split
    · rfl
    · rfl
    · simp [Option.map_map, Function.comp_def]


theorem legit_ser {as : List Act} {d : String} {m : GoMap String Field} (h : Legit as d m) :
    ∃ b, serializeFieldMap m = some b ∧ deserializeFieldMap b = some (cutMap m) ∧ LegitBuf as d b := by
  obtain ⟨b, h1, h2⟩ := ser_spec h.wf fun k f hf => (h.src k f hf).1
  exact ⟨b, h1, h2, _, h2, h.cut⟩

theorem goFields_snoc {as : List Act} {a : Act} (h : GoFields (as ++ [a])) : GoFields as := fun d f hf => h d f (List.mem_append_left _ hf)

/-- adding a map for `d` that nobody else holds, perhaps evicting another document from the cache. -/
theorem inv_fresh {as bs : List Act} {s : DcState} (h : Inv as s) {d : String} {m : GoMap String Field} {c : LRU Nat} {send : Option (String × Nat)}
    (hu : s.up = true)
    (hm : Legit bs d m) (hmono : ∀ d m, Legit as d m → Legit bs d m) (hok : c.Ok) (hd : c.val d = some s.heap.length)
    (hsend : send = s.send ∨ send = some (d, s.heap.length))
    (hval : ∀ j r, j ≠ d → c.val j = some r → s.cache.val j = some r) :
    Inv bs { s with cache := c, heap := s.heap ++ [m], send := send } := by
  have key : ∀ j r, Refs { s with cache := c, heap := s.heap ++ [m], send := send } j r → (j = d ∧ r = s.heap.length) ∨ Refs s j r := by
    intro j r hr
    rcases hr with hr | hr | hr
    · by_cases hj : j = d
      · subst hj
        have hr : c.val j = some r := hr
        rw [hd] at hr; cases hr; exact .inl ⟨rfl, rfl⟩
      · exact .inr (.inl (hval j r hj hr))
    · exact .inr (.inr (.inl hr))
    · have hr : send = some (j, r) := hr
      rcases hsend with hs | hs
      · exact .inr (.inr (.inr (hs ▸ hr)))
      · rw [hs] at hr; cases hr; exact .inl ⟨rfl, rfl⟩
  refine ⟨hok, fun j r hr => ?_, fun j j' r hr hr' => ?_, h.fin.mono fun k v b _ ⟨m, h1, h2⟩ => ⟨m, h1, hmono _ _ h2⟩,
    fun j x hx => ?_, fun e => ?_⟩
  · rcases key j r hr with ⟨rfl, rfl⟩ | hr
    · refine ⟨by simp, ?_⟩
      show Legit bs j ((s.heap ++ [m]).getD s.heap.length [])
      rw [deref_append_self]; exact hm
    · obtain ⟨h1, h2⟩ := h.own j r hr
      refine ⟨by simp; omega, ?_⟩
      show Legit bs j ((s.heap ++ [m]).getD r [])
      rw [deref_append h1]; exact hmono _ _ h2
  · rcases key j r hr with ⟨rfl, rfl⟩ | hr
    · rcases key j' _ hr' with ⟨rfl, -⟩ | hr'
      · rfl
      · have := (h.own _ _ hr').1; omega
    · rcases key j' _ hr' with ⟨rfl, rfl⟩ | hr'
      · have := (h.own _ _ hr).1; omega
      · exact h.uniq _ _ _ hr hr'
  · obtain ⟨b, h1, m', h2, h3⟩ := h.files j x hx
    exact ⟨b, h1, m', h2, hmono _ _ h3⟩
  · have e : s.up = false := e
    rw [hu] at e; cases e

theorem exec_inv {as : List Act} {s s' : DcState} {a : Act} (h : Inv as s) (hg : GoFields (as ++ [a])) (he : s.exec a = some s') :
    Inv (as ++ [a]) s' := by
  have lift : ∀ j m, Legit as j m → Legit (as ++ [a]) j m := fun j m hm => hm.mono _
  have liftB : ∀ j b, LegitBuf as j b → LegitBuf (as ++ [a]) j b := fun j b hb => hb.mono _
  have files' : ∀ d c, s.fl.cur d = some c → ∃ b, c = .full b ∧ LegitBuf (as ++ [a]) d b := by
    intro d c hc
    obtain ⟨b, h1, h2⟩ := h.files d c hc
    exact ⟨b, h1, liftB _ _ h2⟩
  have fin' : FInvR (fun k _ b => LegitBuf (as ++ [a]) k b) s.fl := h.fin.mono fun k v b _ hb => liftB k b hb
  cases a with
  | save d f =>
    simp only [exec] at he; split at he
    · rename_i hu
      simp only [Bool.and_eq_true, Option.isNone_iff_eq_none] at hu
      have hmem : Act.save d f ∈ as ++ [Act.save d f] := by simp
      have hw := hg d f hmem
      have hdoc : d ∈ savedDocs (as ++ [Act.save d f]) := mem_savedDocs.2 ⟨f, hmem⟩
      cases save_spec h.lok he with
      | hit r c hv hok hval hcap e =>
        subst e
        obtain ⟨hr, hl⟩ := h.own d r (.inl hv)
        have key : ∀ j x, Refs { s with cache := c, heap := s.heap.set r ((s.deref r).set f.name f), send := some (d, r) } j x →
            Refs s j x := by
          intro j x hx
          rcases hx with hx | hx | hx
          · exact .inl ((hval j).symm.trans hx)
          · exact .inr (.inl hx)
          · have hx : some (d, r) = some (j, x) := hx
            cases hx; exact .inl hv
        refine ⟨hok, fun j x hx => ?_, fun j j' x hx hx' => h.uniq _ _ _ (key _ _ hx) (key _ _ hx'), fin', files', fun e => ?_⟩
        · have hx := key j x hx
          obtain ⟨h1, h2⟩ := h.own j x hx
          refine ⟨by simpa using h1, ?_⟩
          show Legit _ j ((s.heap.set r ((s.deref r).set f.name f)).getD x [])
          rw [deref_set hr]
          split
          · rename_i hrx
            subst hrx
            have : j = d := h.uniq _ _ _ hx (.inl hv)
            subst this
            exact Legit.set hdoc hl.wf (hl.mono _).src hmem hw
          · exact lift _ _ h2
        · have e : s.up = false := e
          rw [hu.1] at e; cases e
      | miss c hv hok hd hcap hval e =>
        subst e
        refine inv_fresh h hu.1 (Legit.set hdoc (m := []) (by simp) (by simp) hmem hw) lift hok hd (.inr rfl) ?_
        intro j r hj hr
        rcases hval with hval | ⟨-, e, w, h1, h2, h3, h4⟩
        · exact (hval j hj).symm.trans hr
        · by_cases hje : j = e
          · subst hje; rw [h3] at hr; cases hr
          · exact (h4 j hj hje).symm.trans hr
    · cases he
  | recv =>
    simp only [exec] at he; split at he
    · cases he
    · rename_i d r hs
      simp only [Option.map_eq_some_iff] at he
      obtain ⟨fl, hr, rfl⟩ := he
      have hf := finv_recv fin' hr
      obtain ⟨hp, rfl⟩ := recv_some hr
      have key : ∀ j x, Refs ({ s with fl := { s.fl with buf := s.fl.buf.set d r }, send := none } : DcState) j x → Refs s j x := by
        intro j x hx
        rcases hx with hx | hx | hx
        · exact .inl hx
        · have hx : (s.fl.buf.set d r).get? j = some x := hx
          rw [get?_set] at hx
          split at hx
          · rename_i e; cases hx; subst e; exact .inr (.inr hs)
          · exact .inr (.inl hx)
        · cases hx
      refine ⟨h.lok, fun j x hx => ?_, fun j j' x hx hx' => h.uniq _ _ _ (key _ _ hx) (key _ _ hx'), hf, files', fun e => ?_⟩
      · obtain ⟨h1, h2⟩ := h.own j x (key j x hx)
        exact ⟨h1, lift _ _ h2⟩
      · exact absurd (h.down e).2 (by rw [hs]; simp)
  | read d =>
    simp only [exec] at he; split at he
    · rename_i hu
      simp only [Bool.and_eq_true, Option.isNone_iff_eq_none] at hu
      simp only [Option.map_eq_some_iff] at he
      obtain ⟨⟨t, x⟩, hgf, rfl⟩ := he
      cases getField_spec h.lok hgf with
      | hit r c hv hok hval hcap e hx =>
        subst e
        have key : ∀ j x, Refs { s with cache := c } j x → Refs s j x := by
          intro j x hx
          rcases hx with hx | hx
          · exact .inl ((hval j).symm.trans hx)
          · exact .inr hx
        refine ⟨hok, fun j x hx => ?_, fun j j' x hx hx' => h.uniq _ _ _ (key _ _ hx) (key _ _ hx'), fin', files', fun e => ?_⟩
        · obtain ⟨h1, h2⟩ := h.own j x (key j x hx)
          exact ⟨h1, lift _ _ h2⟩
        · have e : s.up = false := e
          rw [hu.1] at e; cases e
      | absent hv hc e hx =>
        subst e
        refine ⟨h.lok, fun j x hx => ?_, h.uniq, fin', files', h.down⟩
        obtain ⟨h1, h2⟩ := h.own j x hx
        exact ⟨h1, lift _ _ h2⟩
      | loaded m b c hv hc hm hok hd hcap hval e hx =>
        subst e
        obtain ⟨b', hb, m', hm', hl⟩ := h.files d _ hc
        cases hb
        rw [hm] at hm'; cases hm'
        refine inv_fresh h hu.1 (lift _ _ hl) lift hok hd (.inl rfl) ?_
        intro j r hj hr
        rcases hval with hval | ⟨-, e, w, h1, h2, h3, h4⟩
        · exact (hval j hj).symm.trans hr
        · by_cases hje : j = e
          · subst hje; rw [h3] at hr; cases hr
          · exact (h4 j hj hje).symm.trans hr
    · cases he
  | tick order =>
    simp only [exec] at he; split at he
    · simp only [Option.map_eq_some_iff] at he
      obtain ⟨fl, hr, rfl⟩ := he
      have hf := finv_tick fin' hr
      obtain ⟨hp, hq, rfl⟩ := tick_some hr
      refine ⟨h.lok, fun j x hx => ?_, h.uniq, hf, files', h.down⟩
      obtain ⟨h1, h2⟩ := h.own j x hx
      exact ⟨h1, lift _ _ h2⟩
    · cases he
  | step =>
    simp only [exec, Option.map_eq_some_iff] at he
    obtain ⟨fl, hr, rfl⟩ := he
    have hR : ∀ k v b, s.fl.buf.get? k = some v → s.ser k v = some b → LegitBuf (as ++ [.step]) k b := by
      intro k v b hv hs
      obtain ⟨-, hl⟩ := h.own k v (.inr (.inl hv))
      obtain ⟨b', h1, -, h2⟩ := legit_ser (lift _ _ hl)
      unfold ser at hs
      rw [h1] at hs; cases hs; exact h2
    obtain ⟨hf, hch⟩ := step_spec_rel (R := fun k _ b => LegitBuf (as ++ [.step]) k b) fin' hR hr
    have hsub : ∀ j x, fl.buf.get? j = some x → s.fl.buf.get? j = some x := by
      intro j x hx
      cases hch with
      | same hb hc => rw [hb] at hx; exact hx
      | away k v hv hb hk hc hp => rw [hb] at hx; exact hx
      | install k v b hv hs hb hk hc => rw [hb] at hx; exact hx
      | forget k v b hv hs hk hb hc =>
        rw [hb, get?_del] at hx
        split at hx
        · cases hx
        · exact hx
    have key : ∀ j x, Refs { s with fl := fl } j x → Refs s j x := by
      intro j x hx
      rcases hx with hx | hx | hx
      · exact .inl hx
      · exact .inr (.inl (hsub j x hx))
      · exact .inr (.inr hx)
    refine ⟨h.lok, fun j x hx => ?_, fun j j' x hx hx' => h.uniq _ _ _ (key _ _ hx) (key _ _ hx'), hf, fun j c hc => ?_, h.down⟩
    · obtain ⟨h1, h2⟩ := h.own j x (key j x hx)
      exact ⟨h1, lift _ _ h2⟩
    · have hc : fl.cur j = some c := hc
      cases hch with
      | same hb hcc => rw [hcc] at hc; exact files' j c hc
      | away k v hv hb hk hcc hp =>
        by_cases e : j = k
        · subst e; rw [hk] at hc; cases hc
        · rw [hcc j e] at hc; exact files' j c hc
      | install k v b hv hs hb hk hcc =>
        by_cases e : j = k
        · subst e; rw [hk] at hc; cases hc; exact ⟨b, rfl, hs⟩
        · rw [hcc j e] at hc; exact files' j c hc
      | forget k v b hv hs hk hb hcc => rw [hcc] at hc; exact files' j c hc
  | crash =>
    simp only [exec] at he; split at he
    · cases he
      refine ⟨LRU.ok_new 0, fun d r hx => ?_, fun d d' r hx => ?_, finv_killed fin', files', fun _ => ⟨rfl, rfl⟩⟩
      · rcases hx with hx | hx | hx
        · rw [LRU.val_new] at hx; cases hx
        · cases hx
        · cases hx
      · rcases hx with hx | hx | hx
        · rw [LRU.val_new] at hx; cases hx
        · cases hx
        · cases hx
    · cases he
  | open_ n =>
    simp only [exec] at he; split at he
    · cases he
    · rename_i hu
      cases he
      have key : ∀ j x, Refs { s with up := true, cache := LRU.new n } j x → Refs s j x := by
        intro j x hx
        rcases hx with hx | hx
        · rw [LRU.val_new] at hx; cases hx
        · exact .inr hx
      refine ⟨LRU.ok_new n, fun j x hx => ?_, fun j j' x hx hx' => h.uniq _ _ _ (key _ _ hx) (key _ _ hx'), fin', files', fun e => (by cases e)⟩
      obtain ⟨h1, h2⟩ := h.own j x (key j x hx)
      exact ⟨h1, lift _ _ h2⟩

theorem run_inv {as : List Act} {s : DcState} (h : run {} as = some s) (hg : GoFields as) : Inv as s := by
  revert hg
  refine run_induction (P := fun as s => GoFields as → Inv as s) (fun _ => inv_init) ?_ h
  intro as s a s' _ ih he hg
  exact exec_inv (ih (goFields_snoc hg)) hg he

/-! ### orderly runs -/

/-- the document is in the cache. -/
def Cached (s : DcState) (d : String) : Prop := (s.cache.get d).2 ≠ none

/-- nothing of the document waits for the writer: not in its buffer, not in the channel. -/
def Synced (s : DcState) (d : String) : Prop := s.fl.buf.get? d = none ∧ ∀ r, s.send ≠ some (d, r)

/-- the step takes no unwritten document out of the cache (by eviction or crash), and saves only a cached or a new document. -/
structure Keeps (as : List Act) (s : DcState) (a : Act) (s' : DcState) : Prop where
  leave : ∀ d, Cached s d → ¬ Cached s' d → Synced s d
  save : ∀ d f, a = .save d f → Cached s d ∨ d ∉ savedDocs as

/-- runs from an empty folder all of whose steps do this. -/
inductive Orderly : List Act → DcState → Prop
  | nil : Orderly [] {}
  | snoc {as s a s'} : Orderly as s → s.exec a = some s' → Keeps as s a s' → Orderly (as ++ [a]) s'

theorem Orderly.run {as : List Act} {s : DcState} (h : Orderly as s) : DcState.run {} as = some s := by
  induction h with
  | nil => rfl
  | snoc _ he _ ih => exact run_snoc.2 ⟨_, ih, he⟩

theorem cached_iff (s : DcState) (d : String) : Cached s d ↔ ∃ r, s.cache.val d = some r := by
  unfold Cached
  rw [show (s.cache.get d).2 = s.cache.val d from rfl]
  cases s.cache.val d <;> simp

theorem not_cached_iff (s : DcState) (d : String) : ¬ Cached s d ↔ s.cache.val d = none := by
  rw [cached_iff]
  cases s.cache.val d <;> simp

/-- the latest version of a document, some of its fields perhaps cut to 32 bits. -/
def Near (as : List Act) (d : String) (m : GoMap String Field) : Prop :=
  ∀ name, m.get? name = latest as d name ∨ m.get? name = (latest as d name).map cutField

/-- the latest version of a document as the file format keeps it. -/
def CutLatest (as : List Act) (d : String) (m : GoMap String Field) : Prop := ∀ name, m.get? name = (latest as d name).map cutField

/-- the file of the document holds its latest version. -/
def Stored (as : List Act) (s : DcState) (d : String) : Prop :=
  (d ∉ savedDocs as ∧ s.fl.cur d = none) ∨ ∃ b m, s.fl.cur d = some (.full b) ∧ deserializeFieldMap b = some m ∧ CutLatest as d m

/-- what is being written is the latest version, unless another one is already waiting. -/
def Fresh (as : List Act) (send : Option (String × Nat)) (d : String) (b : FB.Buf) : Prop :=
  (∃ r, send = some (d, r)) ∨ ∃ m, deserializeFieldMap b = some m ∧ CutLatest as d m

structure Inv2 (as : List Act) (s : DcState) : Prop where
  val : ∀ d r, s.cache.val d = some r → Near as d (s.deref r)
  bufc : ∀ d r, s.fl.buf.get? d = some r → s.cache.val d = some r
  sendc : ∀ d r, s.send = some (d, r) → s.cache.val d = some r
  stored : ∀ d, Synced s d → Stored as s d
  fin : FInvR (fun k _ b => Fresh as s.send k b) s.fl

theorem near_cut {as : List Act} {d : String} {m : GoMap String Field} (h : Near as d m) : CutLatest as d (cutMap m) := by
  intro name
  rw [get?_cutMap]
  rcases h name with e | e
  · rw [e]
  · rw [e]; cases latest as d name <;> simp [cutField_idem]

theorem inv2_init : Inv2 [] {} := by
  refine ⟨fun d r h => ?_, fun d r h => ?_, fun d r h => (by cases h), fun d _ => .inl ⟨by simp [savedDocs], rfl⟩, finv_init⟩
  · rw [show ({} : DcState).cache = LRU.new 0 from rfl, LRU.val_new] at h; cases h
  · cases h

theorem finv_idle {B : Type} {R R' : String → B → FB.Buf → Prop} {s : Flusher B} (h : FInvR R s) (hp : s.pc = .idle) : FInvR R' s :=
  ⟨h.bw, h.fw, by unfold PcOkR; simp only [hp]⟩

theorem exec_inv2 {as : List Act} {s s' : DcState} {a : Act} (h1 : Inv as s) (h : Inv2 as s) (hg : GoFields (as ++ [a]))
    (hk : Keeps as s a s') (he : s.exec a = some s') : Inv2 (as ++ [a]) s' := by
  have h1' := exec_inv h1 hg he
  -- documents other than the saved one
  have sameL : ∀ d, (∀ f, a ≠ .save d f) → ∀ name, latest (as ++ [a]) d name = latest as d name := by
    intro d hd name
    cases a with
    | save d' f =>
      rw [latest_save, if_neg]
      rintro ⟨rfl, -⟩; exact hd f rfl
    | _ => exact latest_other as _ (fun _ _ e => by cases e) d name
  have sameD : ∀ d, (∀ f, a ≠ .save d f) → (d ∈ savedDocs (as ++ [a]) ↔ d ∈ savedDocs as) := by
    intro d hd
    simp only [mem_savedDocs, List.mem_append, List.mem_singleton]
    constructor
    · rintro ⟨f, hf | hf⟩
      · exact ⟨f, hf⟩
      · exact absurd hf.symm (hd f)
    · rintro ⟨f, hf⟩; exact ⟨f, .inl hf⟩
  have near' : ∀ d m, (∀ f, a ≠ .save d f) → Near as d m → Near (as ++ [a]) d m := by
    intro d m hd hm name; rw [sameL d hd]; exact hm name
  have cut' : ∀ d m, (∀ f, a ≠ .save d f) → CutLatest as d m → CutLatest (as ++ [a]) d m := by
    intro d m hd hm name; rw [sameL d hd]; exact hm name
  have stored' : ∀ d, (∀ f, a ≠ .save d f) → s'.fl.cur d = s.fl.cur d → Stored as s d → Stored (as ++ [a]) s' d := by
    intro d hd hc hs
    rcases hs with ⟨h2, h3⟩ | ⟨b, m, h2, h3, h4⟩
    · exact .inl ⟨fun e => h2 ((sameD d hd).1 e), by rw [hc]; exact h3⟩
    · exact .inr ⟨b, m, by rw [hc]; exact h2, h3, cut' d m hd h4⟩
  have fresh' : ∀ d b, (∀ f, a ≠ .save d f) → Fresh as s.send d b → s'.send = s.send → Fresh (as ++ [a]) s'.send d b := by
    intro d b hd hf hs
    rcases hf with ⟨r, hr⟩ | ⟨m, hm, hc⟩
    · exact .inl ⟨r, by rw [hs]; exact hr⟩
    · exact .inr ⟨m, hm, cut' d m hd hc⟩
  -- a document that is evicted is synced
  have evicted : ∀ d r, s.cache.val d = some r → s'.cache.val d = none → Synced s d := fun d r hv hn =>
    hk.leave d ((cached_iff s d).2 ⟨r, hv⟩) ((not_cached_iff s' d).2 hn)
  cases a with
  | save d f =>
    have hsave := hk.save d f rfl
    simp only [exec] at he; split at he
    · rename_i hu
      simp only [Bool.and_eq_true, Option.isNone_iff_eq_none] at hu
      have nsave : ∀ j, j ≠ d → ∀ g, Act.save d f ≠ .save j g := by rintro j hj g e; cases e; exact hj rfl
      have fin1 : FInvR (fun k _ b => Fresh (as ++ [.save d f]) s'.send k b) s.fl := by
        refine h.fin.mono fun k v b _ hb => ?_
        have hsend : ∃ r, s'.send = some (d, r) := by
          cases save_spec h1.lok he with
          | hit r c hv hok hval hcap e => subst e; exact ⟨r, rfl⟩
          | miss c hv hok hd hcap hval e => subst e; exact ⟨_, rfl⟩
        by_cases hkd : k = d
        · subst hkd; exact .inl hsend
        · rcases hb with ⟨r, hr⟩ | ⟨m, hm, hc⟩
          · rw [hu.2] at hr; cases hr
          · exact .inr ⟨m, hm, cut' k m (nsave k hkd) hc⟩
      have set' : ∀ m, Near as d m → Near (as ++ [.save d f]) d (m.set f.name f) := by
        intro m hm name
        rw [latest_save, get?_set]
        by_cases hn : f.name = name
        · simp [hn]
        · simp only [hn, and_false, if_false]; exact hm name
      cases save_spec h1.lok he with
      | hit r c hv hok hval hcap e =>
        subst e
        have hr := (h1.own d r (.inl hv)).1
        refine ⟨fun j x hx => ?_, fun j x hx => ?_, fun j x hx => ?_, fun j hj => ?_, fin1⟩
        · replace hx : s.cache.val j = some x := (hval j).symm.trans hx
          show Near _ j ((s.heap.set r ((s.deref r).set f.name f)).getD x [])
          rw [deref_set hr]
          by_cases hjd : j = d
          · subst hjd
            rw [hv] at hx; cases hx
            rw [if_pos rfl]; exact set' _ (h.val j r hv)
          · have : ¬ r = x := by rintro rfl; exact hjd (h1.uniq _ _ _ (.inl hx) (.inl hv))
            rw [if_neg this]; exact near' j _ (nsave j hjd) (h.val j x hx)
        · exact (hval j).trans (h.bufc j x hx)
        · have hx : some (d, r) = some (j, x) := hx
          cases hx; exact (hval d).trans hv
        · have hjd : j ≠ d := by rintro rfl; exact hj.2 r rfl
          exact stored' j (nsave j hjd) rfl (h.stored j ⟨hj.1, by rw [hu.2]; simp⟩)
      | miss c hv hok hd hcap hval e =>
        have hnew : d ∉ savedDocs as := hsave.resolve_left ((not_cached_iff s d).2 hv)
        have hsub : ∀ j x, j ≠ d → s.cache.val j = some x → c.val j = some x ∨ (c.val j = none ∧ Synced s j) := by
          intro j x hj hx
          rcases hval with hval | ⟨-, e', w, g1, g2, g3, g4⟩
          · exact .inl ((hval j hj).trans hx)
          · by_cases hje : j = e'
            · subst hje
              exact .inr ⟨g3, evicted j x hx (by rw [e]; exact g3)⟩
            · exact .inl ((g4 j hj hje).trans hx)
        have hsub' : ∀ j x, j ≠ d → c.val j = some x → s.cache.val j = some x := by
          intro j x hj hx
          rcases hval with hval | ⟨-, e', w, g1, g2, g3, g4⟩
          · exact (hval j hj).symm.trans hx
          · by_cases hje : j = e'
            · subst hje; rw [g3] at hx; cases hx
            · exact (g4 j hj hje).symm.trans hx
        subst e
        refine ⟨fun j x hx => ?_, fun j x hx => ?_, fun j x hx => ?_, fun j hj => ?_, fin1⟩
        · show Near _ j ((s.heap ++ [GoMap.set [] f.name f]).getD x [])
          by_cases hjd : j = d
          · subst hjd
            have hx : c.val j = some x := hx
            rw [hd] at hx; cases hx
            rw [deref_append_self]
            refine set' [] fun name => .inl ?_
            rw [latest_unsaved hnew]; rfl
          · have hx := hsub' j x hjd hx
            rw [deref_append (h1.own j x (.inl hx)).1]
            exact near' j _ (nsave j hjd) (h.val j x hx)
        · have hx : s.fl.buf.get? j = some x := hx
          have hjx := h.bufc j x hx
          have hjd : j ≠ d := by rintro rfl; rw [hv] at hjx; cases hjx
          rcases hsub j x hjd hjx with g | ⟨-, g⟩
          · exact g
          · rw [g.1] at hx; cases hx
        · have hx : some (d, s.heap.length) = some (j, x) := hx
          cases hx; exact hd
        · have hjd : j ≠ d := by rintro rfl; exact hj.2 _ rfl
          exact stored' j (nsave j hjd) rfl (h.stored j ⟨hj.1, by rw [hu.2]; simp⟩)
    · cases he
  | recv =>
    have ns : ∀ j g, Act.recv ≠ .save j g := by intro j g e; cases e
    simp only [exec] at he; split at he
    · cases he
    · rename_i d r hs
      simp only [Option.map_eq_some_iff] at he
      obtain ⟨fl, hr, rfl⟩ := he
      have hf := finv_recv h.fin hr
      obtain ⟨hp, rfl⟩ := recv_some hr
      refine ⟨fun j x hx => near' j _ (ns j) (h.val j x hx), fun j x hx => ?_, fun j x hx => (by cases hx), fun j hj => ?_, finv_idle hf hp⟩
      · have hx : (s.fl.buf.set d r).get? j = some x := hx
        rw [get?_set] at hx
        split at hx
        · rename_i e; cases hx; subst e; exact h.sendc _ _ hs
        · exact h.bufc j x hx
      · have h2 : (s.fl.buf.set d r).get? j = none := hj.1
        rw [get?_set] at h2
        split at h2
        · cases h2
        · rename_i hn
          refine stored' j (ns j) rfl (h.stored j ⟨h2, fun x e => ?_⟩)
          rw [hs] at e; cases e; exact hn rfl
  | read d =>
    have ns : ∀ j g, Act.read d ≠ .save j g := by intro j g e; cases e
    simp only [exec] at he; split at he
    · simp only [Option.map_eq_some_iff] at he
      obtain ⟨⟨t, x⟩, hgf, rfl⟩ := he
      cases getField_spec h1.lok hgf with
      | hit r c hv hok hval hcap e hx =>
        subst e
        exact ⟨fun j x hx => near' j _ (ns j) (h.val j x ((hval j).symm.trans hx)), fun j x hx => (hval j).trans (h.bufc j x hx),
          fun j x hx => (hval j).trans (h.sendc j x hx), fun j hj => stored' j (ns j) rfl (h.stored j hj),
          h.fin.mono fun k v b _ hb => fresh' k b (ns k) hb rfl⟩
      | absent hv hc e hx =>
        subst e
        exact ⟨fun j x hx => near' j _ (ns j) (h.val j x hx), h.bufc, h.sendc, fun j hj => stored' j (ns j) rfl (h.stored j hj),
          h.fin.mono fun k v b _ hb => fresh' k b (ns k) hb rfl⟩
      | loaded m b c hv hc hm hok hd hcap hval e hx =>
        have hsync : Synced s d := by
          refine ⟨?_, fun r hr => ?_⟩
          · cases hb : s.fl.buf.get? d with
            | none => rfl
            | some r => have := h.bufc d r hb; rw [hv] at this; cases this
          · have := h.sendc d r hr; rw [hv] at this; cases this
        have hcut : CutLatest as d m := by
          rcases h.stored d hsync with ⟨-, hn⟩ | ⟨b', m', g1, g2, g3⟩
          · rw [hc] at hn; cases hn
          · rw [hc] at g1; cases g1
            rw [hm] at g2; cases g2; exact g3
        have hsub : ∀ j x, j ≠ d → s.cache.val j = some x → c.val j = some x ∨ (c.val j = none ∧ Synced s j) := by
          intro j x hj hx
          rcases hval with hval | ⟨-, e', w, g1, g2, g3, g4⟩
          · exact .inl ((hval j hj).trans hx)
          · by_cases hje : j = e'
            · subst hje
              exact .inr ⟨g3, evicted j x hx (by rw [e]; exact g3)⟩
            · exact .inl ((g4 j hj hje).trans hx)
        have hsub' : ∀ j x, j ≠ d → c.val j = some x → s.cache.val j = some x := by
          intro j x hj hx
          rcases hval with hval | ⟨-, e', w, g1, g2, g3, g4⟩
          · exact (hval j hj).symm.trans hx
          · by_cases hje : j = e'
            · subst hje; rw [g3] at hx; cases hx
            · exact (g4 j hj hje).symm.trans hx
        subst e
        refine ⟨fun j x hx => ?_, fun j x hx => ?_, fun j x hx => ?_, fun j hj => stored' j (ns j) rfl (h.stored j hj),
          h.fin.mono fun k v b _ hb => fresh' k b (ns k) hb rfl⟩
        · show Near _ j ((s.heap ++ [m]).getD x [])
          by_cases hjd : j = d
          · subst hjd
            have hx : c.val j = some x := hx
            rw [hd] at hx; cases hx
            rw [deref_append_self]
            exact near' j m (ns j) fun name => .inr (hcut name)
          · have hx := hsub' j x hjd hx
            rw [deref_append (h1.own j x (.inl hx)).1]
            exact near' j _ (ns j) (h.val j x hx)
        · have hx : s.fl.buf.get? j = some x := hx
          have hjx := h.bufc j x hx
          have hjd : j ≠ d := by rintro rfl; rw [hv] at hjx; cases hjx
          rcases hsub j x hjd hjx with g | ⟨-, g⟩
          · exact g
          · rw [g.1] at hx; cases hx
        · have hx : s.send = some (j, x) := hx
          have hjx := h.sendc j x hx
          have hjd : j ≠ d := by rintro rfl; rw [hv] at hjx; cases hjx
          rcases hsub j x hjd hjx with g | ⟨-, g⟩
          · exact g
          · exact absurd hx (g.2 x)
    · cases he
  | tick order =>
    have ns : ∀ j g, Act.tick order ≠ .save j g := by intro j g e; cases e
    simp only [exec] at he; split at he
    · simp only [Option.map_eq_some_iff] at he
      obtain ⟨fl, hr, rfl⟩ := he
      have hf := finv_tick h.fin hr
      obtain ⟨hp, hq, rfl⟩ := tick_some hr
      exact ⟨fun j x hx => near' j _ (ns j) (h.val j x hx), h.bufc, h.sendc, fun j hj => stored' j (ns j) rfl (h.stored j hj),
        hf.mono fun k v b _ hb => fresh' k b (ns k) hb rfl⟩
    · cases he
  | step =>
    have ns : ∀ j g, Act.step ≠ .save j g := by intro j g e; cases e
    simp only [exec, Option.map_eq_some_iff] at he
    obtain ⟨fl, hr, rfl⟩ := he
    have hR : ∀ k v b, s.fl.buf.get? k = some v → s.ser k v = some b → Fresh (as ++ [.step]) s.send k b := by
      intro k v b hv hs
      obtain ⟨-, hl⟩ := h1.own k v (.inr (.inl hv))
      obtain ⟨b', g1, g2, -⟩ := legit_ser hl
      unfold ser at hs
      rw [g1] at hs; cases hs
      exact .inr ⟨_, g2, cut' k _ (ns k) (near_cut (h.val k v (h.bufc k v hv)))⟩
    have fin0 : FInvR (fun k _ b => Fresh (as ++ [.step]) s.send k b) s.fl := h.fin.mono fun k v b _ hb => fresh' k b (ns k) hb rfl
    obtain ⟨hf, hch⟩ := step_spec_rel (R := fun k _ b => Fresh (as ++ [.step]) s.send k b) fin0 hR hr
    refine ⟨fun j x hx => near' j _ (ns j) (h.val j x hx), fun j x hx => ?_, h.sendc, fun j hj => ?_, hf⟩
    · have hx : fl.buf.get? j = some x := hx
      cases hch with
      | same hb hc => rw [hb] at hx; exact h.bufc j x hx
      | away k v hv hb hk hc hp => rw [hb] at hx; exact h.bufc j x hx
      | install k v b hv hs hb hk hc => rw [hb] at hx; exact h.bufc j x hx
      | forget k v b hv hs hk hb hc =>
        rw [hb, get?_del] at hx
        split at hx
        · cases hx
        · exact h.bufc j x hx
    · have hj1 : fl.buf.get? j = none := hj.1
      cases hch with
      | same hb hc => exact stored' j (ns j) (hc j) (h.stored j ⟨hb ▸ hj1, hj.2⟩)
      | away k v hv hb hk hc hp =>
        have hjk : j ≠ k := by rintro rfl; rw [hb, hv] at hj1; cases hj1
        exact stored' j (ns j) (hc j hjk) (h.stored j ⟨hb ▸ hj1, hj.2⟩)
      | install k v b hv hs hb hk hc =>
        have hjk : j ≠ k := by rintro rfl; rw [hb, hv] at hj1; cases hj1
        exact stored' j (ns j) (hc j hjk) (h.stored j ⟨hb ▸ hj1, hj.2⟩)
      | forget k v b hv hs hk hb hc =>
        by_cases hjk : j = k
        · subst hjk
          rcases hs with ⟨r, e⟩ | ⟨m, hm, hcut⟩
          · exact absurd e (hj.2 r)
          · exact .inr ⟨b, m, (hc j).trans hk, hm, hcut⟩
        · rw [hb, get?_del, if_neg (Ne.symm hjk)] at hj1
          exact stored' j (ns j) (hc j) (h.stored j ⟨hj1, hj.2⟩)
  | crash =>
    have ns : ∀ j g, Act.crash ≠ .save j g := by intro j g e; cases e
    simp only [exec] at he; split at he
    · cases he
      refine ⟨fun d r hx => ?_, fun d r hx => (by cases hx), fun d r hx => (by cases hx), fun d hd => ?_, finv_idle (finv_killed h.fin) rfl⟩
      · rw [LRU.val_new] at hx; cases hx
      · refine stored' d (ns d) rfl (h.stored d ?_)
        cases hv : s.cache.val d with
        | some r => exact evicted d r hv (LRU.val_new 0 d)
        | none =>
          refine ⟨?_, fun r hr => ?_⟩
          · cases hb : s.fl.buf.get? d with
            | none => rfl
            | some r => have := h.bufc d r hb; rw [hv] at this; cases this
          · have := h.sendc d r hr; rw [hv] at this; cases this
    · cases he
  | open_ n =>
    have ns : ∀ j g, Act.open_ n ≠ .save j g := by intro j g e; cases e
    simp only [exec] at he; split at he
    · cases he
    · rename_i hu
      cases he
      simp only [Bool.not_eq_true] at hu
      have hnone : ∀ d, s.cache.val d = none := by intro d; rw [(h1.down hu).1]; exact LRU.val_new 0 d
      refine ⟨fun d r hx => ?_, fun d r hx => ?_, fun d r hx => ?_, fun d hd => stored' d (ns d) rfl (h.stored d hd),
        h.fin.mono fun k v b _ hb => fresh' k b (ns k) hb rfl⟩
      · rw [LRU.val_new] at hx; cases hx
      · have := h.bufc d r hx; rw [hnone] at this; cases this
      · have := h.sendc d r hx; rw [hnone] at this; cases this

theorem orderly_inv2 {as : List Act} {s : DcState} (h : Orderly as s) (hg : GoFields as) : Inv2 as s := by
  induction h with
  | nil => exact inv2_init
  | snoc ho he hk ih => exact exec_inv2 (run_inv ho.run (goFields_snoc hg)) (ih (goFields_snoc hg)) hg hk he

end Goir.DcState
