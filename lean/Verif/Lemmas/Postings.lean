import Verif.Model.DiskIndex
import Verif.Props.Serialize
import Verif.Lemmas.Memory
/-! # Helper lemmas about posting maps and their serialized form -/
namespace Goir
open GoMap IxState

/-- a posting map as the code builds it: Go maps, every flag true, no empty set. -/
def Good (p : Postings) : Prop := p.WF ∧ ∀ e ∈ p, (GoMap.WF e.2 ∧ ∀ q ∈ e.2, q.2 = true) ∧ e.2 ≠ []

theorem Good.nil : Good [] := ⟨by simp, by simp⟩

theorem Good.readBack {p : Postings} (h : Good p) : ∃ b, serializeIndex p = some b ∧ deserializeIndex b = some p := by
  have := c45_index_roundtrip p h.1 (fun e he => (h.2 e he).1.1) (fun e he => (h.2 e he).1.2)
  cases hs : serializeIndex p with
  | none => simp [hs] at this
  | some b => exact ⟨b, rfl, by simpa [hs] using this⟩

theorem mem_set {K V : Type} [DecidableEq K] (m : GoMap K V) (k : K) (v : V) (e : K × V) (h : e ∈ m.set k v) :
    e = (k, v) ∨ e ∈ m := by
  induction m with
  | nil => simp [GoMap.set] at h; exact .inl h
  | cons p m ih =>
    obtain ⟨k', v'⟩ := p
    simp only [GoMap.set] at h
    split at h
    · rcases List.mem_cons.1 h with h | h
      · exact .inl h
      · exact .inr (List.mem_cons_of_mem _ h)
    · rcases List.mem_cons.1 h with h | h
      · exact .inr (h ▸ List.mem_cons_self)
      · rcases ih h with h | h
        · exact .inl h
        · exact .inr (List.mem_cons_of_mem _ h)

/-- a set with every flag true. -/
def GoodSet (s : GoSet) : Prop := GoMap.WF s ∧ ∀ q ∈ s, q.2 = true

theorem GoodSet.nil : GoodSet [] := ⟨by simp, by simp⟩

theorem GoodSet.set {s : GoSet} (h : GoodSet s) (d : String) : GoodSet (GoMap.set s d true) := by
  refine ⟨h.1.set d true, ?_⟩
  intro q hq
  rcases mem_set _ _ _ _ hq with rfl | hq
  · rfl
  · exact h.2 q hq

theorem GoodSet.add {s : GoSet} (h : GoodSet s) (d : String) : GoodSet (s.add d) := h.set d

theorem GoodSet.adds {s : GoSet} (h : GoodSet s) (ds : List String) : GoodSet (ds.foldl GoSet.add s) := by
  induction ds generalizing s with
  | nil => exact h
  | cons d ds ih => exact ih (h.add d)

theorem Good.get {p : Postings} (h : Good p) {t : String} {s : GoSet} (hs : p.get? t = some s) : GoodSet s :=
  (h.2 _ (mem_of_get? hs)).1

theorem Good.getD {p : Postings} (h : Good p) (t : String) : GoodSet ((p.get? t).getD []) := by
  cases hs : p.get? t with
  | none => exact GoodSet.nil
  | some s => exact h.get hs

theorem set_ne_nil {K V : Type} [DecidableEq K] (m : GoMap K V) (k : K) (v : V) : m.set k v ≠ [] := by
  cases m with
  | nil => simp [GoMap.set]
  | cons e m => simp only [GoMap.set]; split <;> simp

theorem add_ne_nil (s : GoSet) (d : String) : s.add d ≠ [] := set_ne_nil s d true

theorem adds_ne_nil (ds : List String) (s : GoSet) (h : ds ≠ [] ∨ s ≠ []) : ds.foldl GoSet.add s ≠ [] := by
  induction ds generalizing s with
  | nil => exact h.resolve_left (by simp)
  | cons d ds ih => exact ih _ (.inr (add_ne_nil s d))

theorem keys_ne_nil {K V : Type} {m : GoMap K V} (h : m ≠ []) : m.keys ≠ [] := by
  cases m with
  | nil => exact absurd rfl h
  | cons e m => simp [GoMap.keys]

theorem Good.set {p : Postings} (h : Good p) (t : String) {s : GoSet} (hs : GoodSet s) (hn : s ≠ []) : Good (p.set t s) := by
  refine ⟨h.1.set t s, ?_⟩
  intro e he
  rcases mem_set _ _ _ _ he with rfl | he
  · exact ⟨hs, hn⟩
  · exact h.2 e he

theorem Good.addPosting {p : Postings} (h : Good p) (d t : String) : Good (Memory.addPosting d p t) := by
  unfold Memory.addPosting
  split
  · exact h.set t (GoodSet.nil.add d) (add_ne_nil _ _)
  · rename_i s hs; exact h.set t ((h.get hs).add d) (add_ne_nil _ _)

theorem Good.tail {e : String × GoSet} {p : Postings} (h : Good (e :: p)) : Good p :=
  ⟨h.1.tail, fun x hx => h.2 x (List.mem_cons_of_mem _ hx)⟩

theorem Good.mergeInto {td p : Postings} (h : Good td) (hp : Good p) : Good (mergeInto td p) := by
  unfold IxState.mergeInto
  induction p generalizing td with
  | nil => exact h
  | cons e p ih =>
    exact ih (h.set _ ((h.getD _).adds _) (adds_ne_nil _ _ (.inl (keys_ne_nil (hp.2 e (by simp)).2)))) hp.tail

theorem Good.loadPostings {p : Postings} (hp : Good p) : Good (loadPostings p) := by
  unfold IxState.loadPostings
  have : ∀ td : Postings, Good td → Good (p.foldl (fun td e => td.set e.1 (e.2.keys.foldl GoSet.add GoSet.new)) td) := by
    induction p with
    | nil => exact fun _ h => h
    | cons e p ih =>
      exact fun td h => ih hp.tail _ (h.set _ (GoodSet.nil.adds _) (adds_ne_nil _ _ (.inl (keys_ne_nil (hp.2 e (by simp)).2))))
  exact this [] Good.nil

theorem contains_adds (ds : List String) (s : GoSet) (d : String) :
    GoSet.contains (ds.foldl GoSet.add s) d = (decide (d ∈ ds) || GoSet.contains s d) := by
  induction ds generalizing s with
  | nil => simp
  | cons a ds ih =>
    simp only [List.foldl_cons, ih, GoSet.contains_add, List.mem_cons]
    have e : (d = a) = (a = d) := propext eq_comm
    simp only [e]
    by_cases h1 : d ∈ ds <;> by_cases h2 : a = d <;> simp [h1, h2]

theorem hasPosting_set (p : Postings) (t : String) (s : GoSet) (t' d : String) :
    hasPosting (p.set t s) t' d = if t = t' then GoSet.contains s d else hasPosting p t' d := by
  unfold hasPosting
  rw [get?_set]
  by_cases h : t = t' <;> simp [h]

theorem hasPosting_getD (p : Postings) (t d : String) : GoSet.contains ((p.get? t).getD []) d = hasPosting p t d := by
  unfold hasPosting
  cases p.get? t <;> simp

theorem hasPosting_cons (k : String) (s : GoSet) (p : Postings) (t d : String) :
    hasPosting ((k, s) :: p) t d = if k = t then GoSet.contains s d else hasPosting p t d := by
  unfold hasPosting
  rw [get?_cons]
  by_cases h : k = t <;> simp [h]

theorem hasPosting_nil (t d : String) : hasPosting [] t d = false := rfl

theorem hasPosting_of_not_mem {p : Postings} {t : String} (h : t ∉ p.keys) (d : String) : hasPosting p t d = false := by
  unfold hasPosting
  rw [(get?_eq_none_iff p t).2 h]

theorem hasPosting_mergeInto (td p : Postings) (wf : p.WF) (t d : String) :
    hasPosting (mergeInto td p) t d = (hasPosting td t d || hasPosting p t d) := by
  unfold IxState.mergeInto
  induction p generalizing td with
  | nil => simp [hasPosting_nil]
  | cons e p ih =>
    obtain ⟨k, s⟩ := e
    have hk : k ∉ GoMap.keys p := by simp only [WF, keys_cons, List.nodup_cons] at wf; exact wf.1
    simp only [List.foldl_cons]
    rw [ih _ wf.tail, hasPosting_cons, hasPosting_set]
    by_cases h : k = t
    · subst h
      simp only [if_true]
      rw [contains_adds, hasPosting_of_not_mem hk, GoSet.new, hasPosting_getD]
      have : decide (d ∈ GoMap.keys s) = GoSet.contains s d := by
        rw [Bool.eq_iff_iff, decide_eq_true_iff, GoSet.contains_iff_mem_keys]
      rw [this]
      cases GoSet.contains s d <;> cases hasPosting td k d <;> rfl
    · simp [h]

theorem hasPosting_loadPostings (p : Postings) (wf : p.WF) (t d : String) :
    hasPosting (loadPostings p) t d = hasPosting p t d := by
  unfold IxState.loadPostings
  have : ∀ td : Postings, (∀ k ∈ p.keys, ∀ d, hasPosting td k d = false) →
      hasPosting (p.foldl (fun td e => td.set e.1 (e.2.keys.foldl GoSet.add GoSet.new)) td) t d =
        (hasPosting td t d || hasPosting p t d) := by
    induction p with
    | nil => intro td _; simp [hasPosting_nil]
    | cons e p ih =>
      obtain ⟨k, s⟩ := e
      intro td hd
      have hk : k ∉ GoMap.keys p := by simp only [WF, keys_cons, List.nodup_cons] at wf; exact wf.1
      simp only [List.foldl_cons]
      rw [ih wf.tail, hasPosting_cons, hasPosting_set]
      · by_cases h : k = t
        · subst h
          simp only [if_true]
          rw [contains_adds, hasPosting_of_not_mem hk, hd k (by simp), GoSet.new]
          have : decide (d ∈ GoMap.keys s) = GoSet.contains s d := by
            rw [Bool.eq_iff_iff, decide_eq_true_iff, GoSet.contains_iff_mem_keys]
          rw [this]; simp
        · simp [h]
      · intro k' hk' d'
        rw [hasPosting_set, if_neg (by rintro rfl; exact hk hk')]
        exact hd k' (by simp [hk']) d'
  rw [this [] (by intros; rfl)]; simp [hasPosting_nil]

theorem bufAdd_get? (buf : GoMap String Postings) (f t d f' : String) :
    (bufAdd buf f t d).get? f' = if f = f' then
      some (((buf.get? f).getD []).set t (GoMap.set ((((buf.get? f).getD []).get? t).getD []) d true)) else buf.get? f' := by
  unfold bufAdd; rw [get?_set]

/-- the posting is in a two-level map. -/
def has2 (m : GoMap String Postings) (f t d : String) : Prop := ∃ p, m.get? f = some p ∧ hasPosting p t d = true

theorem has2_set (m : GoMap String Postings) (f : String) (p : Postings) (f' t d : String) :
    has2 (m.set f p) f' t d ↔ (f = f' ∧ hasPosting p t d = true) ∨ (f ≠ f' ∧ has2 m f' t d) := by
  unfold has2
  rw [get?_set]
  by_cases h : f = f' <;> simp [h]

theorem has2_getD (m : GoMap String Postings) (f t d : String) :
    hasPosting ((m.get? f).getD []) t d = true ↔ has2 m f t d := by
  unfold has2
  cases m.get? f <;> simp [hasPosting_nil]

theorem has2_post (m : GoMap String Postings) (f t d f' t' d' : String) :
    has2 (m.set f (Memory.addPosting d ((m.get? f).getD []) t)) f' t' d' ↔
      (f = f' ∧ t = t' ∧ d = d') ∨ has2 m f' t' d' := by
  rw [has2_set, hasPosting_addPosting]
  by_cases h : f = f'
  · subst h; simp [has2_getD]
  · simp [h]

theorem has2_bufAdd (m : GoMap String Postings) (f t d f' t' d' : String) :
    has2 (bufAdd m f t d) f' t' d' ↔ (f = f' ∧ t = t' ∧ d = d') ∨ has2 m f' t' d' := by
  unfold bufAdd
  rw [has2_set, hasPosting_set]
  by_cases h : f = f'
  · subst h
    by_cases ht : t = t'
    · subst ht
      have hc : GoSet.contains (GoMap.set ((((m.get? f).getD []).get? t).getD []) d true) d' =
          (decide (d = d') || GoSet.contains ((((m.get? f).getD []).get? t).getD []) d') := GoSet.contains_add _ _ _
      simp [hc, hasPosting_getD, has2_getD]
    · simp [ht, has2_getD]
  · simp [h]

theorem has2_mem {m : GoMap String Postings} {f t d : String} (h : has2 m f t d) : ∃ p, (f, p) ∈ m ∧ hasPosting p t d = true := by
  obtain ⟨p, h1, h2⟩ := h; exact ⟨p, mem_of_get? h1, h2⟩

/-- all posting maps of a two-level map are good. -/
def Good2 (m : GoMap String Postings) : Prop := ∀ e ∈ m, Good e.2

theorem Good2.nil : Good2 [] := by simp [Good2]
theorem Good2.set {m : GoMap String Postings} (h : Good2 m) (f : String) {p : Postings} (hp : Good p) : Good2 (m.set f p) := by
  intro e he
  rcases mem_set _ _ _ _ he with rfl | he
  · exact hp
  · exact h e he
theorem Good2.getD {m : GoMap String Postings} (h : Good2 m) (f : String) : Good ((m.get? f).getD []) := by
  cases hs : m.get? f with
  | none => exact Good.nil
  | some p => exact h _ (mem_of_get? hs)
theorem Good2.bufAdd {m : GoMap String Postings} (h : Good2 m) (f t d : String) : Good2 (bufAdd m f t d) := by
  unfold IxState.bufAdd
  exact h.set f ((h.getD f).set t (((h.getD f).getD t).set d) (set_ne_nil _ _ _))

end Goir
