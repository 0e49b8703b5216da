import Verif.Model.Search
import Verif.Lemmas.FanIn
import Verif.Lemmas.Memory
/-! # Lemmas about InvertedIndex.Search and Standard.Search -/
namespace Goir
open GoMap

/-- the store answers consistently: `posted f t d`: GetDocuments(f, t) has `d`; `field d f`: what GetFields finds for one document. -/
structure Coherent (st : Reads) (posted : String → String → String → Prop) (field : String → String → Option Field) : Prop where
  docs : ∀ f t d, d ∈ termSource st f t ↔ posted f t d
  wf : ∀ ids f, (st.getFields ids f).WF
  fields : ∀ ids f d, (st.getFields ids f).get? d = if d ∈ ids then field d f else none

theorem nodup_length_le {l l' : List String} (hn : l.Nodup) (h : l ⊆ l') : l.length ≤ l'.length := by
  induction l generalizing l' with
  | nil => simp
  | cons x l ih =>
    obtain ⟨hx, hn⟩ := List.nodup_cons.1 hn
    have hx' : x ∈ l' := h List.mem_cons_self
    have : l ⊆ l'.erase x := by
      intro y hy
      rw [List.mem_erase_of_ne (by rintro rfl; exact hx hy)]
      exact h (List.mem_cons_of_mem _ hy)
    have h1 := ih hn this
    have h2 := List.length_erase_of_mem hx'
    have h3 := List.length_pos_of_mem hx'
    simp only [List.length_cons]
    omega

/-! ### Batches -/

theorem modify_flatten {α : Type} (l : List (List α)) (i : Nat) (x : α) (h : i < l.length) :
    ((l.modify i (· ++ [x])).flatten).Perm (x :: l.flatten) := by
  induction l generalizing i with
  | nil => simp at h
  | cons y l ih =>
    cases i with
    | zero =>
      simp only [List.modify_zero_cons, List.flatten_cons, List.append_assoc, List.singleton_append]
      exact List.perm_middle
    | succ i =>
      simp only [List.modify_succ_cons, List.flatten_cons]
      exact ((ih i (by simpa using h)).append_left y).trans List.perm_middle

/-- invariant of the receiving loop. -/
structure BatchInv (ids : List String) (b : Batching) : Prop where
  len : b.batches.length = numBatches
  mem : ∀ d, d ∈ b.batches.flatten ↔ d ∈ ids
  has : ∀ d, d ∈ b.hasDocument.keys ↔ d ∈ ids
  nodup : b.batches.flatten.Nodup
  le : b.batches.flatten.length ≤ ids.length

theorem batchInv_init : BatchInv [] {} :=
  ⟨by simp, fun d => by simp [numBatches], fun d => by simp, by simp [numBatches], by simp [numBatches]⟩

theorem batchInv_add {ids : List String} {b : Batching} (h : BatchInv ids b) (x : String) : BatchInv (ids ++ [x]) (b.add x) := by
  unfold Batching.add
  split
  · rename_i hx
    have hx' : x ∈ ids := (h.has x).1 ((get?_isSome_iff _ _).1 hx)
    refine ⟨h.len, fun d => ?_, fun d => ?_, h.nodup, ?_⟩
    · rw [h.mem]; simp; rintro rfl; exact hx'
    · rw [h.has]; simp; rintro rfl; exact hx'
    · have := h.le; rw [List.length_append, List.length_singleton]; omega
  · rename_i hx
    have hx' : x ∉ ids := fun e => hx ((get?_isSome_iff _ _).2 ((h.has x).2 e))
    have hp := modify_flatten b.batches (b.ixx % numBatches) x (by rw [h.len]; exact Nat.mod_lt _ (by decide))
    refine ⟨?_, fun d => ?_, fun d => ?_, ?_, ?_⟩
    · simp [h.len]
    · rw [hp.mem_iff]; simp [h.mem]; exact or_comm
    · rw [mem_keys_set, h.has]; simp [eq_comm, or_comm]
    · rw [hp.nodup_iff, List.nodup_cons]
      exact ⟨fun e => hx' ((h.mem x).1 e), h.nodup⟩
    · rw [hp.length_eq]; have := h.le; rw [List.length_append, List.length_singleton, List.length_cons]; omega

theorem batchInv_makeBatches (ids : List String) : BatchInv ids (ids.foldl Batching.add {}) := by
  have : ∀ (l pre : List String) (b : Batching), BatchInv pre b → BatchInv (pre ++ l) (l.foldl Batching.add b) := by
    intro l
    induction l with
    | nil => intro pre b h; simpa using h
    | cons x l ih =>
      intro pre b h
      have := ih (pre ++ [x]) (b.add x) (batchInv_add h x)
      simpa using this
  simpa using this ids [] {} batchInv_init

theorem mem_makeBatches (ids : List String) (d : String) : (∃ b ∈ makeBatches ids, d ∈ b) ↔ d ∈ ids := by
  rw [← (batchInv_makeBatches ids).mem d]
  simp [makeBatches]

/-! ### Collecting -/

theorem collect_aux (l : List (String × Field)) (m : GoMap String Field) (wf : m.WF) (d : String) :
    (l.foldl (fun m e => m.set e.1 e.2) m).WF ∧
    ((∀ e ∈ l, e.1 ≠ d) → (l.foldl (fun m e => m.set e.1 e.2) m).get? d = m.get? d) ∧
    (∀ x, (d, x) ∈ l → (∀ y, (d, y) ∈ l → y = x) → (l.foldl (fun m e => m.set e.1 e.2) m).get? d = some x) := by
  induction l generalizing m with
  | nil => exact ⟨wf, fun _ => rfl, fun x h => by cases h⟩
  | cons e l ih =>
    obtain ⟨k, v⟩ := e
    obtain ⟨h1, h2, h3⟩ := ih (m.set k v) (wf.set k v)
    refine ⟨h1, fun h => ?_, fun x hx hu => ?_⟩
    · rw [List.foldl_cons, h2 (fun e he => h e (List.mem_cons_of_mem _ he))]
      have : k ≠ d := h (k, v) List.mem_cons_self
      simp [get?_set, this]
    · rw [List.foldl_cons]
      by_cases hl : ∃ y, (d, y) ∈ l
      · obtain ⟨y, hy⟩ := hl
        have := hu y (List.mem_cons_of_mem _ hy)
        subst this
        exact h3 y hy fun z hz => hu z (List.mem_cons_of_mem _ hz)
      · rw [h2 (fun e he hk => hl ⟨e.2, by rw [← hk]; exact he⟩)]
        rcases List.mem_cons.1 hx with e | hx
        · cases e; simp
        · exact absurd ⟨x, hx⟩ hl

theorem collect_wf (l : List (String × Field)) : (collectFields l).WF := (collect_aux l [] (by simp) "").1

theorem collect_get {l : List (String × Field)} {f : String → Option Field} (h : ∀ d x, (d, x) ∈ l ↔ f d = some x) (d : String) :
    (collectFields l).get? d = f d := by
  obtain ⟨-, h2, h3⟩ := collect_aux l [] (by simp) d
  cases hd : f d with
  | none =>
    refine h2 fun e he hk => ?_
    have := (h e.1 e.2).1 he
    rw [hk, hd] at this; cases this
  | some x =>
    refine h3 x ((h d x).2 hd) fun y hy => ?_
    have := (h d y).1 hy
    rw [hd] at this; cases this; rfl

/-! ### InvertedIndex.Search -/

variable {F : Type} [GoFloat F]

/-- the sources of the second phase. -/
def sources2 (st : Reads) (fieldName : String) (ids : List String) : List (List (String × Field)) :=
  (makeBatches ids).map fun documentsId => st.getFields documentsId fieldName

theorem getFields_length {st : Reads} {posted : String → String → String → Prop} {field : String → String → Option Field}
    (h : Coherent st posted field) (ids : List String) (f : String) : (st.getFields ids f).length ≤ ids.length := by
  rw [← keys_length]
  have hsub : (st.getFields ids f).keys ⊆ ids := by
    intro d hd
    obtain ⟨x, hx⟩ := (mem_keys_iff _ _).1 hd
    rw [h.fields] at hx
    split at hx
    · assumption
    · cases hx
  exact nodup_length_le (h.wf ids f) hsub

theorem sources2_length {st : Reads} {posted : String → String → String → Prop} {field : String → String → Option Field}
    (h : Coherent st posted field) (f : String) (ids : List String) :
    (sources2 st f ids).flatten.length ≤ ids.length ∧ (sources2 st f ids).length = numBatches := by
  have hb := batchInv_makeBatches ids
  refine ⟨?_, by simp only [sources2, List.length_map]; exact hb.len⟩
  refine Nat.le_trans ?_ hb.le
  show _ ≤ (makeBatches ids).flatten.length
  unfold sources2
  generalize makeBatches ids = bs
  induction bs with
  | nil => simp
  | cons b bs ih =>
    simp only [List.map_cons, List.flatten_cons, List.length_append]
    have := getFields_length h b f
    omega

theorem mem_sources2 {st : Reads} {posted : String → String → String → Prop} {field : String → String → Option Field}
    (h : Coherent st posted field) (f : String) (ids : List String) (d : String) (x : Field) :
    (d, x) ∈ (sources2 st f ids).flatten ↔ d ∈ ids ∧ field d f = some x := by
  rw [← mem_makeBatches]
  simp only [sources2, List.mem_flatten, List.mem_map]
  constructor
  · rintro ⟨_, ⟨b, hb, rfl⟩, hx⟩
    have := (get?_eq_some_iff (h.wf b f) d x).2 hx
    rw [h.fields] at this
    split at this
    · rename_i hd; exact ⟨⟨b, hb, hd⟩, this⟩
    · cases this
  · rintro ⟨⟨b, hb, hd⟩, hx⟩
    refine ⟨_, ⟨b, hb, rfl⟩, (get?_eq_some_iff (h.wf b f) d x).1 ?_⟩
    rw [h.fields, if_pos hd, hx]

/-- what a result must be. -/
structure GoodResult (st : Reads) (posted : String → String → String → Prop) (field : String → String → Option Field)
    (terms : List String) (f : String) (r : SearchResult F) : Prop where
  total : r.totalDocuments = GoFloat.ofInt (st.getFieldSize f)
  avg : r.avgDocLength = GoFloat.div (GoFloat.ofInt (st.getFieldLength f)) (GoFloat.ofInt (st.getFieldSize f))
  nft : r.numFieldsWithTerm = st.getNumberFieldTerm f terms
  wf : r.fieldDocuments.WF
  docs : ∀ d x, r.fieldDocuments.get? d = some x ↔ (∃ t ∈ terms, posted f t d) ∧ field d f = some x

/-- invariant of InvertedIndex.Search. -/
def IInv (st : Reads) (posted : String → String → String → Prop) (field : String → String → Option Field)
    (terms : List String) (f : String) (cpus : Nat) : IState F → Prop
  | .phase1 m => FanIn.Inv (terms.map (termSource st f)) m ∧ m.sem = cpus * 2
  | .phase2 m => m.sem = cpus * 2 ∧ ∃ ids, ids.Perm (terms.map (termSource st f)).flatten ∧ FanIn.Inv (sources2 st f ids) m
  | .done r => GoodResult st posted field terms f r

/-- the measure of InvertedIndex.Search. -/
def iμ (st : Reads) (terms : List String) (f : String) : IState F → Nat
  | .phase1 m => m.μ + (2 * (terms.map (termSource st f)).flatten.length + 2 * numBatches + 3)
  | .phase2 m => m.μ + 1
  | .done _ => 0

variable {st : Reads} {posted : String → String → String → Prop} {field : String → String → Option Field}

theorem iinv_start (terms : List String) (f : String) (cpus : Nat) :
    IInv st posted field terms f cpus (IState.start st terms f cpus : IState F) := ⟨FanIn.start_inv _ _ _, rfl⟩

theorem iinv_step (hco : Coherent st posted field) {terms : List String} {f : String} {cpus : Nat} {s s' : IState F}
    (h : IInv st posted field terms f cpus s) (hs : IState.Step st terms f cpus s s') : IInv st posted field terms f cpus s' := by
  cases hs with
  | p1 m m' hm => exact ⟨FanIn.step_inv h.1 hm, (FanIn.step_static hm).1.trans h.2⟩
  | next m hf => exact ⟨rfl, m.out, FanIn.finished_out h.1 hf, FanIn.start_inv _ _ _⟩
  | p2 m m' hm =>
    obtain ⟨h1, ids, h2, h3⟩ := h
    exact ⟨(FanIn.step_static hm).1.trans h1, ids, h2, FanIn.step_inv h3 hm⟩
  | finish m hf =>
    obtain ⟨h1, ids, h2, h3⟩ := h
    have hout := FanIn.finished_out h3 hf
    refine ⟨rfl, rfl, rfl, collect_wf _, fun d x => ?_⟩
    have hg : ∀ d x, (d, x) ∈ m.out ↔ (fun d => if d ∈ ids then field d f else none) d = some x := by
      intro d x
      rw [hout.mem_iff, mem_sources2 hco]
      by_cases hd : d ∈ ids <;> simp [hd]
    show (collectFields m.out).get? d = some x ↔ _
    rw [collect_get hg]
    have hids : d ∈ ids ↔ ∃ t ∈ terms, posted f t d := by
      rw [h2.mem_iff]
      simp only [List.mem_flatten, List.mem_map]
      constructor
      · rintro ⟨_, ⟨t, ht, rfl⟩, hd⟩; exact ⟨t, ht, (hco.docs f t d).1 hd⟩
      · rintro ⟨t, ht, hd⟩; exact ⟨_, ⟨t, ht, rfl⟩, (hco.docs f t d).2 hd⟩
    by_cases hd : d ∈ ids
    · simp only [if_pos hd]; exact ⟨fun h => ⟨hids.1 hd, h⟩, fun h => h.2⟩
    · simp only [if_neg hd]
      exact ⟨fun h => (by cases h), fun h => absurd (hids.2 h.1) hd⟩

theorem iμ_step (hco : Coherent st posted field) {terms : List String} {f : String} {cpus : Nat} {s s' : IState F}
    (h : IInv st posted field terms f cpus s) (hs : IState.Step st terms f cpus s s') : iμ st terms f s' < iμ st terms f s := by
  cases hs with
  | p1 m m' hm => have := FanIn.step_μ hm; simp only [iμ]; omega
  | next m hf =>
    have hp := FanIn.finished_out h.1 hf
    have h1 := sources2_length hco f m.out
    have h2 := hp.length_eq
    simp only [iμ]
    rw [show (List.map (fun documentsId => st.getFields documentsId f) (makeBatches m.out)) = sources2 st f m.out from rfl, FanIn.start_μ]
    omega
  | p2 m m' hm => have := FanIn.step_μ hm; simp only [iμ]; omega
  | finish m hf => simp only [iμ]; omega

/-- InvertedIndex.Search never deadlocks. -/
theorem i_progress {terms : List String} {f : String} {cpus : Nat} (hc : 0 < cpus) {s : IState F}
    (h : IInv st posted field terms f cpus s) (hd : ∀ r, s ≠ .done r) : ∃ s', IState.Step st terms f cpus s s' := by
  cases s with
  | phase1 m =>
    by_cases hf : m.Finished
    · exact ⟨_, .next m hf⟩
    · obtain ⟨m', hm⟩ := FanIn.progress (by rw [h.2]; omega) hf
      exact ⟨_, .p1 m m' hm⟩
  | phase2 m =>
    by_cases hf : m.Finished
    · exact ⟨_, .finish m hf⟩
    · obtain ⟨m', hm⟩ := FanIn.progress (by rw [h.1]; omega) hf
      exact ⟨_, .p2 m m' hm⟩
  | done r => exact absurd rfl (hd r)

end Goir
