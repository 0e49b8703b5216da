import Verif.Model.Alias
import Verif.Lemmas.Memory
import Verif.Props.Memory
/-!
# C21: what a set returned by GetDocuments is

Refuted as stated; proved: what the returned set is instead (a live view), and how far changing it reaches.
-/
namespace Goir
open GoMap

namespace AMem

/-- the addresses in the index are valid and all different. -/
structure Ok (s : AMem) : Prop where
  valid : ∀ f t r, s.ref f t = some r → r < s.heap.length
  inj   : ∀ f t f' t' r, s.ref f t = some r → s.ref f' t' = some r → f = f' ∧ t = t'

theorem ref_set (s : AMem) (h : List GoSet) (f : String) (m : GoMap String Nat) (f' t : String) :
    ref ⟨h, s.index.set f m⟩ f' t = if f = f' then m.get? t else s.ref f' t := by
  unfold ref
  rw [get?_set]
  split <;> simp

/-- the effect of one loop iteration on addresses. -/
theorem ref_addPosting (d f : String) (s : AMem) (key f' t : String) :
    (addPosting d f s key).ref f' t = if f = f' ∧ key = t ∧ s.ref f key = none then some s.heap.length else s.ref f' t := by
  have hr : s.ref f key = GoMap.get? ((s.index.get? f).getD []) key := by
    unfold ref; cases s.index.get? f <;> simp
  rw [hr]
  cases hk : GoMap.get? ((s.index.get? f).getD []) key with
  | some r => simp [addPosting, hk, ref]
  | none =>
    simp only [addPosting, hk, ref_set, get?_set]
    by_cases hf : f = f'
    · subst hf
      by_cases hkt : key = t
      · simp [hkt]
      · simp only [if_true, if_neg hkt, hkt, false_and, and_false, if_false]
        unfold ref; cases s.index.get? f <;> simp
    · simp [hf]

theorem heap_addPosting (d f : String) (s : AMem) (key : String) :
    (addPosting d f s key).heap = match s.ref f key with
      | none => s.heap ++ [GoSet.new.add d]
      | some r => s.heap.set r ((s.deref r).add d) := by
  have hr : s.ref f key = GoMap.get? ((s.index.get? f).getD []) key := by
    unfold ref; cases s.index.get? f <;> simp
  rw [hr]
  cases hk : GoMap.get? ((s.index.get? f).getD []) key <;> simp [addPosting, hk]

theorem deref_set {s : AMem} {r r' : Nat} (h : r < s.heap.length) (x : GoSet) :
    deref { s with heap := s.heap.set r x } r' = if r = r' then x else s.deref r' := by
  unfold deref
  simp only [List.getElem?_set]
  by_cases hr : r = r'
  · subst hr; simp [h]
  · simp [hr]

/-- one loop iteration: the invariant, the addresses stay, and how contents change. -/
theorem addPosting_spec (d f : String) {s : AMem} (hs : s.Ok) (key : String) :
    (addPosting d f s key).Ok ∧ (∀ f' t r, s.ref f' t = some r → (addPosting d f s key).ref f' t = some r) ∧
    (∀ f' t, ((addPosting d f s key).ref f' t).map (addPosting d f s key).deref =
      if f = f' ∧ key = t then some ((((s.ref f' t).map s.deref).getD []).add d) else (s.ref f' t).map s.deref) := by
  have href := fun f' t => ref_addPosting d f s key f' t
  have hheap := heap_addPosting d f s key
  generalize hs' : addPosting d f s key = s' at *
  cases hk : s.ref f key with
  | some r₀ =>
    rw [hk] at hheap
    have hr0 := hs.valid _ _ _ hk
    have href' : ∀ f' t, s'.ref f' t = s.ref f' t := fun f' t => by rw [href]; simp [hk]
    have hder : ∀ r, s'.deref r = if r₀ = r then (s.deref r₀).add d else s.deref r := by
      intro r
      rw [← deref_set hr0]
      unfold deref; rw [hheap]; rfl
    refine ⟨⟨fun f' t r h => ?_, fun f' t f'' t' r h h' => ?_⟩, fun f' t r h => by rw [href', h], fun f' t => ?_⟩
    · rw [href'] at h; rw [hheap]; simpa using hs.valid _ _ _ h
    · rw [href'] at h h'; exact hs.inj _ _ _ _ _ h h'
    · rw [href']
      by_cases hft : f = f' ∧ key = t
      · obtain ⟨rfl, rfl⟩ := hft
        simp [hk, hder]
      · rw [if_neg hft]
        cases hr : s.ref f' t with
        | none => rfl
        | some r =>
          have : r₀ ≠ r := fun e => hft (by subst e; exact hs.inj _ _ _ _ _ hk hr)
          simp [hder, this]
  | none =>
    rw [hk] at hheap
    have href' : ∀ f' t, s'.ref f' t = if f = f' ∧ key = t then some s.heap.length else s.ref f' t := fun f' t => by
      rw [href]; simp [hk]
    have hder : ∀ r, s'.deref r = if r = s.heap.length then GoSet.new.add d else s.deref r := by
      intro r
      unfold deref; rw [hheap]
      simp only
      by_cases hr : r = s.heap.length
      · simp [hr]
      · rw [if_neg hr]
        rcases Nat.lt_or_gt_of_ne hr with h | h
        · rw [List.getElem?_append_left h]
        · rw [List.getElem?_eq_none (by simp; omega), List.getElem?_eq_none (by omega)]
    refine ⟨⟨fun f' t r h => ?_, fun f' t f'' t' r h h' => ?_⟩, fun f' t r h => ?_, fun f' t => ?_⟩
    · rw [href'] at h; rw [hheap]
      simp only [List.length_append, List.length_singleton]
      split at h
      · cases h; omega
      · have := hs.valid _ _ _ h; omega
    · rw [href'] at h h'
      split at h <;> split at h'
      · rename_i a b; exact ⟨a.1.symm.trans b.1, a.2.symm.trans b.2⟩
      · cases h; exact absurd (hs.valid _ _ _ h') (by omega)
      · cases h'; exact absurd (hs.valid _ _ _ h) (by omega)
      · exact hs.inj _ _ _ _ _ h h'
    · rw [href', if_neg, h]
      rintro ⟨rfl, rfl⟩; rw [hk] at h; cases h
    · rw [href']
      by_cases hft : f = f' ∧ key = t
      · obtain ⟨rfl, rfl⟩ := hft
        simp [hder, hk, GoSet.new]
      · rw [if_neg hft, if_neg hft]
        cases hr : s.ref f' t with
        | none => rfl
        | some r =>
          have := hs.valid _ _ _ hr
          simp [hder, show r ≠ s.heap.length by omega]

/-- the posting list of a term. -/
def posting (s : AMem) (f t : String) : Option GoSet := (s.ref f t).map s.deref

theorem foldl_spec (d f : String) (keys : List String) {s : AMem} (hs : s.Ok) :
    (keys.foldl (addPosting d f) s).Ok ∧ (∀ f' t r, s.ref f' t = some r → (keys.foldl (addPosting d f) s).ref f' t = some r) ∧
    (∀ f' t, (keys.foldl (addPosting d f) s).posting f' t =
      if f = f' then GoMap.get? (keys.foldl (Memory.addPosting d) (match s.posting f' t with | some x => [(t, x)] | none => [])) t
      else s.posting f' t) := by
  induction keys generalizing s with
  | nil =>
    refine ⟨hs, fun _ _ _ h => h, fun f' t => ?_⟩
    simp only [List.foldl_nil]
    cases s.posting f' t <;> simp [get?_cons]
  | cons k keys ih =>
    obtain ⟨h1, h2, h3⟩ := addPosting_spec d f hs k
    obtain ⟨i1, i2, i3⟩ := ih h1
    refine ⟨i1, fun f' t r h => i2 _ _ _ (h2 _ _ _ h), fun f' t => ?_⟩
    simp only [List.foldl_cons]
    rw [i3]
    have hp : (addPosting d f s k).posting f' t =
      if f = f' ∧ k = t then some (((s.posting f' t).getD []).add d) else s.posting f' t := h3 f' t
    by_cases hf : f = f'
    · rw [if_pos hf, if_pos hf]
      have key : ∀ (ks : List String) (a b : GoMap String GoSet), a.get? t = b.get? t →
          (ks.foldl (Memory.addPosting d) a).get? t = (ks.foldl (Memory.addPosting d) b).get? t := by
        intro ks
        induction ks with
        | nil => intro a b h; exact h
        | cons k ks ih =>
          intro a b h
          refine ih _ _ ?_
          rw [get?_addPosting, get?_addPosting]
          split
          · rename_i e; subst e; rw [h]
          · exact h
      apply key
      rw [get?_addPosting, hp]
      by_cases hk : k = t
      · subst hk
        simp only [hf, and_self, if_true]
        cases s.posting f' k <;> simp [get?_cons]
      · simp only [hf, hk, and_false, if_false]
    · rw [if_neg hf, if_neg hf, hp, if_neg (by simp [hf])]

theorem updateIndex_spec {s : AMem} (hs : s.Ok) (d : String) (x : Field) :
    (s.updateIndex d x).Ok ∧ (∀ f t r, s.ref f t = some r → (s.updateIndex d x).ref f t = some r) ∧
    (∀ f t, (s.updateIndex d x).posting f t =
      if x.name = f then GoMap.get? (x.tf.keys.foldl (Memory.addPosting d) (match s.posting f t with | some y => [(t, y)] | none => [])) t
      else s.posting f t) := by
  unfold updateIndex
  cases hx : s.index.get? x.name with
  | some m => exact foldl_spec d x.name x.tf.keys hs
  | none =>
    have href : ∀ f t, ref ⟨s.heap, s.index.set x.name []⟩ f t = s.ref f t := by
      intro f t
      rw [ref_set]
      split
      · rename_i e; subst e; simp [ref, hx]
      · rfl
    have hok : Ok ⟨s.heap, s.index.set x.name []⟩ :=
      ⟨fun f t r h => hs.valid f t r ((href f t).symm.trans h),
       fun f t f' t' r h h' => hs.inj f t f' t' r ((href f t).symm.trans h) ((href f' t').symm.trans h')⟩
    have hp : ∀ f t, posting ⟨s.heap, s.index.set x.name []⟩ f t = s.posting f t := by
      intro f t; unfold posting; rw [href]; rfl
    obtain ⟨h1, h2, h3⟩ := foldl_spec d x.name x.tf.keys hok
    refine ⟨h1, fun f t r h => h2 f t r ((href f t).trans h), fun f t => ?_⟩
    rw [← hp f t]
    exact h3 f t

theorem getDocuments_eq (s : AMem) (f t : String) : s.getDocuments f t = (s.ref f t, (s.ref f t).isSome) := by
  unfold getDocuments ref
  cases s.index.get? f with
  | none => rfl
  | some m => simp only [Option.bind_some]; cases GoMap.get? m t <;> rfl

/-- the addresses stay, and the invariant holds, whatever is called. -/
theorem exec_spec {s s' : AMem} {op : Op} (hs : s.Ok) (h : s.exec op = some s') :
    s'.Ok ∧ ∀ f t r, s.ref f t = some r → s'.ref f t = some r := by
  have upd : ∀ r x, Ok { s with heap := s.heap.set r x } := fun r x =>
    ⟨fun f t r' h' => by simpa using hs.valid f t r' h', fun f t f' t' r' h1 h2 => hs.inj f t f' t' r' h1 h2⟩
  cases op with
  | store op =>
    obtain ⟨h1, h2, -⟩ := updateIndex_spec hs op.doc op.field
    simp only [exec, Option.some.injEq] at h; subst h
    exact ⟨h1, h2⟩
  | setAdd r e =>
    cases r with
    | none => cases h
    | some r => simp only [exec, Option.some.injEq] at h; subst h; exact ⟨upd _ _, fun _ _ _ h => h⟩
  | setRemove r e =>
    cases r with
    | none => simp only [exec, Option.some.injEq] at h; subst h; exact ⟨hs, fun _ _ _ h => h⟩
    | some r => simp only [exec, Option.some.injEq] at h; subst h; exact ⟨upd _ _, fun _ _ _ h => h⟩

theorem run_spec {s s' : AMem} {ops : List Op} (hs : s.Ok) (h : s.run ops = some s') :
    s'.Ok ∧ ∀ f t r, s.ref f t = some r → s'.ref f t = some r := by
  induction ops generalizing s with
  | nil => simp only [run, List.foldlM_nil] at h; cases h; exact ⟨hs, fun _ _ _ h => h⟩
  | cons op ops ih =>
    simp only [run, List.foldlM_cons] at h
    cases he : s.exec op with
    | none => rw [he] at h; cases h
    | some s₁ =>
      rw [he] at h
      obtain ⟨a, b⟩ := exec_spec hs he
      obtain ⟨c, d⟩ := ih a h
      exact ⟨c, fun f t r hr => d f t r (b f t r hr)⟩

theorem ok_new : Ok {} := ⟨fun f t r h => by simp [ref] at h, fun f t f' t' r h => by simp [ref] at h⟩

end AMem

/-- the model with identities and the Memory model agree: after any history of calls on the store, GetDocuments has the same flag and
its set the same contents. -/
theorem alias_refines (h : List StoreOp) (f t : String) :
    ∃ s, AMem.run {} (h.map .store) = some s ∧ (s.getData (s.getDocuments f t).1, (s.getDocuments f t).2) = (Memory.run h).getDocuments f t := by
  have key : ∀ (h : List StoreOp) (s : AMem) (m : Memory), s.Ok → (∀ f t, s.posting f t = GoMap.get? (m.getIndex f) t) →
      ∃ s', s.run (h.map .store) = some s' ∧ ∀ f t, s'.posting f t = GoMap.get? ((h.foldl Memory.apply m).getIndex f) t := by
    intro h
    induction h with
    | nil => intro s m _ hp; exact ⟨s, rfl, hp⟩
    | cons op h ih =>
      intro s m hs hp
      obtain ⟨h1, -, h3⟩ := AMem.updateIndex_spec hs op.doc op.field
      refine ih (s.updateIndex op.doc op.field) (m.apply op) h1 fun f t => ?_
      rw [h3, Memory.getIndex_apply]
      by_cases hf : op.field.name = f
      · rw [if_pos hf, if_pos hf]
        have loc : ∀ (ks : List String) (a b : GoMap String GoSet), a.get? t = b.get? t →
            (ks.foldl (Memory.addPosting op.doc) a).get? t = (ks.foldl (Memory.addPosting op.doc) b).get? t := by
          intro ks
          induction ks with
          | nil => intro a b h; exact h
          | cons k ks ih =>
            intro a b h
            refine ih _ _ ?_
            rw [get?_addPosting, get?_addPosting]
            split
            · rename_i e; subst e; rw [h]
            · exact h
        apply loc
        rw [hp]
        cases GoMap.get? (m.getIndex f) t <;> simp [get?_cons]
      · rw [if_neg hf, if_neg hf, hp]
  obtain ⟨s, h1, h2⟩ := key h {} Memory.new AMem.ok_new (fun f t => by simp [AMem.posting, AMem.ref, Memory.getIndex, Memory.new])
  refine ⟨s, h1, ?_⟩
  have := h2 f t
  rw [AMem.getDocuments_eq, Memory.getDocuments_eq]
  show _ = match GoMap.get? ((h.foldl Memory.apply Memory.new).getIndex f) t with | some s => (s, true) | none => ([], false)
  rw [← this]
  unfold AMem.posting
  cases s.ref f t <;> rfl

/-- **C21 is false**: (1) the set returned by GetDocuments gains a document that is indexed later; (2) removing an element from the
returned set removes it from the index. -/
theorem c21_snapshot_refuted :
    (∃ s s' : AMem, ∃ set : Option Nat,
      AMem.run {} [.store (.save "d" ⟨"title", 1, [("t", 1)]⟩)] = some s ∧ s.getDocuments "title" "t" = (set, true) ∧
      (s.getData set).contains "e" = false ∧
      s.run [.store (.save "e" ⟨"title", 1, [("t", 1)]⟩)] = some s' ∧ (s'.getData set).contains "e" = true) ∧
    (∃ s s' : AMem, ∃ set : Option Nat,
      AMem.run {} [.store (.save "d" ⟨"title", 1, [("t", 1)]⟩)] = some s ∧ s.getDocuments "title" "t" = (set, true) ∧
      (s.getData set).contains "d" = true ∧
      s.run [.setRemove set "d"] = some s' ∧ (s'.getData (s'.getDocuments "title" "t").1).contains "d" = false) :=
  ⟨⟨_, _, some 0, rfl, rfl, rfl, rfl, rfl⟩, ⟨_, _, some 0, rfl, rfl, rfl, rfl, rfl⟩⟩

/-- **C21, what holds (1).** A set returned with flag true stays the index's own set for ever: after any later calls, on the store or
on any returned set, GetDocuments of the same field and term returns this very set (so what the caller sees in it is always what a
new GetDocuments would return). -/
theorem c21_live_view_partial (pre post : List AMem.Op) {s s' : AMem} (h : AMem.run {} pre = some s) (h' : s.run post = some s')
    {f t : String} {set : Option Nat} (hg : s.getDocuments f t = (set, true)) :
    s'.getDocuments f t = (set, true) ∧ s'.getData set = s'.getData (s'.getDocuments f t).1 := by
  obtain ⟨hs, -⟩ := AMem.run_spec AMem.ok_new h
  obtain ⟨-, hk⟩ := AMem.run_spec hs h'
  rw [AMem.getDocuments_eq, Prod.mk.injEq] at hg
  obtain ⟨r, hr⟩ := Option.isSome_iff_exists.1 hg.2
  have hset : set = some r := hg.1.symm.trans hr
  have : s'.getDocuments f t = (set, true) := by rw [AMem.getDocuments_eq, hk f t r hr, hset]; rfl
  exact ⟨this, by rw [this]⟩

/-- **C21, what holds (2).** A call on the store that does not index this term of this field leaves the returned set as it is; one that
does adds the document and changes nothing else. -/
theorem c21_store_call_partial (pre : List AMem.Op) {s : AMem} (h : AMem.run {} pre = some s) {f t : String} {set : Option Nat}
    (hg : s.getDocuments f t = (set, true)) (op : StoreOp) :
    ∃ s', s.run [.store op] = some s' ∧
      (¬ (op.field.name = f ∧ t ∈ op.field.tf.keys) → s'.getData set = s.getData set) ∧
      ∀ e, (s'.getData set).contains e = true ↔
        (s.getData set).contains e = true ∨ (e = op.doc ∧ op.field.name = f ∧ t ∈ op.field.tf.keys) := by
  obtain ⟨hs, -⟩ := AMem.run_spec AMem.ok_new h
  rw [AMem.getDocuments_eq, Prod.mk.injEq] at hg
  obtain ⟨r, hr⟩ := Option.isSome_iff_exists.1 hg.2
  have hset : set = some r := hg.1.symm.trans hr
  obtain ⟨h1, h2, h3⟩ := AMem.updateIndex_spec hs op.doc op.field
  refine ⟨_, rfl, ?_⟩
  have hp := h3 f t
  have hpo : s.posting f t = some (s.deref r) := by simp [AMem.posting, hr]
  have hpo' : (s.updateIndex op.doc op.field).posting f t = some ((s.updateIndex op.doc op.field).deref r) := by
    simp [AMem.posting, h2 f t r hr]
  rw [hpo, hpo'] at hp
  subst hset
  simp only [AMem.getData]
  have hnot : ∀ (ks : List String) (a : GoMap String GoSet), t ∉ ks → (ks.foldl (Memory.addPosting op.doc) a).get? t = a.get? t := by
    intro ks
    induction ks with
    | nil => intro a _; rfl
    | cons k ks ih =>
      intro a ht
      simp only [List.mem_cons, not_or] at ht
      rw [List.foldl_cons, ih _ ht.2, get?_addPosting, if_neg (fun e => ht.1 e.symm)]
  constructor
  · intro hn
    by_cases hf : op.field.name = f
    · rw [if_pos hf, hnot _ _ (fun ht => hn ⟨hf, ht⟩)] at hp
      simpa [get?_cons] using hp
    · rw [if_neg hf] at hp; simpa using hp
  · intro e
    by_cases hf : op.field.name = f
    · rw [if_pos hf] at hp
      have hh := hasPosting_foldl op.doc op.field.tf.keys [(t, s.deref r)] t e
      have e1 : hasPosting (op.field.tf.keys.foldl (Memory.addPosting op.doc) [(t, s.deref r)]) t e =
          ((s.updateIndex op.doc op.field).deref r).contains e := by
        unfold hasPosting; rw [← hp]
      have e2 : hasPosting [(t, s.deref r)] t e = (s.deref r).contains e := by simp [hasPosting, get?_cons]
      rw [← e1, hh, e2]
      simp only [Bool.or_eq_true, decide_eq_true_eq, hf, true_and]
      constructor
      · rintro (⟨a, b⟩ | a)
        · exact .inr ⟨b.symm, a⟩
        · exact .inl a
      · rintro (a | ⟨a, b⟩)
        · exact .inr a
        · exact .inl ⟨b, a.symm⟩
    · rw [if_neg hf] at hp
      simp only [Option.some.injEq] at hp
      rw [hp]; simp [hf]

/-- **C21, what holds (3).** Changing a returned set changes the answers for its own field and term only. -/
theorem c21_change_is_local_partial (pre : List AMem.Op) {s s' : AMem} (h : AMem.run {} pre = some s) {f t : String} {set : Option Nat}
    (hg : s.getDocuments f t = (set, true)) {op : AMem.Op} (hop : ∃ e, op = .setAdd set e ∨ op = .setRemove set e)
    (h' : s.run [op] = some s') {f' t' : String} (hne : (f', t') ≠ (f, t)) :
    s'.getDocuments f' t' = s.getDocuments f' t' ∧ s'.getData (s'.getDocuments f' t').1 = s.getData (s.getDocuments f' t').1 := by
  obtain ⟨hs, -⟩ := AMem.run_spec AMem.ok_new h
  rw [AMem.getDocuments_eq, Prod.mk.injEq] at hg
  obtain ⟨r, hr⟩ := Option.isSome_iff_exists.1 hg.2
  have hset : set = some r := hg.1.symm.trans hr
  subst hset
  have hex : ∃ x, s' = { s with heap := s.heap.set r x } := by
    obtain ⟨e, rfl | rfl⟩ := hop <;> simp only [AMem.run, AMem.exec, List.foldlM_cons, List.foldlM_nil] at h' <;> cases h' <;> exact ⟨_, rfl⟩
  obtain ⟨x, rfl⟩ := hex
  have hg' : AMem.getDocuments { s with heap := s.heap.set r x } f' t' = s.getDocuments f' t' := rfl
  refine ⟨hg', ?_⟩
  rw [hg', AMem.getDocuments_eq]
  cases hr' : s.ref f' t' with
  | none => rfl
  | some r' =>
    simp only [AMem.getData]
    rw [AMem.deref_set (hs.valid _ _ _ hr), if_neg]
    rintro rfl
    obtain ⟨a, b⟩ := hs.inj _ _ _ _ _ hr hr'
    exact hne (by rw [a, b])

/-- **C21, what holds (3a).** Adding to, or removing from, a set returned with flag true does not panic and adds to, or removes from, what
GetDocuments answers for its field and term, and nothing else. -/
theorem c21_change_reaches_the_store_partial (pre : List AMem.Op) {s : AMem} (h : AMem.run {} pre = some s) {f t : String} {set : Option Nat}
    (hg : s.getDocuments f t = (set, true)) (e : String) :
    (∃ s', s.run [.setAdd set e] = some s' ∧ ∀ d, (s'.getData (s'.getDocuments f t).1).contains d = true ↔ (s.getData set).contains d = true ∨ d = e) ∧
    ∃ s', s.run [.setRemove set e] = some s' ∧ ∀ d, (s'.getData (s'.getDocuments f t).1).contains d = true ↔ (s.getData set).contains d = true ∧ d ≠ e := by
  obtain ⟨hs, -⟩ := AMem.run_spec AMem.ok_new h
  rw [AMem.getDocuments_eq, Prod.mk.injEq] at hg
  obtain ⟨r, hr⟩ := Option.isSome_iff_exists.1 hg.2
  have hset : set = some r := hg.1.symm.trans hr
  subst hset
  have hlt := hs.valid f t r hr
  have hd : ∀ x : GoSet, AMem.deref { s with heap := s.heap.set r x } r = x := by
    intro x; simp [AMem.deref, hlt]
  have hr' : ∀ x : GoSet, (AMem.getDocuments { s with heap := s.heap.set r x } f t).1 = some r := by
    intro x; rw [AMem.getDocuments_eq]; exact hr
  refine ⟨⟨_, rfl, fun d => ?_⟩, ⟨_, rfl, fun d => ?_⟩⟩
  · rw [hr']
    show (AMem.deref _ r).contains d = true ↔ (s.deref r).contains d = true ∨ d = e
    rw [hd, GoSet.contains_add]
    simp only [Bool.or_eq_true, decide_eq_true_eq]
    exact ⟨fun h => h.elim (fun h => .inr h.symm) .inl, fun h => h.elim .inr fun h => .inl h.symm⟩
  · rw [hr']
    show (AMem.deref _ r).contains d = true ↔ (s.deref r).contains d = true ∧ d ≠ e
    rw [hd, GoSet.contains_remove]
    simp only [Bool.and_eq_true, Bool.not_eq_true', decide_eq_false_iff_not, bne_iff_ne, ne_eq, decide_not]
    constructor
    · rintro ⟨a, b⟩; first | exact ⟨b, fun h => a h.symm⟩ | exact ⟨a, fun h => b h.symm⟩
    · rintro ⟨a, b⟩; first | exact ⟨fun h => b h.symm, a⟩ | exact ⟨a, fun h => b h.symm⟩

/-- **C21, what holds (4).** A set returned with flag false is empty, stays empty, can be removed from, and panics when added to. -/
theorem c21_not_found_partial {s : AMem} {f t : String} {set : Option Nat} (hg : s.getDocuments f t = (set, false)) :
    (∀ s' : AMem, s'.getData set = []) ∧ (∀ s' : AMem, ∀ e, s'.run [.setRemove set e] = some s') ∧ ∀ s' : AMem, ∀ e, s'.run [.setAdd set e] = none := by
  rw [AMem.getDocuments_eq, Prod.mk.injEq] at hg
  have : set = none := by rw [← hg.1]; simpa using hg.2
  subst this
  exact ⟨fun _ => rfl, fun _ _ => rfl, fun _ _ => rfl⟩

example : ∃ s, AMem.run {} [.store (.save "d" ⟨"title", 1, [("t", 1), ("u", 2)]⟩)] = some s ∧ s.getDocuments "title" "t" = (some 0, true) ∧
    s.getDocuments "title" "u" = (some 1, true) ∧ s.getDocuments "title" "v" = (none, false) := ⟨_, rfl, rfl, rfl, rfl⟩

end Goir
