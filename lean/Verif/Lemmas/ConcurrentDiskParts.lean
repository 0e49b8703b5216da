import Verif.Lemmas.ConcurrentDiskOwn
/-!
# The counters and postings of a field that one client writes, on a Disk store with several clients

Each part starts from what the store had when it was opened.
-/
namespace Goir
open GoMap Spec

namespace CDisk
open Flusher CtState Conc CMem

/-- what is proved about a part of the maps of the store that belongs to field `f`. -/
structure Piece (f : String) (full : List StoreOp → CMem → Prop) (at_ : List StoreOp → StoreOp → CMem → Loc → Prop) : Prop where
  full_same : ∀ {L m m'}, m.Tags → SameField f m m' → full L m → full L m'
  at_same : ∀ {L op m m' loc}, op.field.name = f → m.Tags → LocOk op loc → SameField f m m' → at_ L op m loc → at_ L op m' loc
  /-- before the loop over the postings nothing has happened -/
  start : ∀ {L op m}, op.field.name = f → full L m → at_ L op m .sizeRead ∧ at_ L op m .idxLook
  access : ∀ {L op m m' k loc loc'}, op.field.name = f → op.field.tf.WF → m.Tags → LocOk op loc → diskLoc op loc → at_ L op m loc → CMem.exec m op k loc = some (m', some loc') → at_ L op m' loc'
  return_ : ∀ {L op m m' k loc}, op.field.name = f → op.field.tf.WF → m.Tags → LocOk op loc → diskLoc op loc → at_ L op m loc → CMem.exec m op k loc = some (m', none) → full (L ++ [op]) m'

/-- the part at a step of a write on a Disk store: the messages change nothing. -/
def lift (full : List StoreOp → CMem → Prop) (at_ : List StoreOp → StoreOp → CMem → Loc → Prop) (L : List StoreOp) (op : StoreOp) (m : CMem) : WLoc → Prop
  | .acc l => at_ L op m l
  | .msgLen | .msgSize _ | .sendM .. => at_ L op m .idxLook
  | .sendI r _ ts => at_ L op m (.post r ts)
  | .msgN r _ ts => at_ L op m (.term r ts)
  | .sendN r _ _ ts => at_ L op m (.term r ts)
  | .docGet | .docSet _ | .docPut _ | .sendD _ => full (L ++ [op]) m

theorem dpart_of {f : String} {full : List StoreOp → CMem → Prop} {at_ : List StoreOp → StoreOp → CMem → Loc → Prop} (hp : Piece f full at_) :
    DPart f (fun L m _ => full L m) (fun L op m _ loc => lift full at_ L op m loc) where
  full_same ht hs _ h := hp.full_same ht hs h
  at_same {L op m m' mx mx' loc} hf ht hl hs _ h := by
    cases loc with
    | acc l => exact hp.at_same hf ht hl.1 hs h
    | msgLen => exact hp.at_same hf ht trivial hs h
    | msgSize => exact hp.at_same hf ht trivial hs h
    | sendM => exact hp.at_same hf ht trivial hs h
    | sendI r key ts => exact hp.at_same hf ht ⟨hl.1, fun x hx => hl.2.1 (List.mem_cons_of_mem _ hx), fun wf => (List.nodup_cons.1 (hl.2.2 wf)).2⟩ hs h
    | msgN r key ts => exact hp.at_same hf ht ⟨hl.1, hl.2.1, fun x hx => hl.2.2.1 (List.mem_cons_of_mem _ hx), fun wf => (List.nodup_cons.1 (hl.2.2.2 wf)).2⟩ hs h
    | sendN r key n ts => exact hp.at_same hf ht ⟨hl.1, hl.2.1, fun x hx => hl.2.2.1 (List.mem_cons_of_mem _ hx), fun wf => (List.nodup_cons.1 (hl.2.2.2 wf)).2⟩ hs h
    | docGet => exact hp.full_same ht hs h
    | docSet => exact hp.full_same ht hs h
    | docPut => exact hp.full_same ht hs h
    | sendD => exact hp.full_same ht hs h
  full_step _ h := h
  at_step _ h := h
  start {L op m mx} hf h := by
    cases op with
    | save => exact (hp.start hf h).1
    | updateIndex => exact (hp.start hf h).2
  acc {L op m m' mx k l o loc'} hf wf ht hl h he hn := by
    have ac := fun {l'} (e : o = some l') => hp.access (loc' := l') hf wf ht hl.1 hl.2 h (e ▸ he)
    have rt := fun (e : o = none) => hp.return_ hf wf ht hl.1 hl.2 h (e ▸ he)
    cases Conc.exec_eff he with
    | postEnd r => cases op <;> cases hn; exact ac rfl
    | nftStore r => cases hn; exact rt rfl
    | _ => cases hn; exact ac rfl
  accReturn {L op m m' mx k l o} hf wf ht hl h he hn := by
    have rt := fun (e : o = none) => hp.return_ hf wf ht hl.1 hl.2 h (e ▸ he)
    cases Conc.exec_eff he with
    | postEnd r => cases op <;> cases hn; exact rt rfl
    | _ => cases hn
  msgLen _ h := h
  msgSize _ h := h
  recvM _ _ h := h
  sendI _ h := h
  msgN _ h := h
  recvN _ h := h
  docGet _ h := h
  docSet _ h := h
  docPut _ h := h
  recvD _ _ h := h

/-! ### document frequencies -/

/-- the frequencies, before and during the loop over the terms. -/
def AtDfB (b : String → Int) (f : String) (L : List StoreOp) (op : StoreOp) (m : CMem) : Loc → Prop
  | .term r ts => ∀ t, (m.nftCells r).getD t 0 = b t + termCount L f t + if t ∈ op.field.tf.keys ∧ t ∉ ts then 1 else 0
  | .termWrite r key n ts => n = (m.nftCells r).getD key 0 ∧ ∀ t, (m.nftCells r).getD t 0 = b t + termCount L f t + if t ∈ op.field.tf.keys ∧ t ∉ key :: ts then 1 else 0
  | .nftStore r => ∀ t, (m.nftCells r).getD t 0 = b t + termCount (L ++ [op]) f t
  | _ => ∀ t, m.df f t = b t + termCount L f t

theorem piece_df (b : String → Int) (f : String) : Piece f (fun L m => ∀ t, m.df f t = b t + termCount L f t) (AtDfB b f) := by
  refine ⟨?_, ?_, ?_, ?_, ?_⟩
  · intro L m m' ht hs h t; rw [df_same ht hs, h]
  · intro L op m m' loc hf ht hl hs h
    cases loc with
    | term r ts => intro t; rw [hs.nftC r (by rw [hl.2.1, hf])]; exact h t
    | termWrite r key n ts =>
      have : m'.nftCells r = m.nftCells r := hs.nftC r (by rw [hl.2.1, hf])
      exact ⟨by rw [this]; exact h.1, fun t => by rw [this]; exact h.2 t⟩
    | nftStore r => intro t; rw [hs.nftC r (by rw [hl.2, hf])]; exact h t
    | _ => intro t; rw [df_same ht hs]; exact h t
  · intro L op m hm h; exact ⟨h, h⟩
  · intro L op m m' k loc loc' hf wf ht hl _ h he
    generalize hx : some loc' = o at he
    cases exec_eff he with
    | postEnd r => cases op <;> cases hx; exact h
    | nftFound r hr =>
      cases hx
      intro t
      have := h t
      simp only [CMem.df, ← hf, hr, Option.map_some, Option.getD_some] at this
      rw [this, hf]; simp
    | nftMissing hr =>
      cases hx
      intro t
      have := h t
      simp only [CMem.df, ← hf, hr, Option.map_none, Option.getD_none] at this
      simp only [Ref.upd_self]
      rw [this, hf]; simp
    | termEnd r =>
      cases hx
      intro t
      rw [termCount_snoc L t hf, h t]
      simp [hl.1, Int.add_assoc]
    | termRead r ts key ts' hp =>
      cases hx
      refine ⟨rfl, fun t => ?_⟩
      rw [h t]; simp only [hp.mem_iff]
    | termWrite r key n ts =>
      cases hx
      intro t
      have hnd := List.nodup_cons.1 (hl.2.2.2 wf)
      have hm : key ∈ op.field.tf.keys := hl.2.2.1 List.mem_cons_self
      simp only [Ref.upd_self, getD_set]
      split
      · rename_i e
        subst e
        rw [h.1, h.2 key]; simp [hm, hnd.1]
      · rename_i e
        rw [h.2 t]; simp [Ne.symm e]
    | nftStore r => cases hx
    | _ => cases hx; exact h
  · intro L op m m' k loc hf wf ht hl _ h he
    generalize hx : (none : Option Loc) = o at he
    cases exec_eff he with
    | postEnd r =>
      intro t
      cases op with
      | save => cases hx
      | updateIndex d fl =>
        rw [termCount_snoc L t hf]
        simp only [StoreOp.isSave, Bool.false_eq_true, false_and, if_false, Int.add_zero]
        exact h t
    | nftStore r =>
      intro t
      simp only [CMem.df, hf, GoMap.get?_set_self, Option.map_some, Option.getD_some]
      exact h t
    | _ => cases hx

/-! ### postings -/

/-- the postings of field `f`: those of `b` and of `L`, and the document of `op` under the terms done. -/
def PostB (b : String → String → Prop) (f : String) (L : List StoreOp) (m : CMem) (new : String → String → Prop) : Prop :=
  ∀ t d, (∃ sr, m.lookup f t = some sr ∧ GoSet.contains (m.setCells sr) d = true) ↔ b t d ∨ Posted L f t d ∨ new t d

/-- the postings, before, in and after the loop over the terms. -/
def AtPostB (b : String → String → Prop) (f : String) (L : List StoreOp) (op : StoreOp) (m : CMem) : Loc → Prop
  | .idxNew => m.index.get? f = none ∧ PostB b f L m fun _ _ => False
  | .post r ts => m.index.get? f = some r ∧ PostB b f L m fun t d => d = op.doc ∧ t ∈ op.field.tf.keys ∧ t ∉ ts
  | .postNew r key ts => m.index.get? f = some r ∧ (m.idxCells r).get? key = none ∧ PostB b f L m fun t d => d = op.doc ∧ t ∈ op.field.tf.keys ∧ t ∉ key :: ts
  | .postAdd r key sr ts => m.index.get? f = some r ∧ (m.idxCells r).get? key = some sr ∧ PostB b f L m fun t d => d = op.doc ∧ t ∈ op.field.tf.keys ∧ t ∉ key :: ts
  | .nftLook => PostB b f (L ++ [op]) m fun _ _ => False
  | .term _ _ => PostB b f (L ++ [op]) m fun _ _ => False
  | .termWrite _ _ _ _ => PostB b f (L ++ [op]) m fun _ _ => False
  | .nftStore _ => PostB b f (L ++ [op]) m fun _ _ => False
  | _ => PostB b f L m fun _ _ => False

theorem postB_congr {b : String → String → Prop} {f : String} {L : List StoreOp} {m m' : CMem} {new new' : String → String → Prop} (h : PostB b f L m new)
    (hl : ∀ t, m'.lookup f t = m.lookup f t) (hc : ∀ t sr, m.lookup f t = some sr → m'.setCells sr = m.setCells sr) (hn : ∀ t d, new t d ↔ new' t d) :
    PostB b f L m' new' := by
  intro t d
  rw [← hn, ← h t d, hl]
  constructor
  · rintro ⟨sr, h1, h2⟩; exact ⟨sr, h1, by rwa [hc t sr h1] at h2⟩
  · rintro ⟨sr, h1, h2⟩; exact ⟨sr, h1, by rwa [hc t sr h1]⟩

theorem postB_same {b : String → String → Prop} {f : String} {L : List StoreOp} {m m' : CMem} {new : String → String → Prop} (ht : m.Tags) (hs : SameField f m m') (h : PostB b f L m new) : PostB b f L m' new :=
  postB_congr h (lookup_same ht hs) (fun t sr hl => hs.setC sr (by rw [lookup_tag ht hl])) fun _ _ => Iff.rfl

theorem postB_snoc {b : String → String → Prop} {f : String} {L : List StoreOp} {op : StoreOp} {m : CMem} (hf : op.field.name = f)
    (h : PostB b f L m fun t d => d = op.doc ∧ t ∈ op.field.tf.keys ∧ t ∉ ([] : List String)) : PostB b f (L ++ [op]) m fun _ _ => False := by
  intro t d
  rw [h, posted_snoc L t d hf]; simp

theorem piece_post (b : String → String → Prop) (f : String) : Piece f (fun L m => PostB b f L m fun _ _ => False) (AtPostB b f) := by
  refine ⟨?_, ?_, ?_, ?_, ?_⟩
  · intro L m m' ht hs h; exact postB_same ht hs h
  · intro L op m m' loc hf ht hl hs h
    cases loc with
    | idxNew => exact ⟨by rw [hs.idx]; exact h.1, postB_same ht hs h.2⟩
    | post r ts => exact ⟨by rw [hs.idx]; exact h.1, postB_same ht hs h.2⟩
    | postNew r key ts => exact ⟨by rw [hs.idx]; exact h.1, by rw [hs.idxC r (ht.idx _ _ h.1)]; exact h.2.1, postB_same ht hs h.2.2⟩
    | postAdd r key sr ts => exact ⟨by rw [hs.idx]; exact h.1, by rw [hs.idxC r (ht.idx _ _ h.1)]; exact h.2.1, postB_same ht hs h.2.2⟩
    | _ => exact postB_same ht hs h
  · intro L op m hm h; exact ⟨h, h⟩
  · intro L op m m' k loc loc' hf wf ht hl hd h he
    generalize hx : some loc' = o at he
    cases exec_eff he with
    | idxFound r hr =>
      cases hx
      refine ⟨hf ▸ hr, postB_congr h (fun _ => rfl) (fun _ _ _ => rfl) fun t d => ?_⟩
      simp only [false_iff, not_and, not_not]
      exact fun _ h => h
    | idxMissing hr => cases hx; exact ⟨hf ▸ hr, h⟩
    | idxNew =>
      cases hx
      have e : ∀ t, m.lookup f t = none := by intro t; simp [CMem.lookup, h.1]
      refine ⟨by rw [hf]; simp, fun t d => ?_⟩
      have := h.2 t d
      simp only [e, reduceCtorEq, false_and, exists_false, or_false, false_iff] at this
      simp only [CMem.lookup, hf, GoMap.get?_set_self, Option.bind_some, Ref.upd_self, GoMap.get?_nil, reduceCtorEq, false_and, exists_false, false_iff]
      rintro (h1 | h1 | h1)
      · exact this (.inl h1)
      · exact this (.inr h1)
      · exact h1.2.2 h1.2.1
    | postEnd r =>
      cases op with
      | save d fl => cases hx; exact postB_snoc hf h.2
      | updateIndex => cases hx
    | postFound r ts key ts' sr hp hk =>
      cases hx
      exact ⟨h.1, hk, postB_congr h.2 (fun _ => rfl) (fun _ _ _ => rfl) fun t d => by rw [hp.mem_iff]⟩
    | postMissing r ts key ts' hp hk =>
      cases hx
      exact ⟨h.1, hk, postB_congr h.2 (fun _ => rfl) (fun _ _ _ => rfl) fun t d => by rw [hp.mem_iff]⟩
    | postNew r key ts =>
      cases hx
      obtain ⟨h1, h2, h3⟩ := h
      have hnd := List.nodup_cons.1 (hl.2.2 wf)
      have hm : key ∈ op.field.tf.keys := hl.2.1 List.mem_cons_self
      have e : m.lookup f key = none := by simp [CMem.lookup, h1, h2]
      have hne : ∀ t, t ≠ key → ((m.idxCells r).set key ⟨(op.field.name, key), m.next⟩).get? t = m.lookup f t := by
        intro t ht'
        rw [GoMap.get?_set_ne _ _ (Ne.symm ht')]; simp [CMem.lookup, h1]
      have hc : ∀ t, t ≠ key → ∀ sr, m.lookup f t = some sr → Ref.upd m.setCells ⟨(op.field.name, key), m.next⟩ (GoSet.new.add op.doc) sr = m.setCells sr := by
        intro t ht' sr hs
        refine Ref.upd_tag _ _ ?_
        rw [lookup_tag ht hs]
        intro e'; exact ht' (Prod.mk.inj e').2
      refine ⟨h1, fun t d => ?_⟩
      simp only [CMem.lookup, h1, Option.bind_some, Ref.upd_self]
      by_cases ht' : t = key
      · subst ht'
        have := h3 t d
        rw [e] at this
        simp only [reduceCtorEq, false_and, exists_false, false_iff, not_or] at this
        rw [GoMap.get?_set_self]
        simp only [Option.some.injEq, exists_eq_left', Ref.upd_self, GoSet.new, GoSet.contains_add, GoSet.contains_nil, Bool.or_false, decide_eq_true_eq]
        constructor
        · rintro rfl; exact .inr (.inr ⟨rfl, hm, hnd.1⟩)
        · rintro (h | h | h)
          · exact absurd h this.1
          · exact absurd h this.2.1
          · exact h.1.symm
      · rw [hne t ht']
        have := h3 t d
        rw [show (d = op.doc ∧ t ∈ op.field.tf.keys ∧ t ∉ ts) ↔ (d = op.doc ∧ t ∈ op.field.tf.keys ∧ t ∉ key :: ts) by simp [ht'], ← this]
        constructor
        · rintro ⟨sr, a, b⟩; exact ⟨sr, a, by rwa [hc t ht' sr a] at b⟩
        · rintro ⟨sr, a, b⟩; exact ⟨sr, a, by rwa [hc t ht' sr a]⟩
    | postAdd r key sr ts =>
      cases hx
      obtain ⟨h1, h2, h3⟩ := h
      have hnd := List.nodup_cons.1 (hl.2.2.2 wf)
      have hm : key ∈ op.field.tf.keys := hl.2.2.1 List.mem_cons_self
      have e : m.lookup f key = some sr := by simp [CMem.lookup, h1, h2]
      have hc : ∀ t, t ≠ key → ∀ sr', m.lookup f t = some sr' → Ref.upd m.setCells sr ((m.setCells sr).add op.doc) sr' = m.setCells sr' := by
        intro t ht' sr' hs
        refine Ref.upd_tag _ _ ?_
        rw [lookup_tag ht hs, lookup_tag ht e]
        intro e'; exact ht' (Prod.mk.inj e').2
      refine ⟨h1, fun t d => ?_⟩
      show (∃ sr', m.lookup f t = some sr' ∧ _) ↔ _
      by_cases ht' : t = key
      · subst ht'
        have := h3 t d
        rw [e] at this ⊢
        simp only [Option.some.injEq, exists_eq_left', List.mem_cons, true_or, not_true, and_false, or_false] at this
        simp only [Option.some.injEq, exists_eq_left', Ref.upd_self, GoSet.contains_add, Bool.or_eq_true, decide_eq_true_eq, this]
        constructor
        · rintro (rfl | h | h)
          · exact .inr (.inr ⟨rfl, hm, hnd.1⟩)
          · exact .inl h
          · exact .inr (.inl h)
        · rintro (h | h | h)
          · exact .inr (.inl h)
          · exact .inr (.inr h)
          · exact .inl h.1.symm
      · have := h3 t d
        show _ ↔ b t d ∨ Posted L f t d ∨ (d = op.doc ∧ t ∈ op.field.tf.keys ∧ t ∉ ts)
        rw [show (d = op.doc ∧ t ∈ op.field.tf.keys ∧ t ∉ ts) ↔ (d = op.doc ∧ t ∈ op.field.tf.keys ∧ t ∉ key :: ts) by simp [ht'], ← this]
        constructor
        · rintro ⟨sr', a, b⟩; exact ⟨sr', a, by rw [← hc t ht' sr' a]; exact b⟩
        · rintro ⟨sr', a, b⟩; exact ⟨sr', a, by rw [← hc t ht' sr' a] at b; exact b⟩
    | nftStore r => cases hx
    | nftMissing => cases hx; exact h
    | docFound => exact hd.elim
    | docMissing => exact hd.elim
    | docSet => exact hd.elim
    | docNew => exact hd.elim
    | _ => cases hx; exact h
  · intro L op m m' k loc hf wf ht hl _ h he
    generalize hx : (none : Option Loc) = o at he
    cases exec_eff he with
    | postEnd r =>
      cases op with
      | save => cases hx
      | updateIndex d fl => exact postB_snoc hf h.2
    | nftStore r => exact h
    | _ => cases hx

/-! ### size and length, in memory and at the writer -/

theorem saveCount_snoc (L : List StoreOp) {op : StoreOp} {f : String} (h : op.field.name = f) : (saveCount (L ++ [op]) f : Int) = saveCount L f + if op.isSave = true then 1 else 0 := by
  cases hs : op.isSave <;> simp [saveCount, List.filter_append, h, hs]

theorem saveLengthSum_snoc (L : List StoreOp) {op : StoreOp} {f : String} (h : op.field.name = f) : saveLengthSum (L ++ [op]) f = saveLengthSum L f + if op.isSave = true then op.field.length else 0 := by
  cases hs : op.isSave <;> simp [saveLengthSum, List.filter_append, h, hs]

/-- what the writer of the metrics has about field `f` is what the store has. -/
def MxOk (f : String) (m : CMem) (mx : Flusher (Int × Int)) : Prop :=
  mx.buf.get? f = some (m.fieldSize.getD f 0, m.fieldLength.getD f 0) ∨
  (mx.buf.get? f = none ∧ ((∃ c, mx.cur f = some c ∧ FileM c f (toInt32 (m.fieldSize.getD f 0)) (toInt32 (m.fieldLength.getD f 0))) ∨
    (mx.cur f = none ∧ m.fieldSize.get? f = none ∧ m.fieldLength.get? f = none)))

theorem MxOk.same {f : String} {m m' : CMem} {mx mx' : Flusher (Int × Int)} (hs : SameField f m m') (hx : SameM f mx mx') (h : MxOk f m mx) : MxOk f m' mx' := by
  unfold MxOk GoMap.getD
  rw [hx.1, hx.2, hs.size, hs.len]; exact h

theorem MxOk.step {f : String} {m : CMem} {mx mx' : Flusher (Int × Int)} (hc : Change serM mx mx') (h : MxOk f m mx) : MxOk f m mx' := by
  cases hc with
  | same hb hc => unfold MxOk; rw [hb, hc]; exact h
  | away k v hv hb hk hc hp =>
    unfold MxOk
    rw [hb]
    by_cases e : f = k
    · subst e
      rcases h with h | h
      · exact .inl h
      · rw [hv] at h; cases h.1
    · rw [hc f e]; exact h
  | install k v b hv hs hb hk hc =>
    unfold MxOk
    rw [hb]
    by_cases e : f = k
    · subst e
      rcases h with h | h
      · exact .inl h
      · rw [hv] at h; cases h.1
    · rw [hc f e]; exact h
  | forget k v b hv hs hk hb hc =>
    unfold MxOk
    rw [hb, hc]
    by_cases e : f = k
    · subst e
      rcases h with h | h
      · rw [hv] at h; cases h
        obtain ⟨b', e1, e2⟩ := serM_spec f (m.fieldSize.getD f 0, m.fieldLength.getD f 0)
        rw [hs] at e1; cases e1
        exact .inr ⟨by rw [get?_del, if_pos rfl], .inl ⟨_, hk, _, rfl, e2⟩⟩
      · rw [hv] at h; cases h.1
    · rw [get?_del, if_neg (Ne.symm e)]; exact h

/-- size and length inside a write. -/
def AtM (x y : Int) (f : String) (L : List StoreOp) (op : StoreOp) (m : CMem) (mx : Flusher (Int × Int)) : WLoc → Prop
  | .acc .sizeRead => m.fieldSize.getD f 0 = x + saveCount L f ∧ m.fieldLength.getD f 0 = y + saveLengthSum L f ∧ MxOk f m mx
  | .acc (.sizeWrite n) => n = x + saveCount L f ∧ m.fieldLength.getD f 0 = y + saveLengthSum L f
  | .acc .lenRead => m.fieldSize.getD f 0 = x + saveCount (L ++ [op]) f ∧ m.fieldLength.getD f 0 = y + saveLengthSum L f
  | .acc (.lenWrite n) => m.fieldSize.getD f 0 = x + saveCount (L ++ [op]) f ∧ n = y + saveLengthSum L f
  | .msgLen => m.fieldSize.getD f 0 = x + saveCount (L ++ [op]) f ∧ m.fieldLength.getD f 0 = y + saveLengthSum (L ++ [op]) f
  | .msgSize len => m.fieldSize.getD f 0 = x + saveCount (L ++ [op]) f ∧ m.fieldLength.getD f 0 = y + saveLengthSum (L ++ [op]) f ∧ len = m.fieldLength.getD f 0
  | .sendM size len => m.fieldSize.getD f 0 = x + saveCount (L ++ [op]) f ∧ m.fieldLength.getD f 0 = y + saveLengthSum (L ++ [op]) f ∧ len = m.fieldLength.getD f 0 ∧ size = m.fieldSize.getD f 0
  | _ => m.fieldSize.getD f 0 = x + saveCount (L ++ [op]) f ∧ m.fieldLength.getD f 0 = y + saveLengthSum (L ++ [op]) f ∧ MxOk f m mx

theorem dpart_metrics (x y : Int) (f : String) : DPart f (fun L m mx => m.fieldSize.getD f 0 = x + saveCount L f ∧ m.fieldLength.getD f 0 = y + saveLengthSum L f ∧ MxOk f m mx) (AtM x y f) where
  full_same ht hs hx h := by
    refine ⟨?_, ?_, h.2.2.same hs hx⟩
    · simpa only [GoMap.getD, hs.size] using h.1
    · simpa only [GoMap.getD, hs.len] using h.2.1
  at_same {L op m m' mx mx' loc} hf ht hl hs hx h := by
    have e1 : m'.fieldSize.getD f 0 = m.fieldSize.getD f 0 := by simp only [GoMap.getD, hs.size]
    have e2 : m'.fieldLength.getD f 0 = m.fieldLength.getD f 0 := by simp only [GoMap.getD, hs.len]
    have e3 : MxOk f m mx → MxOk f m' mx' := fun h => h.same hs hx
    unfold AtM at h ⊢
    rw [e1, e2]
    split at h <;> first | exact h | exact ⟨h.1, h.2.1, e3 h.2.2⟩
  full_step hc h := ⟨h.1, h.2.1, h.2.2.step hc⟩
  at_step {L op m mx mx' loc} hc h := by
    unfold AtM at h ⊢
    split at h <;> first | exact h | exact ⟨h.1, h.2.1, h.2.2.step hc⟩
  start {L op m mx} hf h := by
    cases op with
    | save => exact h
    | updateIndex d fl =>
      refine ⟨?_, ?_, h.2.2⟩
      · rw [saveCount_snoc L hf]; simpa [StoreOp.isSave] using h.1
      · rw [saveLengthSum_snoc L hf]; simpa [StoreOp.isSave] using h.2.1
  acc {L op m m' mx k l o loc'} hf wf ht hl h he hn := by
    have hd := hl.2
    cases exec_eff he with
    | docFound => exact hd.elim
    | docMissing => exact hd.elim
    | docSet => exact hd.elim
    | docNew => exact hd.elim
    | sizeRead => cases hn; exact ⟨by rw [hf]; exact h.1, h.2.1⟩
    | sizeWrite n =>
      cases hn
      refine ⟨?_, h.2⟩
      rw [saveCount_snoc L hf, if_pos (show op.isSave = true from hd)]
      simp [getD_set, hf, h.1, Int.add_assoc]
    | lenRead => cases hn; exact ⟨h.1, by rw [hf]; exact h.2⟩
    | lenWrite n =>
      cases hn
      refine ⟨h.1, ?_⟩
      rw [saveLengthSum_snoc L hf, if_pos (show op.isSave = true from hd)]
      simp [getD_set, hf, h.2, Int.add_assoc]
    | postEnd r => cases op <;> cases hn; exact h
    | _ => cases hn; exact h
  accReturn {L op m m' mx k l o} hf wf ht hl h he hn := by
    cases exec_eff he with
    | postEnd r => cases op <;> cases hn; exact h
    | _ => cases hn
  msgLen _ h := ⟨h.1, h.2, rfl⟩
  msgSize _ h := ⟨h.1, h.2.1, h.2.2, rfl⟩
  recvM {L op m mx mx' size len} hf hr h := by
    obtain ⟨g1, g2⟩ := recv_get (f := f) hr
    rw [if_pos rfl] at g1
    exact ⟨h.1, h.2.1, .inl (by rw [g1, ← h.2.2.1, ← h.2.2.2])⟩
  sendI _ h := h
  msgN _ h := h
  recvN _ h := h
  docGet _ h := h
  docSet _ h := h
  docPut _ h := h
  recvD _ _ h := h

end CDisk
end Goir
