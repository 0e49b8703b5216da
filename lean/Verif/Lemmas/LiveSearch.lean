import Verif.Model.LiveSearch
import Verif.Lemmas.Search
import Verif.Props.Concurrent
/-! # Lemmas about searches on a store that is being written to -/
namespace Goir
open Spec CMem

theorem GoMap.mem_set {K V : Type} [DecidableEq K] {m : GoMap K V} {k : K} {v : V} {e : K × V} (h : e ∈ m.set k v) : e = (k, v) ∨ e ∈ m := by
  induction m with
  | nil => exact .inl (List.mem_singleton.1 h)
  | cons x m ih =>
    obtain ⟨k', v'⟩ := x
    simp only [GoMap.set] at h
    split at h
    · rcases List.mem_cons.1 h with h | h
      · exact .inl h
      · exact .inr (List.mem_cons_of_mem _ h)
    · rcases List.mem_cons.1 h with h | h
      · exact .inr (by rw [h]; exact List.mem_cons_self)
      · exact (ih h).imp id (List.mem_cons_of_mem _)

theorem collect_sound {l : List (String × Field)} {d : String} {fl : Field} (h : (collectFields l).get? d = some fl) : (d, fl) ∈ l := by
  have : ∀ (l : List (String × Field)) (m : GoMap String Field), (l.foldl (fun m e => m.set e.1 e.2) m).get? d = some fl → (d, fl) ∈ l ∨ m.get? d = some fl := by
    intro l
    induction l with
    | nil => intro m h; exact .inr h
    | cons e l ih =>
      intro m h
      rcases ih _ h with h | h
      · exact .inl (List.mem_cons_of_mem _ h)
      · rw [GoMap.get?_set] at h
        split at h
        · rename_i e'; cases h; rw [← e']; exact .inl List.mem_cons_self
        · exact .inr h
  rcases this l [] h with h | h
  · exact h
  · cases h

theorem collect_complete {l : List (String × Field)} {d : String} {fl : Field} (h : (d, fl) ∈ l) : ∃ fl', (collectFields l).get? d = some fl' := by
  have : ∀ (l : List (String × Field)) (m : GoMap String Field), (d ∈ m.keys ∨ (d, fl) ∈ l) → d ∈ (l.foldl (fun m e => m.set e.1 e.2) m).keys := by
    intro l
    induction l with
    | nil => intro m h; rcases h with h | h; exact h; cases h
    | cons e l ih =>
      intro m h
      refine ih _ ?_
      rw [GoMap.mem_keys_set]
      rcases h with h | h
      · exact .inl (.inr h)
      · rcases List.mem_cons.1 h with h | h
        · left; left; rw [← h]
        · exact .inr h
  exact (GoMap.mem_keys_iff _ _).1 (this l [] (.inr h))

namespace LFan
variable {σ α : Type} {act : σ → GAct α → σ → Prop} {holds fin : σ → Bool}

theorem mem_set' {l : List σ} {i : Nat} {a x : σ} (h : x ∈ l.set i a) : x = a ∨ x ∈ l := by
  rcases List.mem_or_eq_of_mem_set h with h | h
  · exact .inr h
  · exact .inl h

/-- a property of the goroutines and of what they send. -/
theorem step_all {G : σ → Prop} {X : α → Prop} (ha : ∀ g a g', G g → act g a g' → G g' ∧ ∀ x, a = .emit x → X x) {s s' : LFan σ α}
    (hs : Step act holds fin s s') (h : (∀ g ∈ s.gs, G g) ∧ ∀ x ∈ s.chan ++ s.out, X x) : (∀ g ∈ s'.gs, G g) ∧ ∀ x ∈ s'.chan ++ s'.out, X x := by
  have set : ∀ {i : Nat} {g g' : σ} {a : GAct α}, s.gs[i]? = some g → act g a g' → ∀ x ∈ s.gs.set i g', G x := by
    intro i g g' a hi hx x hm
    rcases mem_set' hm with rfl | hm
    · exact (ha _ _ _ (h.1 _ (List.mem_of_getElem? hi)) hx).1
    · exact h.1 x hm
  cases hs with
  | acquire i g g' hi hx _ => exact ⟨set hi hx, h.2⟩
  | look i g g' hi hx => exact ⟨set hi hx, h.2⟩
  | send i g g' x hi hx _ =>
    refine ⟨set hi hx, fun y hy => ?_⟩
    simp only [List.mem_append, List.mem_singleton] at hy
    rcases hy with (hy | rfl) | hy
    · exact h.2 y (List.mem_append_left _ hy)
    · exact (ha _ _ _ (h.1 _ (List.mem_of_getElem? hi)) hx).2 _ rfl
    · exact h.2 y (List.mem_append_right _ hy)
  | handoff i g g' x hi hx _ =>
    refine ⟨set hi hx, fun y hy => ?_⟩
    simp only [List.mem_append, List.mem_singleton] at hy
    rcases hy with hy | hy | rfl
    · exact h.2 y (List.mem_append_left _ hy)
    · exact h.2 y (List.mem_append_right _ hy)
    · exact (ha _ _ _ (h.1 _ (List.mem_of_getElem? hi)) hx).2 _ rfl
  | release i g g' hi hx => exact ⟨set hi hx, h.2⟩
  | close _ _ => exact h
  | recv x q hq =>
    refine ⟨h.1, fun y hy => h.2 y ?_⟩
    rw [hq]
    simp only [List.mem_append, List.mem_cons, List.not_mem_nil, or_false] at hy ⊢
    rcases hy with hy | hy | hy
    · exact .inl (.inr hy)
    · exact .inr hy
    · exact .inl (.inl hy)

/-- something of the kind `D` is still to come, is in the channel, or has been received. -/
def Due (W : σ → Prop) (D : α → Prop) (fin : σ → Bool) (s : LFan σ α) : Prop :=
  ((∃ g ∈ s.gs, W g) ∨ ∃ x ∈ s.chan ++ s.out, D x) ∧ (s.closed = true → ∀ g ∈ s.gs, fin g = true)

theorem step_due {W : σ → Prop} {D : α → Prop} (ha : ∀ g a g', W g → act g a g' → W g' ∨ ∃ x, a = .emit x ∧ D x) (hf : ∀ g a g', fin g = true → ¬ act g a g') {s s' : LFan σ α}
    (hs : Step act holds fin s s') (h : Due W D fin s) : Due W D fin s' := by
  obtain ⟨h, hc⟩ := h
  have ncl : ∀ {i : Nat} {g g' : σ} {a : GAct α}, s.gs[i]? = some g → act g a g' → s.closed = true → False := fun hi hx hcl =>
    hf _ _ _ (hc hcl _ (List.mem_of_getElem? hi)) hx
  -- the goroutine that moves is the one that matters, or another
  have set : ∀ {i : Nat} {g g' : σ} {a : GAct α}, s.gs[i]? = some g → act g a g' → (∃ g ∈ s.gs, W g) →
      (∃ g ∈ s.gs.set i g', W g) ∨ ∃ x, a = .emit x ∧ D x := by
    intro i g g' a hi hx ⟨w, hw, hW⟩
    obtain ⟨j, hj⟩ := List.getElem?_of_mem hw
    by_cases e : i = j
    · subst e
      rw [hi] at hj
      cases hj
      refine (ha _ _ _ hW hx).imp (fun hW' => ⟨g', ?_, hW'⟩) id
      exact List.mem_of_getElem? (i := i) (by rw [List.getElem?_set_self (List.getElem?_eq_some_iff.1 hi).1])
    · exact .inl ⟨w, List.mem_of_getElem? (i := j) (by rw [List.getElem?_set_ne e]; exact hj), hW⟩
  cases hs with
  | acquire i g g' hi hx _ =>
    refine ⟨?_, fun hcl => (ncl hi hx hcl).elim⟩
    rcases h with h | h
    · exact (set hi hx h).imp id (by rintro ⟨x, ⟨⟩, _⟩)
    · exact .inr h
  | look i g g' hi hx =>
    refine ⟨?_, fun hcl => (ncl hi hx hcl).elim⟩
    rcases h with h | h
    · exact (set hi hx h).imp id (by rintro ⟨x, ⟨⟩, _⟩)
    · exact .inr h
  | send i g g' x hi hx _ =>
    refine ⟨?_, fun hcl => (ncl hi hx hcl).elim⟩
    rcases h with h | ⟨y, hy, hD⟩
    · refine (set hi hx h).imp id ?_
      rintro ⟨y, e, hD⟩
      cases e
      exact ⟨x, by simp, hD⟩
    · right
      refine ⟨y, ?_, hD⟩
      simp only [List.mem_append] at hy ⊢
      rcases hy with hy | hy
      · exact .inl (.inl hy)
      · exact .inr hy
  | handoff i g g' x hi hx _ =>
    refine ⟨?_, fun hcl => (ncl hi hx hcl).elim⟩
    rcases h with h | ⟨y, hy, hD⟩
    · refine (set hi hx h).imp id ?_
      rintro ⟨y, e, hD⟩
      cases e
      exact ⟨x, by simp, hD⟩
    · right
      refine ⟨y, ?_, hD⟩
      simp only [List.mem_append] at hy ⊢
      rcases hy with hy | hy
      · exact .inl hy
      · exact .inr (.inl hy)
  | release i g g' hi hx =>
    refine ⟨?_, fun hcl => (ncl hi hx hcl).elim⟩
    rcases h with h | h
    · exact (set hi hx h).imp id (by rintro ⟨x, ⟨⟩, _⟩)
    · exact .inr h
  | close hd _ => exact ⟨h, fun _ => hd⟩
  | recv x q hq =>
    refine ⟨h.imp id ?_, hc⟩
    rintro ⟨y, hy, hD⟩
    refine ⟨y, ?_, hD⟩
    rw [hq] at hy
    simp only [List.mem_append, List.mem_cons, List.not_mem_nil, or_false] at hy ⊢
    rcases hy with (hy | hy) | hy
    · exact .inr (.inr hy)
    · exact .inl hy
    · exact .inr (.inl hy)

theorem due_finished {W : σ → Prop} {D : α → Prop} (hW : ∀ g, fin g = true → ¬ W g) {s : LFan σ α} (h : Due W D fin s) (hf : s.Finished) : ∃ x ∈ s.out, D x := by
  rcases h.1 with ⟨g, hg, w⟩ | ⟨x, hx, hD⟩
  · exact absurd w (hW g (h.2 hf.1 g hg))
  · rw [hf.2] at hx
    exact ⟨x, hx, hD⟩

end LFan

/-! ### what a search finds was saved -/

namespace LSearch

/-- a document that a call posted under one of the terms. -/
def Hit (begun : List StoreOp) (terms : List String) (f : String) (d : String) : Prop := ∃ t ∈ terms, Posted begun f t d

/-- … with a field that a SaveOrUpdate was given. -/
def HitField (begun : List StoreOp) (terms : List String) (f : String) (e : String × Field) : Prop :=
  Hit begun terms f e.1 ∧ e.2.name = f ∧ StoreOp.save e.1 e.2 ∈ begun

theorem Hit.mono {b : List StoreOp} {terms : List String} {f d : String} (x : List StoreOp) (h : Hit b terms f d) : Hit (b ++ x) terms f d := by
  obtain ⟨t, ht, hp⟩ := h
  exact ⟨t, ht, Conc.posted_mono hp⟩

theorem HitField.mono {b : List StoreOp} {terms : List String} {f : String} {e : String × Field} (x : List StoreOp) (h : HitField b terms f e) : HitField (b ++ x) terms f e :=
  ⟨h.1.mono x, h.2.1, List.mem_append_left _ h.2.2⟩

/-- a sound goroutine of a term. -/
def TermOk (b : List StoreOp) (terms : List String) (f : String) : TermG → Prop
  | .waiting t => t ∈ terms
  | .look t => t ∈ terms
  | .look2 t r => t ∈ terms ∧ r.tag = f
  | .iter t sr _ _ => t ∈ terms ∧ sr.tag = (f, t)
  | .sending t sr _ _ id => t ∈ terms ∧ sr.tag = (f, t) ∧ Hit b terms f id
  | .leaving => True
  | .done => True

/-- a sound goroutine of a batch. -/
def BatchOk (b : List StoreOp) (terms : List String) (f : String) : BatchG → Prop
  | .waiting ids => ∀ id ∈ ids, Hit b terms f id
  | .look ids fields => (∀ id ∈ ids, Hit b terms f id) ∧ ∀ e ∈ fields, HitField b terms f e
  | .look2 id r ids fields => r.tag = id ∧ Hit b terms f id ∧ (∀ id ∈ ids, Hit b terms f id) ∧ ∀ e ∈ fields, HitField b terms f e
  | .sending rem => ∀ e ∈ rem, HitField b terms f e
  | .done => True

/-- a sound search. -/
def Sound (b : List StoreOp) (terms : List String) (f : String) : LSearch → Prop
  | .phase1 _ fan => (∀ g ∈ fan.gs, TermOk b terms f g) ∧ ∀ x ∈ fan.chan ++ fan.out, Hit b terms f x
  | .phase2 _ fan => (∀ g ∈ fan.gs, BatchOk b terms f g) ∧ ∀ x ∈ fan.chan ++ fan.out, HitField b terms f x
  | .done _ docs => ∀ d fl, docs.get? d = some fl → HitField b terms f (d, fl)
  | _ => True

theorem TermOk.mono {b : List StoreOp} {terms : List String} {f : String} (x : List StoreOp) {g : TermG} (h : TermOk b terms f g) : TermOk (b ++ x) terms f g := by
  cases g with
  | sending t sr must seen id => exact ⟨h.1, h.2.1, h.2.2.mono x⟩
  | _ => exact h

theorem BatchOk.mono {b : List StoreOp} {terms : List String} {f : String} (x : List StoreOp) {g : BatchG} (h : BatchOk b terms f g) : BatchOk (b ++ x) terms f g := by
  cases g with
  | waiting ids => exact fun id hi => (h id hi).mono x
  | look ids fields => exact ⟨fun id hi => (h.1 id hi).mono x, fun e he => (h.2 e he).mono x⟩
  | look2 id r ids fields => exact ⟨h.1, h.2.1.mono x, fun id hi => (h.2.2.1 id hi).mono x, fun e he => (h.2.2.2 e he).mono x⟩
  | sending rem => exact fun e he => (h e he).mono x
  | done => trivial

theorem Sound.mono {b : List StoreOp} {terms : List String} {f : String} (x : List StoreOp) {q : LSearch} (h : Sound b terms f q) : Sound (b ++ x) terms f q := by
  cases q with
  | phase1 st fan => exact ⟨fun g hg => (h.1 g hg).mono x, fun y hy => (h.2 y hy).mono x⟩
  | phase2 st fan => exact ⟨fun g hg => (h.1 g hg).mono x, fun y hy => (h.2 y hy).mono x⟩
  | done st docs => exact fun d fl e => (h d fl e).mono x
  | _ => trivial

theorem term_ok {b : List StoreOp} {terms : List String} {f : String} {m : CMem} (ht : m.Tags)
    (hm : ∀ sr d, GoSet.contains (m.setCells sr) d = true → Posted b sr.tag.1 sr.tag.2 d) (g : TermG) (a : GAct String) (g' : TermG)
    (h : TermOk b terms f g) (ha : TermG.Act m f g a g') : TermOk b terms f g' ∧ ∀ x, a = .emit x → Hit b terms f x := by
  cases ha with
  | acquire t => exact ⟨h, by rintro x ⟨⟩⟩
  | found t r hr => exact ⟨⟨h, ht.idx _ _ hr⟩, by rintro x ⟨⟩⟩
  | unknown t hr => exact ⟨trivial, by rintro x ⟨⟩⟩
  | found2 t r sr hr => exact ⟨⟨h.1, by rw [ht.set _ _ _ hr, h.2]⟩, by rintro x ⟨⟩⟩
  | unknown2 t r hr => exact ⟨trivial, by rintro x ⟨⟩⟩
  | next t sr must seen id hk hs =>
    refine ⟨⟨h.1, h.2, t, h.1, ?_⟩, by rintro x ⟨⟩⟩
    have := hm sr id ((GoSet.contains_iff_mem_keys _ _).2 hk)
    rwa [h.2] at this
  | send t sr must seen id => exact ⟨⟨h.1, h.2.1⟩, by rintro x ⟨⟩; exact h.2.2⟩
  | end_ t sr must seen hx => exact ⟨trivial, by rintro x ⟨⟩⟩
  | release => exact ⟨trivial, by rintro x ⟨⟩⟩

theorem batch_ok {b : List StoreOp} {terms : List String} {f : String} {m : CMem} (ht : m.Tags) (hm : Conc.Sound b m) (g : BatchG) (a : GAct (String × Field)) (g' : BatchG)
    (h : BatchOk b terms f g) (ha : BatchG.Act m f g a g') : BatchOk b terms f g' ∧ ∀ x, a = .emit x → HitField b terms f x := by
  cases ha with
  | acquire ids => exact ⟨⟨h, by rintro e ⟨⟩⟩, by rintro x ⟨⟩⟩
  | found id ids fields r hr => exact ⟨⟨ht.doc _ _ hr, h.1 _ List.mem_cons_self, fun i hi => h.1 i (List.mem_cons_of_mem _ hi), h.2⟩, by rintro x ⟨⟩⟩
  | unknown id ids fields hr => exact ⟨⟨fun i hi => h.1 i (List.mem_cons_of_mem _ hi), h.2⟩, by rintro x ⟨⟩⟩
  | found2 id r ids fields fl hr =>
    refine ⟨⟨h.2.2.1, fun e he => ?_⟩, by rintro x ⟨⟩⟩
    rcases GoMap.mem_set he with rfl | he
    · obtain ⟨op, ho, hsv, hdoc, hn, hfl⟩ := hm.doc r f fl hr
      rw [h.1] at hdoc
      refine ⟨h.2.1, by rw [← hfl]; exact hn, ?_⟩
      cases op with
      | save d' f' => simp only [StoreOp.doc, StoreOp.field] at hdoc hfl; rwa [hdoc, hfl] at ho
      | updateIndex d' f' => cases hsv
    · exact h.2.2.2 e he
  | unknown2 id r ids fields hr => exact ⟨⟨h.2.2.1, h.2.2.2⟩, by rintro x ⟨⟩⟩
  | range fields rem hp => exact ⟨fun e he => h.2 e (hp.mem_iff.1 he), by rintro x ⟨⟩⟩
  | send e rem => exact ⟨fun e' he => h e' (List.mem_cons_of_mem _ he), by rintro x ⟨⟩; exact h _ List.mem_cons_self⟩
  | release => exact ⟨trivial, by rintro x ⟨⟩⟩

theorem sound_step {b : List StoreOp} {terms : List String} {f : String} {cpus : Nat} {m : CMem} (ht : m.Tags) (hm : Conc.Sound b m) {q q' : LSearch} (h : Sound b terms f q)
    (hs : Step m terms f cpus q q') : Sound b terms f q' := by
  cases hs with
  | begin1 st =>
    refine ⟨?_, by simp⟩
    intro g hg
    obtain ⟨t, ht, rfl⟩ := List.mem_map.1 hg
    exact ht
  | p1 st s s' hx => exact LFan.step_all (term_ok ht hm.set) hx h
  | begin2 st s hf =>
    refine ⟨?_, by simp⟩
    intro g hg
    obtain ⟨ids, hb, rfl⟩ := List.mem_map.1 hg
    intro id hid
    exact h.2 id (List.mem_append_right _ ((mem_makeBatches _ _).1 ⟨ids, hb, hid⟩))
  | p2 st s s' hx => exact LFan.step_all (batch_ok ht hm) hx h
  | finish st s hf => exact fun d fl e => h.2 _ (List.mem_append_right _ (collect_sound e))
  | _ => trivial

end LSearch

/-! ### what was there stays there -/

namespace Conc

/-- the posting of `d` under `t` in `f`, through the references `r` and `sr`, and no client is about to replace one of them. -/
structure KeepPost (f t d : String) (r : Ref String) (sr : Ref (String × String)) (s : Conc) : Prop where
  lt : sr.n < s.mem.next
  idx : s.mem.index.get? f = some r
  set : (s.mem.idxCells r).get? t = some sr
  mem : GoSet.contains (s.mem.setCells sr) d = true
  idxNew : ∀ cl ∈ s.clients, ∀ op, cl.cur = some (op, .idxNew) → op.field.name ≠ f
  postNew : ∀ cl ∈ s.clients, ∀ op r' key ts, cl.cur = some (op, .postNew r' key ts) → ¬ (r' = r ∧ key = t)

theorem keepPost_exec {f t d : String} {r : Ref String} {sr : Ref (String × String)} {m m' : CMem} {op : StoreOp} {k : Nat} {loc : Loc} {o : Option Loc} (ht : m.Tags)
    (h0 : sr.n < m.next) (h1 : m.index.get? f = some r) (h2 : (m.idxCells r).get? t = some sr) (h3 : GoSet.contains (m.setCells sr) d = true)
    (h4 : loc = .idxNew → op.field.name ≠ f) (h5 : ∀ r' key ts, loc = .postNew r' key ts → ¬ (r' = r ∧ key = t)) (he : exec m op k loc = some (m', o)) :
    sr.n < m'.next ∧ m'.index.get? f = some r ∧ (m'.idxCells r).get? t = some sr ∧ GoSet.contains (m'.setCells sr) d = true ∧ (o = some .idxNew → op.field.name ≠ f) ∧
    ∀ r' key ts, o = some (.postNew r' key ts) → ¬ (r' = r ∧ key = t) := by
  have hrt : r.tag = f := ht.idx _ _ h1
  cases exec_eff he with
  | idxMissing h =>
    refine ⟨h0, h1, h2, h3, ?_, by rintro r' key ts ⟨⟩⟩
    rintro - rfl
    rw [h1] at h; cases h
  | idxNew =>
    have hne := h4 rfl
    refine ⟨Nat.lt_succ_of_lt h0, by simp only [GoMap.get?_set_ne _ _ hne]; exact h1, ?_, h3, by rintro ⟨⟩, by rintro r' key ts ⟨⟩⟩
    show GoMap.get? (Ref.upd _ _ _ r) t = _
    rw [Ref.upd_tag _ _ (by rw [hrt]; exact Ne.symm hne)]
    exact h2
  | postMissing r' ts key ts' hp h =>
    refine ⟨h0, h1, h2, h3, by rintro ⟨⟩, ?_⟩
    rintro r'' key' ts'' ⟨⟩ ⟨rfl, rfl⟩
    rw [h2] at h; cases h
  | postNew r' key ts =>
    have hne := h5 _ _ _ rfl
    refine ⟨Nat.lt_succ_of_lt h0, h1, ?_, ?_, by rintro ⟨⟩, by rintro r' key ts ⟨⟩⟩
    · show GoMap.get? (Ref.upd _ _ _ r) t = _
      by_cases e : r = r'
      · subst e
        rw [Ref.upd_self, GoMap.get?_set_ne _ _ (fun e => hne ⟨rfl, e⟩)]
        exact h2
      · rw [Ref.upd_ne _ _ e]; exact h2
    · show GoSet.contains (Ref.upd _ _ _ sr) d = true
      by_cases e : sr = ⟨(op.field.name, key), m.next⟩
      · rw [e] at h0; exact absurd h0 (Nat.lt_irrefl _)
      · rw [Ref.upd_ne _ _ e]; exact h3
  | postAdd r' key sr' ts =>
    refine ⟨h0, h1, h2, ?_, by rintro ⟨⟩, by rintro r' key ts ⟨⟩⟩
    show GoSet.contains (Ref.upd _ _ _ sr) d = true
    simp only [Ref.upd]
    split
    · rename_i e; rw [← e]; simp [h3]
    · exact h3
  | postEnd r' => exact ⟨h0, h1, h2, h3, by cases op <;> rintro ⟨⟩, by cases op <;> rintro r' key ts ⟨⟩⟩
  | docNew => exact ⟨Nat.lt_succ_of_lt h0, h1, h2, h3, by rintro ⟨⟩, by rintro r' key ts ⟨⟩⟩
  | nftMissing h => exact ⟨Nat.lt_succ_of_lt h0, h1, h2, h3, by rintro ⟨⟩, by rintro r' key ts ⟨⟩⟩
  | _ => exact ⟨h0, h1, h2, h3, by rintro ⟨⟩, by rintro r' key ts ⟨⟩⟩

theorem keepPost_step {f t d : String} {r : Ref String} {sr : Ref (String × String)} {s s' : Conc} {i k : Nat} (hok : Ok s) (h : KeepPost f t d r sr s) (hs : Step s i k s') :
    KeepPost f t d r sr s' := by
  cases hs with
  | @begin_ cl op rest hi hc htd =>
    refine ⟨h.lt, h.idx, h.set, h.mem, ?_, ?_⟩
    · intro c hc op' e
      rcases Conc.mem_set hc with rfl | hc
      · cases op <;> cases e
      · exact h.idxNew c hc op' e
    · intro c hc op' r' key ts e
      rcases Conc.mem_set hc with rfl | hc
      · cases op <;> cases e
      · exact h.postNew c hc op' _ _ _ e
  | @access cl op loc loc' m hi hc he =>
    have hm := List.mem_of_getElem? hi
    obtain ⟨a0, a1, a2, a3, a4, a5⟩ := keepPost_exec hok.tags h.lt h.idx h.set h.mem (fun e => h.idxNew cl hm op (by rw [hc, e])) (fun r' key ts e => h.postNew cl hm op r' key ts (by rw [hc, e])) he
    refine ⟨a0, a1, a2, a3, ?_, ?_⟩
    · intro c hc op' e
      rcases Conc.mem_set hc with rfl | hc
      · cases e; exact a4 rfl
      · exact h.idxNew c hc op' e
    · intro c hc op' r' key ts e
      rcases Conc.mem_set hc with rfl | hc
      · cases e; exact a5 _ _ _ rfl
      · exact h.postNew c hc op' _ _ _ e
  | @return_ cl op loc m hi hc he =>
    have hm := List.mem_of_getElem? hi
    obtain ⟨a0, a1, a2, a3, a4, a5⟩ := keepPost_exec hok.tags h.lt h.idx h.set h.mem (fun e => h.idxNew cl hm op (by rw [hc, e])) (fun r' key ts e => h.postNew cl hm op r' key ts (by rw [hc, e])) he
    refine ⟨a0, a1, a2, a3, ?_, ?_⟩
    · intro c hc op' e
      rcases Conc.mem_set hc with rfl | hc
      · cases e
      · exact h.idxNew c hc op' e
    · intro c hc op' r' key ts e
      rcases Conc.mem_set hc with rfl | hc
      · cases e
      · exact h.postNew c hc op' _ _ _ e

/-- the references in use were allocated. -/
def Alloc (m : CMem) : Prop := ∀ r t sr, (m.idxCells r).get? t = some sr → sr.n < m.next

theorem alloc_exec {m m' : CMem} {op : StoreOp} {k : Nat} {loc : Loc} {o : Option Loc} (h : Alloc m) (he : exec m op k loc = some (m', o)) : Alloc m' := by
  cases exec_eff he with
  | docNew => exact fun r t sr e => Nat.lt_succ_of_lt (h r t sr e)
  | nftMissing _ => exact fun r t sr e => Nat.lt_succ_of_lt (h r t sr e)
  | idxNew =>
    intro r t sr e
    simp only [Ref.upd] at e
    split at e
    · cases e
    · exact Nat.lt_succ_of_lt (h r t sr e)
  | postNew r' key ts =>
    intro r t sr e
    simp only [Ref.upd] at e
    split at e
    · rw [GoMap.get?_set] at e
      split at e
      · cases e; exact Nat.lt_succ_self _
      · exact Nat.lt_succ_of_lt (h _ t sr e)
    · exact Nat.lt_succ_of_lt (h r t sr e)
  | _ => exact h

theorem alloc_run {progs : List (List StoreOp)} {s : Conc} {sched : List (Nat × Nat)} (h : (init progs).run sched = some s) : Alloc s.mem := by
  refine inv_run (P := fun s => Alloc s.mem) ?_ (by intro r t sr e; cases e) h
  intro s i k s' hp hs
  cases hs with
  | begin_ hi hc ht => exact hp
  | access hi hc he => exact alloc_exec hp he
  | return_ hi hc he => exact alloc_exec hp he

/-- the calls in progress at `s₀`, and those begun later. -/
def Since (s₀ s : Conc) (op : StoreOp) : Prop := (∃ cl ∈ s₀.clients, ∃ loc, cl.cur = some (op, loc)) ∨ op ∈ s.begun.drop s₀.begun.length

/-- the field `f` of the document `d`, through the reference `r`; no client is about to replace it; and what is there is `old` or was saved since. -/
structure KeepDoc (s₀ : Conc) (d f : String) (old : Field) (r : Ref String) (s : Conc) : Prop where
  le : s₀.begun.length ≤ s.begun.length
  doc : s.mem.fieldDocument.get? d = some r
  field : ∃ fl, (s.mem.docCells r).get? f = some fl ∧ (fl = old ∨ (Since s₀ s (.save d fl) ∧ fl.name = f))
  docNew : ∀ cl ∈ s.clients, ∀ op, cl.cur = some (op, .docNew) → op.doc ≠ d
  since : ∀ cl ∈ s.clients, ∀ op loc, cl.cur = some (op, loc) → Since s₀ s op

theorem keepDoc_step {s₀ : Conc} {d f : String} {old : Field} {r : Ref String} {s s' : Conc} {i k : Nat} (hok : Ok s) (h : KeepDoc s₀ d f old r s) (hs : Step s i k s') :
    KeepDoc s₀ d f old r s' := by
  have exe : ∀ {op : StoreOp} {loc : Loc} {m' : CMem} {o : Option Loc}, LocOk op loc → Since s₀ s op → (loc = .docNew → op.doc ≠ d) → exec s.mem op k loc = some (m', o) →
      m'.fieldDocument.get? d = some r ∧ (∃ fl, (m'.docCells r).get? f = some fl ∧ (fl = old ∨ (Since s₀ s (.save d fl) ∧ fl.name = f))) ∧ (o = some .docNew → op.doc ≠ d) := by
    intro op loc m' o hl hsi hn he
    have hrt : r.tag = d := hok.tags.doc _ _ h.doc
    cases exec_eff he with
    | docMissing hd =>
      refine ⟨h.doc, h.field, ?_⟩
      rintro - rfl
      rw [h.doc] at hd; cases hd
    | docSet r' =>
      refine ⟨h.doc, ?_, by rintro ⟨⟩⟩
      show ∃ fl, GoMap.get? (Ref.upd _ _ _ r) f = some fl ∧ _
      by_cases e : r = r'
      · subst e
        rw [Ref.upd_self]
        rw [GoMap.get?_set]
        split
        · rename_i e
          have hdoc : op.doc = d := by rw [← hl.2, hrt]
          cases op with
          | save d' fl => exact ⟨fl, rfl, .inr ⟨by cases hdoc; exact hsi, e⟩⟩
          | updateIndex d' fl => cases hl.1
        · exact h.field
      · rw [Ref.upd_ne _ _ e]; exact h.field
    | docNew =>
      have hne := hn rfl
      refine ⟨by simp only [GoMap.get?_set_ne _ _ hne]; exact h.doc, ?_, by rintro ⟨⟩⟩
      show ∃ fl, GoMap.get? (Ref.upd _ _ _ r) f = some fl ∧ _
      rw [Ref.upd_tag _ _ (by rw [hrt]; exact Ne.symm hne)]
      exact h.field
    | postEnd r' => exact ⟨h.doc, h.field, by cases op <;> rintro ⟨⟩⟩
    | _ => exact ⟨h.doc, h.field, by rintro ⟨⟩⟩
  cases hs with
  | @begin_ cl op rest hi hc htd =>
    have mono : ∀ {op'}, Since s₀ s op' → Since s₀ { s with clients := s.clients.set i { todo := rest, cur := some (op, CMem.start op) }, begun := s.begun ++ [op] } op' := by
      intro op' hx
      refine hx.imp id fun hx => ?_
      show op' ∈ (s.begun ++ [op]).drop _
      rw [List.drop_append_of_le_length h.le]
      exact List.mem_append_left _ hx
    obtain ⟨fl, h1, h2⟩ := h.field
    refine ⟨?_, h.doc, ⟨fl, h1, h2.imp id fun h => ⟨mono h.1, h.2⟩⟩, ?_, ?_⟩
    · show _ ≤ (s.begun ++ [op]).length
      rw [List.length_append]; exact Nat.le_trans h.le (Nat.le_add_right _ _)
    · intro c hc op' e
      rcases Conc.mem_set hc with rfl | hc
      · cases op <;> cases e
      · exact h.docNew c hc op' e
    · intro c hc op' loc e
      rcases Conc.mem_set hc with rfl | hc
      · cases e
        right
        show op ∈ (s.begun ++ [op]).drop _
        rw [List.drop_append_of_le_length h.le]
        simp
      · exact mono (h.since c hc op' loc e)
  | @access cl op loc loc' m hi hc he =>
    have hm := List.mem_of_getElem? hi
    obtain ⟨a1, a2, a3⟩ := exe (hok.cur _ hm _ _ hc).1 (h.since _ hm _ _ hc) (fun e => h.docNew cl hm op (by rw [hc, e])) he
    refine ⟨h.le, a1, a2, ?_, ?_⟩
    · intro c hc op' e
      rcases Conc.mem_set hc with rfl | hc
      · cases e; exact a3 rfl
      · exact h.docNew c hc op' e
    · intro c hc' op' l e
      rcases Conc.mem_set hc' with rfl | hc'
      · cases e; exact h.since _ hm _ _ hc
      · exact h.since c hc' op' l e
  | @return_ cl op loc m hi hc he =>
    have hm := List.mem_of_getElem? hi
    obtain ⟨a1, a2, a3⟩ := exe (hok.cur _ hm _ _ hc).1 (h.since _ hm _ _ hc) (fun e => h.docNew cl hm op (by rw [hc, e])) he
    refine ⟨h.le, a1, a2, ?_, ?_⟩
    · intro c hc op' e
      rcases Conc.mem_set hc with rfl | hc
      · cases e
      · exact h.docNew c hc op' e
    · intro c hc' op' l e
      rcases Conc.mem_set hc' with rfl | hc'
      · cases e
      · exact h.since c hc' op' l e

end Conc

/-! ### what is there is found -/

namespace LSearch
open Conc

/-- the goroutine of a term that has yet to send `d`. -/
def TermDue (t d : String) (r : Ref String) (sr : Ref (String × String)) : TermG → Prop
  | .waiting t' => t' = t
  | .look t' => t' = t
  | .look2 t' r' => t' = t ∧ r' = r
  | .iter _ _ must seen => d ∈ must ∧ d ∉ seen
  | .sending _ _ must seen _ => d ∈ must ∧ d ∉ seen
  | .leaving => False
  | .done => False

theorem term_due {f t d : String} {r : Ref String} {sr : Ref (String × String)} {m : CMem} (h1 : m.index.get? f = some r) (h2 : (m.idxCells r).get? t = some sr)
    (h3 : GoSet.contains (m.setCells sr) d = true) (g : TermG) (a : GAct String) (g' : TermG)
    (hg : TermDue t d r sr g) (ha : TermG.Act m f g a g') : TermDue t d r sr g' ∨ ∃ x, a = .emit x ∧ x = d := by
  cases ha with
  | acquire t' => exact .inl hg
  | found t' r' hr => rw [h1] at hr; cases hr; exact .inl ⟨hg, rfl⟩
  | unknown t' hr => rw [h1] at hr; cases hr
  | found2 t' r' sr' hr =>
    obtain ⟨rfl, rfl⟩ := hg
    rw [h2] at hr; cases hr
    exact .inl ⟨(GoSet.contains_iff_mem_keys _ _).1 h3, by simp⟩
  | unknown2 t' r' hr =>
    obtain ⟨rfl, rfl⟩ := hg
    rw [h2] at hr; cases hr
  | next t' sr' must seen id hk hs => exact .inl hg
  | send t' sr' must seen id =>
    by_cases e : id = d
    · exact .inr ⟨id, rfl, e⟩
    · refine .inl ⟨hg.1, fun hx => ?_⟩
      rcases List.mem_cons.1 hx with hx | hx
      · exact e hx.symm
      · exact hg.2 hx
  | end_ t' sr' must seen hx => exact absurd (hx d hg.1) hg.2
  | release => exact hg.elim

/-- the goroutine of a batch that has yet to send a field of `d`. -/
def BatchDue (d : String) (r : Ref String) : BatchG → Prop
  | .waiting ids => d ∈ ids
  | .look ids fields => d ∈ ids ∨ ∃ fl, (d, fl) ∈ fields
  | .look2 id r' ids fields => (id = d ∧ r' = r) ∨ d ∈ ids ∨ ∃ fl, (d, fl) ∈ fields
  | .sending rem => ∃ fl, (d, fl) ∈ rem
  | .done => False

theorem mem_set_keys {m : GoMap String Field} {k d : String} {v : Field} (h : ∃ fl, (d, fl) ∈ m) : ∃ fl, (d, fl) ∈ m.set k v := by
  obtain ⟨fl, h⟩ := h
  have : d ∈ (m.set k v).keys := (GoMap.mem_keys_set _ _ _ _).2 (.inr (List.mem_map.2 ⟨_, h, rfl⟩))
  obtain ⟨e, he, hd⟩ := List.mem_map.1 this
  exact ⟨e.2, by rw [← hd]; exact he⟩

theorem batch_due {s₀ : Conc} {d f : String} {old : Field} {r : Ref String} {s : Conc} (h : KeepDoc s₀ d f old r s) (g : BatchG) (a : GAct (String × Field)) (g' : BatchG)
    (hg : BatchDue d r g) (ha : BatchG.Act s.mem f g a g') : BatchDue d r g' ∨ ∃ x, a = .emit x ∧ x.1 = d := by
  cases ha with
  | acquire ids => exact .inl (.inl hg)
  | found id ids fields r' hr =>
    left
    rcases hg with hg | hg
    · rcases List.mem_cons.1 hg with rfl | hg
      · rw [h.doc] at hr; cases hr; exact .inl ⟨rfl, rfl⟩
      · exact .inr (.inl hg)
    · exact .inr (.inr hg)
  | unknown id ids fields hr =>
    left
    rcases hg with hg | hg
    · rcases List.mem_cons.1 hg with rfl | hg
      · rw [h.doc] at hr; cases hr
      · exact .inl hg
    · exact .inr hg
  | found2 id r' ids fields fl hr =>
    left
    rcases hg with ⟨rfl, rfl⟩ | hg | hg
    · right; exact ⟨fl, GoMap.mem_of_get? (GoMap.get?_set_self _ _ _)⟩
    · exact .inl hg
    · exact .inr (mem_set_keys hg)
  | unknown2 id r' ids fields hr =>
    left
    rcases hg with ⟨rfl, rfl⟩ | hg | hg
    · obtain ⟨fl, h1, -⟩ := h.field
      rw [h1] at hr; cases hr
    · exact .inl hg
    · exact .inr hg
  | range fields rem hp =>
    left
    rcases hg with hg | ⟨fl, hg⟩
    · cases hg
    · exact ⟨fl, hp.mem_iff.2 hg⟩
  | send e rem =>
    obtain ⟨fl, hg⟩ := hg
    rcases List.mem_cons.1 hg with rfl | hg
    · exact .inr ⟨_, rfl, rfl⟩
    · exact .inl ⟨fl, hg⟩
  | release => obtain ⟨fl, hg⟩ := hg; cases hg

/-- what a batch has of `d` is `old` or was saved since. -/
def BatchFresh (d : String) (r : Ref String) (P : Field → Prop) : BatchG → Prop
  | .waiting _ => True
  | .look _ fields => ∀ fl, (d, fl) ∈ fields → P fl
  | .look2 id r' _ fields => (id = d → r' = r) ∧ ∀ fl, (d, fl) ∈ fields → P fl
  | .sending rem => ∀ fl, (d, fl) ∈ rem → P fl
  | .done => True

theorem batch_fresh {s₀ : Conc} {d f : String} {old : Field} {r : Ref String} {s : Conc} (h : KeepDoc s₀ d f old r s) {P : Field → Prop}
    (hP : ∀ fl, fl = old ∨ (Since s₀ s (.save d fl) ∧ fl.name = f) → P fl) (g : BatchG) (a : GAct (String × Field)) (g' : BatchG)
    (hg : BatchFresh d r P g) (ha : BatchG.Act s.mem f g a g') : BatchFresh d r P g' ∧ ∀ x, a = .emit x → x.1 = d → P x.2 := by
  cases ha with
  | acquire ids => exact ⟨by rintro fl ⟨⟩, by rintro x ⟨⟩⟩
  | found id ids fields r' hr => exact ⟨⟨by rintro rfl; rw [h.doc] at hr; cases hr; rfl, hg⟩, by rintro x ⟨⟩⟩
  | unknown id ids fields hr => exact ⟨hg, by rintro x ⟨⟩⟩
  | found2 id r' ids fields fl hr =>
    refine ⟨fun fl' hx => ?_, by rintro x ⟨⟩⟩
    rcases GoMap.mem_set hx with hx | hx
    · cases hx
      obtain ⟨fl'', h1, h2⟩ := h.field
      rw [hg.1 rfl, h1] at hr; cases hr
      exact hP _ h2
    · exact hg.2 fl' hx
  | unknown2 id r' ids fields hr => exact ⟨hg.2, by rintro x ⟨⟩⟩
  | range fields rem hp => exact ⟨fun fl hx => hg fl (hp.mem_iff.1 hx), by rintro x ⟨⟩⟩
  | send e rem =>
    refine ⟨fun fl hx => hg fl (List.mem_cons_of_mem _ hx), ?_⟩
    rintro x ⟨⟩ hd
    exact hg _ (by rw [← hd]; exact List.mem_cons_self)
  | release => exact ⟨trivial, by rintro x ⟨⟩⟩

end LSearch
end Goir
