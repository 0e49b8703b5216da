import Verif.Props.LiveSearchRest
/-!
# C87: the numbers that a search during saves reads
-/
namespace Goir
open Spec CMem Conc

namespace Conc

/-- the owner of a part of the store is inside a call on it, or not. -/
theorem part_cases {mine : StoreOp → Bool} {Same : CMem → CMem → Prop} {full : List StoreOp → CMem → Prop} {at_ : List StoreOp → StoreOp → CMem → Loc → Prop}
    (hp : Part mine Same full at_) {progs : List (List StoreOp)} {c : Nat} (hc : c < progs.length) (ho : Only c mine progs) (wf : ∀ p ∈ progs, ∀ op ∈ p, op.field.tf.WF)
    {s : Conc} {sched : List (Nat × Nat)} (h : (Conc.init progs).run sched = some s) :
    (s.returned.filter mine = s.begun.filter mine ∧ full (s.begun.filter mine) s.mem) ∨
    ∃ op loc, mine op = true ∧ LocOk op loc ∧ s.begun.filter mine = s.returned.filter mine ++ [op] ∧ at_ (s.returned.filter mine) op s.mem loc := by
  obtain ⟨-, hmine⟩ := part_inv hp ho wf h
  have hlt : c < s.clients.length := by rw [clients_length h]; exact hc
  obtain ⟨hin, hout⟩ := hmine _ (List.getElem?_eq_getElem hlt)
  by_cases hx : ∀ op loc, s.clients[c].cur = some (op, loc) → mine op = false
  · exact .inl (hout hx)
  · have ⟨op, loc, e, hm⟩ : ∃ op loc, s.clients[c].cur = some (op, loc) ∧ mine op = true := by
      apply Classical.byContradiction
      intro hn
      refine hx fun op loc e => ?_
      cases hb : mine op with
      | false => rfl
      | true => exact absurd ⟨op, loc, e, hb⟩ hn
    exact .inr ⟨op, loc, hm, ((sound_run h).1.cur _ (List.getElem_mem hlt) _ _ e).1, (hin op loc e hm).1, (hin op loc e hm).2⟩

section
variable {progs : List (List StoreOp)} (wf : ∀ p ∈ progs, ∀ op ∈ p, op.field.tf.WF) {f : String} {c : Nat} (hc : c < progs.length)
  (own : ∀ (j : Nat) (p : List StoreOp), progs[j]? = some p → j ≠ c → ∀ op ∈ p, op.field.name ≠ f) {s : Conc} {sched : List (Nat × Nat)} (h : (Conc.init progs).run sched = some s)
include wf hc own h

/-- the size of a field with one writer, at any moment. -/
theorem own_size : callCount s.returned f ≤ s.mem.fieldSize.getD f 0 ∧ s.mem.fieldSize.getD f 0 ≤ callCount s.begun f := by
  have only : Only c (onField f) progs := fun j p hj hjc op hop => decide_eq_false (own j p hj hjc op hop)
  rw [← (counts_filter s.returned f "").1, ← (counts_filter s.begun f "").1]
  rcases part_cases (part_size f) hc only wf h with ⟨e, h1⟩ | ⟨op, loc, hm, -, e, h1, -⟩
  · rw [e, h1]; exact ⟨Int.le_refl _, Int.le_refl _⟩
  · have hf : op.field.name = f := of_decide_eq_true hm
    rw [e, callCount_snoc _ hf, h1]
    push_cast
    split <;> omega

/-- its length. -/
theorem own_len (hl : ∀ p ∈ progs, ∀ op ∈ p, 0 ≤ op.field.length) : lengthSum s.returned f ≤ s.mem.fieldLength.getD f 0 ∧ s.mem.fieldLength.getD f 0 ≤ lengthSum s.begun f := by
  have only : Only c (onField f) progs := fun j p hj hjc op hop => decide_eq_false (own j p hj hjc op hop)
  have hb : ∀ op ∈ s.begun, 0 ≤ op.field.length := begun_of_progs hl h
  rw [← (counts_filter s.returned f "").2.1, ← (counts_filter s.begun f "").2.1]
  rcases part_cases (part_len f) hc only wf h with ⟨e, h1⟩ | ⟨op, loc, hm, -, e, h1, -⟩
  · rw [e, h1]; exact ⟨Int.le_refl _, Int.le_refl _⟩
  · have hf : op.field.name = f := of_decide_eq_true hm
    have hop : 0 ≤ op.field.length := hb op (List.mem_filter.1 (by rw [e]; simp : op ∈ s.begun.filter (onField f))).1
    rw [e, lengthSum_snoc _ hf, h1]
    split <;> omega

end

/-- which frequencies the owner of a field works on. -/
def AtNft (f : String) (L : List StoreOp) (op : StoreOp) (m : CMem) : Loc → Prop
  | .term r _ => m.numberFieldTerm.get? f = some r ∨ (m.numberFieldTerm.get? f = none ∧ ∀ t, termCount L f t = 0)
  | .termWrite r _ _ _ => m.numberFieldTerm.get? f = some r ∨ (m.numberFieldTerm.get? f = none ∧ ∀ t, termCount L f t = 0)
  | .nftStore r => m.numberFieldTerm.get? f = some r ∨ (m.numberFieldTerm.get? f = none ∧ ∀ t, termCount L f t = 0)
  | _ => True

theorem part_nft (f : String) : Part (onField f) (SameField f) (fun L m => ∀ t, m.df f t = termCount L f t) (fun L op m loc => AtDf f L op m loc ∧ AtNft f L op m loc) := by
  have hd := part_df f
  refine ⟨sameField_of, hd.full_same, ?_, hd.init, ?_, ?_, ?_⟩
  · intro L op m m' loc hm ht hl hs h
    refine ⟨hd.at_same L op m m' loc hm ht hl hs h.1, ?_⟩
    have := h.2
    cases loc <;> first | trivial | (simp only [AtNft, hs.nft]; exact this)
  · intro L op m hm h
    exact ⟨hd.start L op m hm h, by cases op <;> trivial⟩
  · intro L op m m' k loc loc' hm wf ht hl h he
    refine ⟨hd.access L op m m' k loc loc' hm wf ht hl h.1 he, ?_⟩
    have hf : op.field.name = f := of_decide_eq_true hm
    have h2 := h.2
    have h1 := h.1
    generalize hx : some loc' = o at he
    cases exec_eff he with
    | postEnd r => cases op <;> cases hx; trivial
    | nftFound r hr => cases hx; rw [hf] at hr; exact .inl hr
    | nftMissing hr =>
      cases hx
      rw [hf] at hr
      refine .inr ⟨hr, fun t => ?_⟩
      have := h1 t
      simp only [CMem.df, hr, Option.map_none, Option.getD_none] at this
      exact Int.ofNat.inj this.symm
    | termEnd r => cases hx; exact h2
    | termRead r ts key ts' hp => cases hx; exact h2
    | termWrite r key n ts => cases hx; exact h2
    | nftStore r => cases hx
    | _ => cases hx; trivial
  · intro L op m m' k loc hm wf ht hl h he
    exact hd.return_ L op m m' k loc hm wf ht hl h.1 he

section
variable {progs : List (List StoreOp)} (wf : ∀ p ∈ progs, ∀ op ∈ p, op.field.tf.WF) {f : String} {c : Nat} (hc : c < progs.length)
  (own : ∀ (j : Nat) (p : List StoreOp), progs[j]? = some p → j ≠ c → ∀ op ∈ p, op.field.name ≠ f) {s : Conc} {sched : List (Nat × Nat)} (h : (Conc.init progs).run sched = some s)
include wf hc own h

/-- the document frequencies of a field with one writer, at any moment. -/
theorem own_df (t : String) : (∀ r, s.mem.numberFieldTerm.get? f = some r → termCount s.returned f t ≤ (s.mem.nftCells r).getD t 0 ∧ (s.mem.nftCells r).getD t 0 ≤ termCount s.begun f t) ∧
    (s.mem.numberFieldTerm.get? f = none → termCount s.returned f t = 0) := by
  have only : Only c (onField f) progs := fun j p hj hjc op hop => decide_eq_false (own j p hj hjc op hop)
  rw [← (counts_filter s.returned f t).2.2, ← (counts_filter s.begun f t).2.2]
  -- from what GetNumberFieldTerm would answer
  have of_df : ∀ (L : List StoreOp) (L' : List StoreOp), (∀ t, s.mem.df f t = termCount L f t) → (termCount L f t ≤ termCount L' f t) →
      (∀ r, s.mem.numberFieldTerm.get? f = some r → (termCount L f t : Int) ≤ (s.mem.nftCells r).getD t 0 ∧ (s.mem.nftCells r).getD t 0 ≤ termCount L' f t) ∧
      (s.mem.numberFieldTerm.get? f = none → termCount L f t = 0) := by
    intro L L' hx hle
    have := hx t
    refine ⟨fun r hr => ?_, fun hr => ?_⟩
    · simp only [CMem.df, hr, Option.map_some, Option.getD_some] at this
      rw [this]; exact ⟨Int.le_refl _, by exact_mod_cast hle⟩
    · simp only [CMem.df, hr, Option.map_none, Option.getD_none] at this
      exact Int.ofNat.inj this.symm
  rcases part_cases (part_nft f) hc only wf h with ⟨e, h1⟩ | ⟨op, loc, hm, hl, e, h1, h2⟩
  · rw [e]; exact of_df _ _ h1 (Nat.le_refl _)
  · have hf : op.field.name = f := of_decide_eq_true hm
    have hle : termCount (s.returned.filter (onField f)) f t ≤ termCount (s.returned.filter (onField f) ++ [op]) f t := by
      have := termCount_snoc (s.returned.filter (onField f)) t hf
      split at this <;> omega
    rw [e]
    have work : ∀ (r : Ref String) (v : Int), (s.mem.numberFieldTerm.get? f = some r ∨ (s.mem.numberFieldTerm.get? f = none ∧ ∀ t, termCount (s.returned.filter (onField f)) f t = 0)) →
        (s.mem.nftCells r).getD t 0 = v → (termCount (s.returned.filter (onField f)) f t : Int) ≤ v → v ≤ termCount (s.returned.filter (onField f) ++ [op]) f t →
        (∀ r, s.mem.numberFieldTerm.get? f = some r → (termCount (s.returned.filter (onField f)) f t : Int) ≤ (s.mem.nftCells r).getD t 0 ∧
          (s.mem.nftCells r).getD t 0 ≤ termCount (s.returned.filter (onField f) ++ [op]) f t) ∧
        (s.mem.numberFieldTerm.get? f = none → termCount (s.returned.filter (onField f)) f t = 0) := by
      intro r v hr hv h1 h2
      rcases hr with hr | ⟨hr, hz⟩
      · refine ⟨fun r' hr' => ?_, fun hn => ?_⟩
        · rw [hr] at hr'; cases hr'; rw [hv]; exact ⟨h1, h2⟩
        · rw [hr] at hn; cases hn
      · refine ⟨fun r' hr' => ?_, fun _ => hz t⟩
        rw [hr] at hr'; cases hr'
    have isSave : op.isSave = true → t ∈ op.field.tf.keys → (termCount (s.returned.filter (onField f) ++ [op]) f t : Int) = termCount (s.returned.filter (onField f)) f t + 1 := by
      intro h1 h2
      have := termCount_snoc (s.returned.filter (onField f)) t hf
      rw [if_pos ⟨h1, h2⟩] at this
      exact this
    cases loc with
    | term r ts =>
      refine work r _ h2 (h1 t) (by split <;> omega) ?_
      split
      · rename_i hx; rw [isSave hl.1 hx.1]
      · rw [Int.add_zero]; exact_mod_cast hle
    | termWrite r key n ts =>
      refine work r _ h2 (h1.2 t) (by split <;> omega) ?_
      split
      · rename_i hx; rw [isSave hl.1 hx.1]
      · rw [Int.add_zero]; exact_mod_cast hle
    | nftStore r =>
      exact work r _ h2 (h1 t) (by exact_mod_cast hle) (Int.le_refl _)
    | _ => exact of_df _ _ h1 hle

/-- … stay where they are. -/
theorem own_nft {i k : Nat} {s' : Conc} (hs : Step s i k s') {r : Ref String} (hr : s.mem.numberFieldTerm.get? f = some r) : s'.mem.numberFieldTerm.get? f = some r := by
  have only : Only c (onField f) progs := fun j p hj hjc op hop => decide_eq_false (own j p hj hjc op hop)
  obtain ⟨hoth, hmine⟩ := part_inv (part_nft f) only wf h
  have exe : ∀ {cl : CClient} {op : StoreOp} {loc : Loc} {m : CMem} {o : Option Loc}, s.clients[i]? = some cl → cl.cur = some (op, loc) → exec s.mem op k loc = some (m, o) →
      m.numberFieldTerm.get? f = some r := by
    intro cl op loc m o hi hcur he
    cases exec_eff he with
    | nftStore r' =>
      show (s.mem.numberFieldTerm.set _ _).get? f = _
      rw [GoMap.get?_set]
      split
      · rename_i hf
        by_cases hic : i = c
        · subst hic
          have := ((hmine cl hi).1 op _ hcur (decide_eq_true hf)).2.2
          simp only [AtNft, hr] at this
          rcases this with e | ⟨e, -⟩
          · exact e.symm
          · cases e
        · exact absurd hf (of_decide_eq_false ((hoth i cl hi hic).2 op _ hcur))
      · exact hr
    | _ => exact hr
  cases hs with
  | begin_ hi hcur ht => exact hr
  | access hi hcur he => exact exe hi hcur he
  | return_ hi hcur he => exact exe hi hcur he

end

theorem callCount_mono (L x : List StoreOp) (f : String) : callCount L f ≤ callCount (L ++ x) f := by
  simp [callCount]

theorem termCount_mono (L x : List StoreOp) (f t : String) : termCount L f t ≤ termCount (L ++ x) f t := by
  simp [termCount]

theorem lengthSum_mono (L x : List StoreOp) (f : String) (hx : ∀ op ∈ x, 0 ≤ op.field.length) : lengthSum L f ≤ lengthSum (L ++ x) f := by
  simp only [lengthSum, List.filter_append, List.map_append, List.sum_append]
  have : 0 ≤ ((x.filter fun op => decide (op.field.name = f)).map fun op => op.field.length).sum := by
    apply List.sum_nonneg
    intro n hn
    obtain ⟨op, ho, rfl⟩ := List.mem_map.1 hn
    exact hx op (List.mem_filter.1 ho).1
  omega

theorem returned_step {s s' : Conc} {i k : Nat} (hs : Step s i k s') : ∃ x, s'.returned = s.returned ++ x := by
  cases hs with
  | begin_ hi hc ht => exact ⟨[], by simp⟩
  | access hi hc he => exact ⟨[], by simp⟩
  | @return_ cl op loc m hi hc he => exact ⟨[op], rfl⟩

theorem returned_mem {progs : List (List StoreOp)} {s : Conc} {sched : List (Nat × Nat)} (h : (Conc.init progs).run sched = some s) : ∀ op ∈ s.returned, op ∈ s.begun := by
  have : Ok s ∧ ∀ op ∈ s.returned, op ∈ s.begun := by
    refine inv_run (P := fun s => Ok s ∧ ∀ op ∈ s.returned, op ∈ s.begun) ?_ ⟨ok_init _, by rintro op ⟨⟩⟩ h
    rintro s i k s' ⟨hok, hp⟩ hs
    refine ⟨ok_step hok hs, ?_⟩
    cases hs with
    | begin_ hi hc ht => exact fun op ho => List.mem_append_left _ (hp op ho)
    | access hi hc he => exact hp
    | @return_ cl op loc m hi hc he =>
      intro o ho
      rcases List.mem_append.1 ho with ho | ho
      · exact hp o ho
      · rw [List.mem_singleton.1 ho]; exact (hok.cur _ (List.mem_of_getElem? hi) _ _ hc).2
  exact this.2

end Conc

namespace LSearch

/-- the numbers lie between those of the calls that had returned at `s₀` and those of the calls begun by `s`. -/
structure LenOk (s₀ s : Conc) (f : String) (n : Int) : Prop where
  lower : lengthSum s₀.returned f ≤ n
  upper : n ≤ lengthSum s.begun f

structure SizeOk (s₀ s : Conc) (f : String) (n : Int) : Prop where
  lower : callCount s₀.returned f ≤ n
  upper : n ≤ callCount s.begun f

/-- … of the terms in `did`. -/
structure NftOk (s₀ s : Conc) (f : String) (did : List String) (nft : GoMap String Int) : Prop where
  some : ∀ t n, nft.get? t = some n → termCount s₀.returned f t ≤ n ∧ n ≤ termCount s.begun f t
  all : ∀ t ∈ did, ∃ n, nft.get? t = Option.some n

/-- the numbers of a search in progress. -/
def Numbers (s₀ s : Conc) (terms : List String) (f : String) : LSearch → Prop
  | .readLen => True
  | .readSize st => LenOk s₀ s f st.len ∧ st.nft = []
  | .readNft st todo => LenOk s₀ s f st.len ∧ SizeOk s₀ s f st.size ∧ ∃ did, terms = did ++ todo ∧ NftOk s₀ s f did st.nft
  | .readTerm st r t todo => LenOk s₀ s f st.len ∧ SizeOk s₀ s f st.size ∧ s.mem.numberFieldTerm.get? f = some r ∧ ∃ did, terms = did ++ t :: todo ∧ NftOk s₀ s f did st.nft
  | .phase1 st _ => LenOk s₀ s f st.len ∧ SizeOk s₀ s f st.size ∧ NftOk s₀ s f terms st.nft
  | .phase2 st _ => LenOk s₀ s f st.len ∧ SizeOk s₀ s f st.size ∧ NftOk s₀ s f terms st.nft
  | .done st _ => LenOk s₀ s f st.len ∧ SizeOk s₀ s f st.size ∧ NftOk s₀ s f terms st.nft

theorem numbers_mono {s₀ s s' : Conc} {terms : List String} {f : String} (x : List StoreOp) (e : s'.begun = s.begun ++ x) (hx : ∀ op ∈ x, 0 ≤ op.field.length)
    (hr : ∀ r, s.mem.numberFieldTerm.get? f = some r → s'.mem.numberFieldTerm.get? f = some r) {q : LSearch} (h : Numbers s₀ s terms f q) : Numbers s₀ s' terms f q := by
  have hl : ∀ {n}, LenOk s₀ s f n → LenOk s₀ s' f n := fun h => ⟨h.1, by rw [e]; exact Int.le_trans h.2 (lengthSum_mono _ _ _ hx)⟩
  have hs : ∀ {n}, SizeOk s₀ s f n → SizeOk s₀ s' f n := fun h => ⟨h.1, by rw [e]; have := callCount_mono s.begun x f; have := h.2; omega⟩
  have hn : ∀ {did nft}, NftOk s₀ s f did nft → NftOk s₀ s' f did nft := fun h =>
    ⟨fun t n ht => ⟨(h.1 t n ht).1, by rw [e]; have := termCount_mono s.begun x f t; have := (h.1 t n ht).2; omega⟩, h.2⟩
  cases q with
  | readLen => trivial
  | readSize st => exact ⟨hl h.1, h.2⟩
  | readNft st todo => obtain ⟨h1, h2, did, h3, h4⟩ := h; exact ⟨hl h1, hs h2, did, h3, hn h4⟩
  | readTerm st r t todo => obtain ⟨h1, h2, h5, did, h3, h4⟩ := h; exact ⟨hl h1, hs h2, hr r h5, did, h3, hn h4⟩
  | phase1 st fan => exact ⟨hl h.1, hs h.2.1, hn h.2.2⟩
  | phase2 st fan => exact ⟨hl h.1, hs h.2.1, hn h.2.2⟩
  | done st docs => exact ⟨hl h.1, hs h.2.1, hn h.2.2⟩

theorem nftOk_set {s₀ s : Conc} {f : String} {did : List String} {nft : GoMap String Int} (h : NftOk s₀ s f did nft) {t : String} {n : Int}
    (hn : termCount s₀.returned f t ≤ n ∧ n ≤ termCount s.begun f t) : NftOk s₀ s f (did ++ [t]) (nft.set t n) := by
  refine ⟨fun x m hx => ?_, fun x hx => ?_⟩
  · rw [GoMap.get?_set] at hx
    split at hx
    · rename_i e; cases hx; rw [← e]; exact hn
    · exact h.1 x m hx
  · rw [GoMap.get?_set]
    split
    · exact ⟨n, rfl⟩
    · rename_i e
      rcases List.mem_append.1 hx with hx | hx
      · exact h.2 x hx
      · exact absurd (List.mem_singleton.1 hx).symm e

end LSearch

/-- **C87 for a field with one writer.** Of any number of clients, with any programs, only `c` makes calls on field `f`. Then, whatever the clients do before and during the search, each number that it returns lies
between what the calls that had returned when it began add up to and what the calls that had begun when it ended add up to. -/
theorem c87_one_writer_partial {progs : List (List StoreOp)} (wf : ∀ p ∈ progs, ∀ op ∈ p, op.field.tf.WF) (hl : ∀ p ∈ progs, ∀ op ∈ p, 0 ≤ op.field.length) {f : String} {c : Nat} (hc : c < progs.length)
    (own : ∀ (j : Nat) (p : List StoreOp), progs[j]? = some p → j ≠ c → ∀ op ∈ p, op.field.name ≠ f)
    {s₀ : Conc} {sched : List (Nat × Nat)} (h₀ : (Conc.init progs).run sched = some s₀) {terms : List String} {cpus : Nat}
    {s : Live} (h : Reaches (Live.Step terms f cpus) ⟨s₀, .readLen⟩ s) {st : LStats} {docs : GoMap String Field} (hd : s.search = .done st docs) :
    (callCount s₀.returned f ≤ st.size ∧ st.size ≤ callCount s.conc.begun f) ∧ (lengthSum s₀.returned f ≤ st.len ∧ st.len ≤ lengthSum s.conc.begun f) ∧
    (∀ t ∈ terms, ∃ n, st.nft.get? t = some n) ∧ ∀ t n, st.nft.get? t = some n → termCount s₀.returned f t ≤ n ∧ n ≤ termCount s.conc.begun f t := by
  have key := Reaches.invariant (P := fun s => Live.Base progs s ∧ (∃ x, s.conc.returned = s₀.returned ++ x) ∧ LSearch.Numbers s₀ s.conc terms f s.search) h
    ⟨Live.base_start h₀ _, ⟨[], by simp⟩, trivial⟩ (by
      rintro s s' ⟨hb, ⟨x, hx⟩, hn⟩ hst
      have hb' := Live.base_step hb hst
      refine ⟨hb', ?_⟩
      obtain ⟨sched, hr⟩ := hb.run
      cases hst with
      | client c' i k hcl =>
        have hst := step_Step hcl
        obtain ⟨y, hy⟩ := returned_step hst
        obtain ⟨z, hz⟩ := Live.begun_step hst
        obtain ⟨sched', hr'⟩ := hb'.run
        refine ⟨⟨x ++ y, by show c'.returned = _; rw [hy, hx, List.append_assoc]⟩, LSearch.numbers_mono z hz ?_ (fun r e => own_nft wf hc own hr hst e) hn⟩
        intro op ho
        exact begun_of_progs hl hr' op (by show op ∈ c'.begun; rw [hz]; exact List.mem_append_right _ ho)
      | search q hq =>
        refine ⟨⟨x, hx⟩, ?_⟩
        have hret : ∀ op ∈ x, 0 ≤ op.field.length := fun op ho => begun_of_progs hl hr op (returned_mem hr op (by rw [hx]; exact List.mem_append_right _ ho))
        have dfOk : ∀ t r, s.conc.mem.numberFieldTerm.get? f = some r → (termCount s₀.returned f t : Int) ≤ (s.conc.mem.nftCells r).getD t 0 ∧ (s.conc.mem.nftCells r).getD t 0 ≤ termCount s.conc.begun f t := by
          intro t r hr'
          have h1 := (own_df wf hc own hr t).1 r hr'
          have h2 := termCount_mono s₀.returned x f t
          rw [← hx] at h2
          exact ⟨by omega, h1.2⟩
        show LSearch.Numbers s₀ s.conc terms f q
        generalize s.search = q₀ at hn hq
        cases hq with
        | readLen =>
          have h1 := own_len wf hc own hr hl
          have h2 := lengthSum_mono s₀.returned x f hret
          rw [← hx] at h2
          exact ⟨⟨Int.le_trans h2 h1.1, h1.2⟩, rfl⟩
        | readSize st =>
          have h1 := own_size wf hc own hr
          have h2 := callCount_mono s₀.returned x f
          rw [← hx] at h2
          refine ⟨hn.1, ⟨by show _ ≤ s.conc.mem.fieldSize.getD f 0; omega, h1.2⟩, [], rfl, ?_, by rintro t ⟨⟩⟩
          intro t n e
          have e : GoMap.get? st.nft t = some n := e
          rw [hn.2] at e; cases e
        | nftFound st t ts r hr' => obtain ⟨h1, h2, h3⟩ := hn; exact ⟨h1, h2, hr', h3⟩
        | nftUnknown st t ts hr' =>
          obtain ⟨h1, h2, did, h3, h4⟩ := hn
          have e1 := (own_df wf hc own hr t).2 hr'
          have e2 := termCount_mono s₀.returned x f t
          rw [← hx] at e2
          exact ⟨h1, h2, did ++ [t], by simp [h3], LSearch.nftOk_set h4 ⟨by omega, by omega⟩⟩
        | readTerm st r t ts =>
          obtain ⟨h1, h2, hr', did, h3, h4⟩ := hn
          exact ⟨h1, h2, did ++ [t], by simp [h3], LSearch.nftOk_set h4 (dfOk t r hr')⟩
        | begin1 st =>
          obtain ⟨h1, h2, did, h3, h4⟩ := hn
          rw [List.append_nil] at h3
          subst h3
          exact ⟨h1, h2, h4⟩
        | p1 st s s' hx => exact hn
        | begin2 st s hf => exact hn
        | p2 st s s' hx => exact hn
        | finish st s hf => exact hn)
  have := key.2.2
  rw [hd] at this
  obtain ⟨h1, h2, h3⟩ := this
  exact ⟨⟨h2.1, h2.2⟩, ⟨h1.1, h1.2⟩, h3.2, h3.1⟩

/-- **C87, then scores are finite.** If moreover a call on the field with a positive length had returned when the search began, frequencies are not negative, and the boost is finite, then every document
that the search returns has a finite score. -/
theorem c87_score_finite_partial {progs : List (List StoreOp)} (wf : ∀ p ∈ progs, ∀ op ∈ p, op.field.tf.WF) (hl : ∀ p ∈ progs, ∀ op ∈ p, 0 ≤ op.field.length)
    (htf : ∀ p ∈ progs, ∀ op ∈ p, ∀ t n, (t, n) ∈ op.field.tf → 0 ≤ n) {f : String} {c : Nat} (hc : c < progs.length)
    (own : ∀ (j : Nat) (p : List StoreOp), progs[j]? = some p → j ≠ c → ∀ op ∈ p, op.field.name ≠ f)
    {s₀ : Conc} {sched : List (Nat × Nat)} (h₀ : (Conc.init progs).run sched = some s₀) (before : ∃ op ∈ s₀.returned, op.field.name = f ∧ 0 < op.field.length) {terms : List String} {cpus : Nat}
    {s : Live} (h : Reaches (Live.Step terms f cpus) ⟨s₀, .readLen⟩ s) {st : LStats} {docs : GoMap String Field} (hd : s.search = .done st docs) (boost : ℝ) {d : String} {fl : Field}
    (he : docs.get? d = some fl) : ∃ x : ℝ, SState.score (⟨f, .fin boost, terms⟩ : Query XReal) (LSearch.result st docs) fl = .fin x := by
  obtain ⟨hsz, hln, -, hnft⟩ := c87_one_writer_partial wf hl hc own h₀ h hd
  obtain ⟨-, -, hsv⟩ := c85_live_search_sound h₀ h hd he
  obtain ⟨sched', hr⟩ := (h.invariant (P := Live.Base progs) (Live.base_start h₀ _) fun _ _ hb hs => Live.base_step hb hs).run
  have hfl : 0 ≤ fl.length ∧ ∀ t n, (t, n) ∈ fl.tf → 0 ≤ n := by
    refine ⟨?_, ?_⟩
    · exact begun_of_progs (Q := fun op => 0 ≤ op.field.length) hl hr _ hsv
    · exact begun_of_progs (Q := fun op => ∀ t n, (t, n) ∈ op.field.tf → 0 ≤ n) htf hr _ hsv
  obtain ⟨op, ho, hf, hpos⟩ := before
  have h1 : 0 < callCount s₀.returned f := List.length_pos_of_mem (List.mem_filter.2 ⟨ho, by simp [hf]⟩)
  have h2 : 0 < lengthSum s₀.returned f := by
    obtain ⟨a, b, e⟩ := List.append_of_mem ho
    have hnn : ∀ o ∈ s₀.returned, 0 ≤ o.field.length := fun o hm => begun_of_progs hl h₀ o (returned_mem h₀ o hm)
    have e1 := lengthSum_mono [] a f fun o hm => hnn o (by rw [e]; exact List.mem_append_left _ hm)
    have e2 := lengthSum_snoc a hf
    have e3 := lengthSum_mono (a ++ [op]) b f fun o hm => hnn o (by rw [e]; simp [hm])
    rw [e]
    simp only [List.append_assoc, List.singleton_append] at e3
    have : lengthSum [] f = 0 := rfl
    simp only [List.nil_append] at e1
    omega
  have hN : (0 : ℝ) < (st.size : ℝ) := by exact_mod_cast (by omega : 0 < st.size)
  have hL : (0 : ℝ) < (st.len : ℝ) := by exact_mod_cast (by omega : 0 < st.len)
  refine ⟨bm25 terms (GoFloat.lit 1.2) (GoFloat.lit 0.75) boost (st.len / st.size) st.size st.nft fl, ?_⟩
  have := x_bm25 terms boost (st.len / st.size) st.size st.nft fl (by positivity) hN.le (fun t => ?_) (fun t => ?_) hfl.1
  · rw [← this]
    simp only [SState.score, LSearch.result, x_ofInt]
    rw [x_div _ _ (show (GoFloat.ofInt st.size : ℝ) ≠ 0 from hN.ne')]
    rfl
  · rw [GoMap.getD]
    cases e : st.nft.get? t with
    | none => simp
    | some n => have := (hnft t n e).1; simp only [Option.getD_some]; omega
  · rw [GoMap.getD]
    cases e : fl.tf.get? t with
    | none => simp
    | some n => exact hfl.2 t n (GoMap.mem_of_get? e)

end Goir
