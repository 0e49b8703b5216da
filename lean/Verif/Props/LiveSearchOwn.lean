import Verif.Props.LiveSearch
/-!
# C86: a search during saves finds what was saved before it
-/
namespace Goir
open Spec CMem Conc

namespace Conc

/-- what a client that owns a field has posted there when its calls returned. -/
theorem keepPost_own {progs : List (List StoreOp)} (wf : ∀ p ∈ progs, ∀ op ∈ p, op.field.tf.WF) {f : String} {c : Nat} (hc : c < progs.length)
    (own : ∀ (j : Nat) (p : List StoreOp), progs[j]? = some p → j ≠ c → ∀ op ∈ p, op.field.name ≠ f) {s : Conc} {sched : List (Nat × Nat)} (h : (Conc.init progs).run sched = some s)
    {t d : String} (posted : Posted s.returned f t d) : ∃ r sr, KeepPost f t d r sr s := by
  have only : Only c (onField f) progs := fun j p hj hjc op hop => decide_eq_false (own j p hj hjc op hop)
  obtain ⟨hoth, hmine⟩ := part_inv (part_post f) only wf h
  have hlt : c < s.clients.length := by rw [clients_length h]; exact hc
  obtain ⟨cl, hcl⟩ : ∃ cl, s.clients[c]? = some cl := ⟨_, List.getElem?_eq_getElem hlt⟩
  obtain ⟨hin, hout⟩ := hmine cl hcl
  have hp' : Posted (s.returned.filter (onField f)) f t d := (posted_filter _ _ _ _).2 posted
  -- whichever access the owner makes next, the posting is there
  have hlook : ∃ sr, s.mem.lookup f t = some sr ∧ GoSet.contains (s.mem.setCells sr) d = true := by
    by_cases hx : ∀ op loc, cl.cur = some (op, loc) → onField f op = false
    · obtain ⟨e, hfull⟩ := hout hx
      refine (hfull.1 t d).2 (.inl ?_)
      rw [← e]; exact hp'
    · have ⟨op, loc, e, hm⟩ : ∃ op loc, cl.cur = some (op, loc) ∧ onField f op = true := by
        apply Classical.byContradiction
        intro hn
        refine hx fun op loc e => ?_
        cases hb : onField f op with
        | false => rfl
        | true => exact absurd ⟨op, loc, e, hb⟩ hn
      have hat := (hin op loc e hm).2
      have hp2 : Posted (s.returned.filter (onField f) ++ [op]) f t d := posted_mono hp'
      cases loc with
      | idxNew => exact (hat.2.1 t d).2 (.inl hp')
      | post r ts => exact (hat.2.1 t d).2 (.inl hp')
      | postNew r key ts => exact (hat.2.2.1 t d).2 (.inl hp')
      | postAdd r key sr ts => exact (hat.2.2.1 t d).2 (.inl hp')
      | nftLook => exact (hat.1 t d).2 (.inl hp2)
      | term r ts => exact (hat.1 t d).2 (.inl hp2)
      | termWrite r key n ts => exact (hat.1 t d).2 (.inl hp2)
      | nftStore r => exact (hat.1 t d).2 (.inl hp2)
      | _ => exact (hat.1 t d).2 (.inl hp')
  obtain ⟨sr, h1, h2⟩ := hlook
  obtain ⟨r, h3, h4⟩ := Option.bind_eq_some_iff.1 h1
  have hok := (sound_run h).1
  refine ⟨r, sr, alloc_run h _ _ _ h4, h3, h4, h2, ?_, ?_⟩
  · intro cl' hm op e hf
    obtain ⟨j, hj⟩ := List.getElem?_of_mem hm
    by_cases hjc : j = c
    · subst hjc
      rw [hcl] at hj; cases hj
      have := (hin op _ e (decide_eq_true hf)).2.1
      rw [h3] at this; cases this
    · exact absurd hf (of_decide_eq_false ((hoth j cl' hj hjc).2 op _ e))
  · rintro cl' hm op r' key ts e ⟨rfl, rfl⟩
    have hf : op.field.name = f := by rw [← (hok.cur cl' hm op _ e).1.1]; exact hok.tags.idx _ _ h3
    obtain ⟨j, hj⟩ := List.getElem?_of_mem hm
    by_cases hjc : j = c
    · subst hjc
      rw [hcl] at hj; cases hj
      have := (hin op _ e (decide_eq_true hf)).2.2.1
      rw [h4] at this; cases this
    · exact absurd hf (of_decide_eq_false ((hoth j cl' hj hjc).2 op _ e))

/-- what a client that owns a document has saved there when its calls returned, or the call it is in. -/
theorem keepDoc_own {progs : List (List StoreOp)} (wf : ∀ p ∈ progs, ∀ op ∈ p, op.field.tf.WF) {d : String} {c : Nat} (hc : c < progs.length)
    (own : ∀ (j : Nat) (p : List StoreOp), progs[j]? = some p → j ≠ c → ∀ op ∈ p, op.doc ≠ d) {s : Conc} {sched : List (Nat × Nat)} (h : (Conc.init progs).run sched = some s)
    {f : String} {old : Field} (saved : lastSaved s.returned d f = some old) : ∃ r, KeepDoc s d f old r s := by
  have only : Only c (onDoc d) progs := fun j p hj hjc op hop => by simp [onDoc, own j p hj hjc op hop]
  obtain ⟨hoth, hmine⟩ := part_inv (part_doc d) only wf h
  have hlt : c < s.clients.length := by rw [clients_length h]; exact hc
  obtain ⟨cl, hcl⟩ : ∃ cl, s.clients[c]? = some cl := ⟨_, List.getElem?_eq_getElem hlt⟩
  obtain ⟨hin, hout⟩ := hmine cl hcl
  have hs' : lastSaved (s.returned.filter (onDoc d)) d f = some old := by rw [lastSaved_filter]; exact saved
  have hok := (sound_run h).1
  have hst : ∃ fl, s.mem.stored d f = some fl ∧ (fl = old ∨ (Since s s (.save d fl) ∧ fl.name = f)) := by
    by_cases hx : ∀ op loc, cl.cur = some (op, loc) → onDoc d op = false
    · obtain ⟨e, hfull⟩ := hout hx
      refine ⟨old, ?_, .inl rfl⟩
      rw [hfull f, ← e, hs']
    · have ⟨op, loc, e, hm⟩ : ∃ op loc, cl.cur = some (op, loc) ∧ onDoc d op = true := by
        apply Classical.byContradiction
        intro hn
        refine hx fun op loc e => ?_
        cases hb : onDoc d op with
        | false => rfl
        | true => exact absurd ⟨op, loc, e, hb⟩ hn
      have hat := (hin op loc e hm).2
      have after : s.mem.stored d f = lastSaved (s.returned.filter (onDoc d) ++ [op]) d f → ∃ fl, s.mem.stored d f = some fl ∧ (fl = old ∨ (Since s s (.save d fl) ∧ fl.name = f)) := by
        intro hx
        rw [lastSaved_snoc _ hm] at hx
        split at hx
        · rename_i hn
          refine ⟨_, hx, .inr ⟨.inl ⟨cl, List.mem_of_getElem? hcl, loc, ?_⟩, hn⟩⟩
          rw [e]
          cases op with
          | save d' fl =>
            have hm' : d' = d := of_decide_eq_true ((Bool.and_eq_true_iff.1 hm).2)
            rw [hm']; rfl
          | updateIndex d' fl => simp [onDoc, StoreOp.isSave] at hm
        · exact ⟨old, by rw [hx, hs'], .inl rfl⟩
      cases loc with
      | docLook => exact ⟨old, by rw [hat f, hs'], .inl rfl⟩
      | docSet r => exact ⟨old, by rw [hat.2 f, hs'], .inl rfl⟩
      | docNew => exact ⟨old, by rw [hat.2 f, hs'], .inl rfl⟩
      | _ => exact after (hat f)
  obtain ⟨fl, h1, h2⟩ := hst
  obtain ⟨r, h3, h4⟩ := Option.bind_eq_some_iff.1 h1
  refine ⟨r, Nat.le_refl _, h3, ⟨fl, h4, h2⟩, ?_, fun cl hcl op loc e => .inl ⟨cl, hcl, loc, e⟩⟩
  intro cl' hm op e hd
  have hsv : onDoc d op = true := by
    have := (hok.cur cl' hm op _ e).1
    simp only [LocOk] at this
    simp [onDoc, this, hd]
  obtain ⟨j, hj⟩ := List.getElem?_of_mem hm
  by_cases hjc : j = c
  · subst hjc
    rw [hcl] at hj; cases hj
    have := (hin op _ e hsv).2.1
    rw [h3] at this; cases this
  · rw [(hoth j cl' hj hjc).2 op _ e] at hsv; cases hsv

end Conc

/-- **C86 for a field and a document with one writer each.** Of any number of clients, with any programs, only `c` makes calls on field `f` and only `c'` on document `d` (they may be the same). If a call that
had returned when the search began posts `d` under a term of the search, and `old` is the field last saved for `d` by a call that had returned then, the search returns `d`, whatever
the clients do before and during it; with `old`, or with a field given to a SaveOrUpdate of `d` that was in progress when the search began or has begun since. -/
theorem c86_one_writer_partial {progs : List (List StoreOp)} (wf : ∀ p ∈ progs, ∀ op ∈ p, op.field.tf.WF) {f d : String} {c c' : Nat} (hc : c < progs.length) (hc' : c' < progs.length)
    (ownField : ∀ (j : Nat) (p : List StoreOp), progs[j]? = some p → j ≠ c → ∀ op ∈ p, op.field.name ≠ f)
    (ownDoc : ∀ (j : Nat) (p : List StoreOp), progs[j]? = some p → j ≠ c' → ∀ op ∈ p, op.doc ≠ d)
    {s₀ : Conc} {sched : List (Nat × Nat)} (h₀ : (Conc.init progs).run sched = some s₀) {terms : List String} {cpus : Nat} {t : String} (ht : t ∈ terms)
    (posted : Posted s₀.returned f t d) {old : Field} (saved : lastSaved s₀.returned d f = some old)
    {s : Live} (h : Reaches (Live.Step terms f cpus) ⟨s₀, .readLen⟩ s) {st : LStats} {docs : GoMap String Field} (hd : s.search = .done st docs) :
    ∃ fl, docs.get? d = some fl ∧ (fl = old ∨ (((∃ cl ∈ s₀.clients, ∃ loc, cl.cur = some (.save d fl, loc)) ∨ StoreOp.save d fl ∈ s.conc.begun.drop s₀.begun.length) ∧ fl.name = f)) := by
  obtain ⟨r, sr, hp⟩ := keepPost_own wf hc ownField h₀ posted
  obtain ⟨rd, hk⟩ := keepDoc_own wf hc' ownDoc h₀ saved
  have := LSearch.will_reach (q₀ := .readLen) h₀ ht hp hk trivial h
  rw [hd] at this
  exact this

end Goir
