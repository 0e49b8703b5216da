import Verif.Lemmas.LiveSearch
import Verif.Props.NaN
/-!
# C85–C88: searching a Memory store while clients save to it

`s₀` is the store when the search is called, with any number of clients in the middle of any calls; then the goroutines of the search and the clients take steps in any order.
-/
namespace Goir
open Spec CMem Conc

namespace Live

/-- what holds of the store and its clients. -/
structure Base (progs : List (List StoreOp)) (s : Live) : Prop where
  run : ∃ sched, (Conc.init progs).run sched = some s.conc
  ok : Ok s.conc
  sound : Conc.Sound s.conc.begun s.conc.mem

theorem base_start {progs : List (List StoreOp)} {s₀ : Conc} {sched : List (Nat × Nat)} (h : (Conc.init progs).run sched = some s₀) (q : LSearch) : Base progs ⟨s₀, q⟩ :=
  ⟨⟨sched, h⟩, (sound_run h).1, (sound_run h).2⟩

theorem base_step {progs : List (List StoreOp)} {terms : List String} {f : String} {cpus : Nat} {s s' : Live} (h : Base progs s) (hs : Step terms f cpus s s') : Base progs s' := by
  cases hs with
  | client c i k hc =>
    obtain ⟨sched, hr⟩ := h.run
    have : (Conc.init progs).run (sched ++ [(i, k)]) = some c := by rw [run_append, hr]; simp [run_cons, hc, Conc.run]
    exact ⟨⟨_, this⟩, (sound_run this).1, (sound_run this).2⟩
  | search q hq => exact ⟨h.run, h.ok, h.sound⟩

theorem begun_step {s s' : Conc} {i k : Nat} (hs : Conc.Step s i k s') : ∃ x, s'.begun = s.begun ++ x := by
  cases hs with
  | @begin_ cl op rest hi hc ht => exact ⟨[op], rfl⟩
  | access hi hc he => exact ⟨[], by simp⟩
  | return_ hi hc he => exact ⟨[], by simp⟩

end Live

/-- **C85 A search during saves returns only what was saved.** Whatever the clients do before and during the search, each document it returns was given to a call that had begun by then, with
one of the terms in the field; and the field it returns for the document is one that a SaveOrUpdate of this document was given. -/
theorem c85_live_search_sound {progs : List (List StoreOp)} {s₀ : Conc} {sched : List (Nat × Nat)} (h₀ : (Conc.init progs).run sched = some s₀) {terms : List String} {f : String} {cpus : Nat}
    {s : Live} (h : Reaches (Live.Step terms f cpus) ⟨s₀, .readLen⟩ s) {st : LStats} {docs : GoMap String Field} (hd : s.search = .done st docs) {d : String} {fl : Field}
    (he : docs.get? d = some fl) : (∃ t ∈ terms, Posted s.conc.begun f t d) ∧ fl.name = f ∧ StoreOp.save d fl ∈ s.conc.begun := by
  have key := Reaches.invariant (P := fun s => Live.Base progs s ∧ LSearch.Sound s.conc.begun terms f s.search) h ⟨Live.base_start h₀ _, trivial⟩ (by
    rintro s s' ⟨hb, hs⟩ hst
    refine ⟨Live.base_step hb hst, ?_⟩
    cases hst with
    | client c i k hc =>
      obtain ⟨x, e⟩ := Live.begun_step (step_Step hc)
      show LSearch.Sound c.begun terms f s.search
      rw [e]; exact hs.mono x
    | search q hq => exact LSearch.sound_step hb.ok.tags hb.sound hs hq)
  have := key.2
  rw [hd] at this
  exact this d fl he

/-! ### C86: what was there when the search began -/

namespace LSearch

/-- the search is on its way to a saved field of `d`. -/
def Will (s₀ s : Conc) (d f t : String) (old : Field) (r : Ref String) (sr : Ref (String × String)) (rd : Ref String) : LSearch → Prop
  | .phase1 _ fan => LFan.Due (TermDue t d r sr) (· = d) TermG.fin fan
  | .phase2 _ fan => LFan.Due (BatchDue d rd) (fun e => e.1 = d) BatchG.fin fan ∧
      (∀ g ∈ fan.gs, BatchFresh d rd (fun fl => fl = old ∨ (Since s₀ s (.save d fl) ∧ fl.name = f)) g) ∧
      ∀ x ∈ fan.chan ++ fan.out, x.1 = d → (x.2 = old ∨ (Since s₀ s (.save d x.2) ∧ x.2.name = f))
  | .done _ docs => ∃ fl, docs.get? d = some fl ∧ (fl = old ∨ (Since s₀ s (.save d fl) ∧ fl.name = f))
  | _ => True

theorem will_mono {s₀ s s' : Conc} {d f t : String} {old : Field} {r : Ref String} {sr : Ref (String × String)} {rd : Ref String} (hm : ∀ op, Since s₀ s op → Since s₀ s' op) {q : LSearch}
    (h : Will s₀ s d f t old r sr rd q) : Will s₀ s' d f t old r sr rd q := by
  have hP : ∀ {fl : Field}, (fl = old ∨ (Since s₀ s (.save d fl) ∧ fl.name = f)) → (fl = old ∨ (Since s₀ s' (.save d fl) ∧ fl.name = f)) := fun h => h.imp id fun h => ⟨hm _ h.1, h.2⟩
  cases q with
  | phase2 st fan =>
    refine ⟨h.1, fun g hg => ?_, fun x hx e => hP (h.2.2 x hx e)⟩
    have := h.2.1 g hg
    cases g with
    | waiting ids => trivial
    | look ids fields => exact fun fl hx => hP (this fl hx)
    | look2 id r ids fields => exact ⟨this.1, fun fl hx => hP (this.2 fl hx)⟩
    | sending rem => exact fun fl hx => hP (this fl hx)
    | done => trivial
  | done st docs => obtain ⟨fl, h1, h2⟩ := h; exact ⟨fl, h1, hP h2⟩
  | _ => exact h

theorem will_step {s₀ s : Conc} {terms : List String} {cpus : Nat} {d f t : String} {old : Field} {r : Ref String} {sr : Ref (String × String)} {rd : Ref String} (ht : t ∈ terms)
    (hp : KeepPost f t d r sr s) (hk : KeepDoc s₀ d f old rd s) {q q' : LSearch} (h : Will s₀ s d f t old r sr rd q) (hs : Step s.mem terms f cpus q q') : Will s₀ s d f t old r sr rd q' := by
  have fin1 : ∀ (g : TermG) (a : GAct String) (g' : TermG), TermG.fin g = true → ¬ TermG.Act s.mem f g a g' := by intro g a g' hf ha; cases ha <;> cases hf
  have fin2 : ∀ (g : BatchG) (a : GAct (String × Field)) (g' : BatchG), BatchG.fin g = true → ¬ BatchG.Act s.mem f g a g' := by intro g a g' hf ha; cases ha <;> cases hf
  cases hs with
  | begin1 st =>
    exact ⟨.inl ⟨_, List.mem_map.2 ⟨t, ht, rfl⟩, rfl⟩, by rintro ⟨⟩⟩
  | p1 st a b hx => exact LFan.step_due (term_due hp.idx hp.set hp.mem) fin1 hx h
  | begin2 st a hf =>
    obtain ⟨x, hx, rfl⟩ := LFan.due_finished (by intro g hg hw; cases g <;> first | exact hw | cases hg) h hf
    obtain ⟨ids, hb, hd⟩ := (mem_makeBatches _ _).2 hx
    refine ⟨⟨.inl ⟨_, List.mem_map.2 ⟨ids, hb, rfl⟩, hd⟩, by rintro ⟨⟩⟩, ?_, by simp⟩
    intro g hg
    obtain ⟨ids, -, rfl⟩ := List.mem_map.1 hg
    trivial
  | p2 st a b hx =>
    refine ⟨LFan.step_due (batch_due hk) fin2 hx h.1, ?_⟩
    exact LFan.step_all (X := fun x => x.1 = d → _) (batch_fresh hk (fun _ h => h)) hx h.2
  | finish st a hf =>
    obtain ⟨x, hx, e⟩ := LFan.due_finished (by intro g hg hw; cases g <;> first | exact hw | cases hg) h.1 hf
    obtain ⟨fl, hfl⟩ := collect_complete (d := d) (fl := x.2) (l := a.out) (by rw [← e]; exact hx)
    exact ⟨fl, hfl, h.2.2 (d, fl) (List.mem_append_right _ (collect_sound hfl)) rfl⟩
  | _ => trivial

end LSearch

theorem Conc.since_step {s₀ s s' : Conc} {i k : Nat} (hle : s₀.begun.length ≤ s.begun.length) (hs : Conc.Step s i k s') (op : StoreOp) (h : Since s₀ s op) : Since s₀ s' op := by
  obtain ⟨x, e⟩ := Live.begun_step hs
  refine h.imp id fun h => ?_
  rw [e, List.drop_append_of_le_length hle]
  exact List.mem_append_left _ h

/-- the part of C86 that everything else follows from: nobody is about to replace a reference. -/
theorem LSearch.will_reach {progs : List (List StoreOp)} {s₀ : Conc} {sched : List (Nat × Nat)} (h₀ : (Conc.init progs).run sched = some s₀) {terms : List String} {f : String} {cpus : Nat}
    {t d : String} (ht : t ∈ terms) {old : Field} {r : Ref String} {sr : Ref (String × String)} {rd : Ref String} (hp : KeepPost f t d r sr s₀) (hk : KeepDoc s₀ d f old rd s₀)
    {q₀ : LSearch} (hq : Will s₀ s₀ d f t old r sr rd q₀) {s : Live} (h : Reaches (Live.Step terms f cpus) ⟨s₀, q₀⟩ s) : Will s₀ s.conc d f t old r sr rd s.search := by
  have key := Reaches.invariant (P := fun s => Live.Base progs s ∧ KeepPost f t d r sr s.conc ∧ KeepDoc s₀ d f old rd s.conc ∧ LSearch.Will s₀ s.conc d f t old r sr rd s.search) h
    ⟨Live.base_start h₀ _, hp, hk, hq⟩ (by
      rintro s s' ⟨hb, hp, hk, hw⟩ hst
      refine ⟨Live.base_step hb hst, ?_⟩
      cases hst with
      | client c i k hc =>
        have hst := step_Step hc
        exact ⟨keepPost_step hb.ok hp hst, keepDoc_step hb.ok hk hst, LSearch.will_mono (Conc.since_step hk.le hst) hw⟩
      | search q hq => exact ⟨hp, hk, LSearch.will_step ht hp hk hw hq⟩)
  exact key.2.2.2

/-- **C86, if no call on the field or the document is in progress when the search begins.** Any number of clients may then save anything while the search runs. If at the beginning GetDocuments
lists the document `d` under a term of the search, and GetFields returns the field `old` for it, then the search returns `d`, with `old` or with a field that a SaveOrUpdate
begun since then was given. -/
theorem c86_quiet_start_partial {progs : List (List StoreOp)} {s₀ : Conc} {sched : List (Nat × Nat)} (h₀ : (Conc.init progs).run sched = some s₀) {terms : List String} {f : String} {cpus : Nat}
    {t d : String} (ht : t ∈ terms) {old : Field} (posted : GoSet.contains (s₀.mem.view.getDocuments f t).1 d = true) (stored : (s₀.mem.view.getFields [d] f).get? d = some old)
    (quiet : ∀ cl ∈ s₀.clients, ∀ op loc, cl.cur = some (op, loc) → op.field.name ≠ f ∧ op.doc ≠ d)
    {s : Live} (h : Reaches (Live.Step terms f cpus) ⟨s₀, .readLen⟩ s) {st : LStats} {docs : GoMap String Field} (hd : s.search = .done st docs) :
    ∃ fl, docs.get? d = some fl ∧ (fl = old ∨ (StoreOp.save d fl ∈ s.conc.begun.drop s₀.begun.length ∧ fl.name = f)) := by
  obtain ⟨hok, -⟩ := sound_run h₀
  obtain ⟨sr, h1, h2⟩ := (view_contains _ _ _ _).1 posted
  obtain ⟨r, h3, h4⟩ := Option.bind_eq_some_iff.1 h1
  rw [view_getFields] at stored
  simp only [List.mem_singleton, if_true] at stored
  obtain ⟨rd, h5, h6⟩ := Option.bind_eq_some_iff.1 stored
  have hrt : r.tag = f := hok.tags.idx _ _ h3
  have hp : KeepPost f t d r sr s₀ := by
    refine ⟨alloc_run h₀ _ _ _ h4, h3, h4, h2, fun cl hcl op e => (quiet cl hcl op _ e).1, ?_⟩
    rintro cl hcl op r' key ts e ⟨rfl, rfl⟩
    exact (quiet cl hcl op _ e).1 ((hok.cur cl hcl op _ e).1.1.symm.trans hrt)
  have hk : KeepDoc s₀ d f old rd s₀ := ⟨Nat.le_refl _, h5, ⟨old, h6, .inl rfl⟩, fun cl hcl op e => (quiet cl hcl op _ e).2, fun cl hcl op loc e => .inl ⟨cl, hcl, loc, e⟩⟩
  have := LSearch.will_reach (q₀ := .readLen) h₀ ht hp hk trivial h
  rw [hd] at this
  obtain ⟨fl, h7, h8⟩ := this
  refine ⟨fl, h7, h8.imp id fun h8 => ⟨?_, h8.2⟩⟩
  rcases h8.1 with ⟨cl, hcl, loc, e⟩ | h8
  · exact absurd rfl (quiet cl hcl _ _ e).2
  · exact h8

/-! ### C88: a search ends -/

namespace Conc

/-- accesses that a call still has to make. -/
def locCost (op : StoreOp) : Loc → Nat
  | .docLook => 4 * op.field.tf.keys.length + 12
  | .docSet _ | .docNew => 4 * op.field.tf.keys.length + 11
  | .sizeRead => 4 * op.field.tf.keys.length + 10
  | .sizeWrite _ => 4 * op.field.tf.keys.length + 9
  | .lenRead => 4 * op.field.tf.keys.length + 8
  | .lenWrite _ => 4 * op.field.tf.keys.length + 7
  | .idxLook => 4 * op.field.tf.keys.length + 6
  | .idxNew => 4 * op.field.tf.keys.length + 5
  | .post _ ts => 2 * ts.length + 2 * op.field.tf.keys.length + 4
  | .postNew _ _ ts => 2 * ts.length + 2 * op.field.tf.keys.length + 5
  | .postAdd _ _ _ ts => 2 * ts.length + 2 * op.field.tf.keys.length + 5
  | .nftLook => 2 * op.field.tf.keys.length + 3
  | .term _ ts => 2 * ts.length + 2
  | .termWrite _ _ _ ts => 2 * ts.length + 3
  | .nftStore _ => 1

/-- … and a client. -/
def clientCost (cl : CClient) : Nat := ((cl.todo.map fun op => 4 * op.field.tf.keys.length + 13).sum) + match cl.cur with | some (op, loc) => locCost op loc | none => 0

/-- … and all. -/
def cost (s : Conc) : Nat := (s.clients.map clientCost).sum

theorem sum_set_nat {l : List CClient} {i : Nat} {a b : CClient} (h : l[i]? = some a) : ((l.set i b).map clientCost).sum + clientCost a = (l.map clientCost).sum + clientCost b := by
  induction l generalizing i with
  | nil => cases h
  | cons x l ih =>
    cases i with
    | zero => simp only [List.getElem?_cons_zero, Option.some.injEq] at h; subst h; simp; omega
    | succ i =>
      simp only [List.getElem?_cons_succ] at h
      have := ih h
      simp only [List.set_cons_succ, List.map_cons, List.sum_cons]
      omega

theorem exec_cost {m m' : CMem} {op : StoreOp} {k : Nat} {loc : Loc} {o : Option Loc} (he : exec m op k loc = some (m', o)) :
    (match o with | some loc' => locCost op loc' | none => 0) < locCost op loc := by
  cases exec_eff he with
  | postFound r ts key ts' sr hp h => have := hp.length_eq; simp only [List.length_cons] at this; simp only [locCost]; omega
  | postMissing r ts key ts' hp h => have := hp.length_eq; simp only [List.length_cons] at this; simp only [locCost]; omega
  | termRead r ts key ts' hp => have := hp.length_eq; simp only [List.length_cons] at this; simp only [locCost]; omega
  | postEnd r => cases op <;> simp [afterPosts, locCost]
  | _ => simp only [locCost, List.length_nil]; omega

theorem step_cost {s s' : Conc} {i k : Nat} (h : Step s i k s') : s'.cost < s.cost := by
  cases h with
  | @begin_ cl op rest hi hc ht =>
    have := sum_set_nat (b := { todo := rest, cur := some (op, CMem.start op) }) hi
    have e : clientCost { todo := rest, cur := some (op, CMem.start op) } < clientCost cl := by
      simp only [clientCost, hc, ht, List.map_cons, List.sum_cons]
      cases op <;> simp only [CMem.start, locCost] <;> omega
    unfold cost
    simp only
    omega
  | @access cl op loc loc' m hi hc he =>
    have := sum_set_nat (b := { cl with cur := some (op, loc') }) hi
    have hx := exec_cost he
    have e : clientCost { cl with cur := some (op, loc') } < clientCost cl := by
      simp only [clientCost, hc]; simp only at hx; omega
    unfold cost
    simp only
    omega
  | @return_ cl op loc m hi hc he =>
    have := sum_set_nat (b := { cl with cur := none }) hi
    have hx := exec_cost he
    have e : clientCost { cl with cur := none } < clientCost cl := by
      simp only [clientCost, hc]; simp only at hx; omega
    unfold cost
    simp only
    omega

theorem exec_sets {m m' : CMem} {op : StoreOp} {k : Nat} {loc : Loc} {o : Option Loc} (he : exec m op k loc = some (m', o)) :
    m.next ≤ m'.next ∧ ∀ sr : Ref (String × String), sr.n < m.next → ∀ d, d ∈ GoMap.keys (m.setCells sr) → d ∈ GoMap.keys (m'.setCells sr) := by
  cases exec_eff he with
  | postNew r key ts =>
    refine ⟨Nat.le_succ _, fun sr hn d hd => ?_⟩
    show d ∈ GoMap.keys (Ref.upd _ _ _ sr)
    rw [Ref.upd_ne _ _ (by rintro rfl; exact Nat.lt_irrefl _ hn)]
    exact hd
  | postAdd r key sr' ts =>
    refine ⟨Nat.le_refl _, fun sr hn d hd => ?_⟩
    show d ∈ GoMap.keys (Ref.upd _ _ _ sr)
    simp only [Ref.upd]
    split
    · rename_i e
      rw [← e]
      exact (GoMap.mem_keys_set _ _ _ _).2 (.inr hd)
    · exact hd
  | docNew => exact ⟨Nat.le_succ _, fun _ _ _ h => h⟩
  | idxNew => exact ⟨Nat.le_succ _, fun _ _ _ h => h⟩
  | nftMissing _ => exact ⟨Nat.le_succ _, fun _ _ _ h => h⟩
  | _ => exact ⟨Nat.le_refl _, fun _ _ _ h => h⟩

theorem step_sets {s s' : Conc} {i k : Nat} (h : Step s i k s') :
    s.mem.next ≤ s'.mem.next ∧ ∀ sr : Ref (String × String), sr.n < s.mem.next → ∀ d, d ∈ GoMap.keys (s.mem.setCells sr) → d ∈ GoMap.keys (s'.mem.setCells sr) := by
  cases h with
  | begin_ hi hc ht => exact ⟨Nat.le_refl _, fun _ _ _ h => h⟩
  | access hi hc he => exact exec_sets he
  | return_ hi hc he => exact exec_sets he

end Conc

namespace LFan
variable {σ α : Type} {act : σ → GAct α → σ → Prop} {holds fin : σ → Bool}

theorem progress {s : LFan σ α} (hfh : ∀ g, fin g = true → holds g = false) (hsem : 0 < s.sem) (hg : ∀ g ∈ s.gs, fin g = true ∨ (holds g = false ∧ ∃ g', act g .acquire g') ∨
    (holds g = true ∧ ∃ g', act g .look g' ∨ act g .release g' ∨ ∃ x, act g (.emit x) g')) (hf : ¬ s.Finished) : ∃ s', Step act holds fin s s' := by
  cases hc : s.chan with
  | cons x q => exact ⟨_, .recv s x q hc⟩
  | nil =>
    by_cases hd : ∀ g ∈ s.gs, fin g = true
    · cases hcl : s.closed with
      | false => exact ⟨_, .close s hd hcl⟩
      | true => exact absurd ⟨hcl, hc⟩ hf
    · by_cases hh : ∃ g ∈ s.gs, holds g = true ∧ fin g = false
      · obtain ⟨g, hm, hh, hfn⟩ := hh
        obtain ⟨i, hi⟩ := List.getElem?_of_mem hm
        rcases hg g hm with h | h | h
        · rw [hfn] at h; cases h
        · rw [hh] at h; cases h.1
        · obtain ⟨-, g', h | h | ⟨x, h⟩⟩ := h
          · exact ⟨_, .look s i g g' hi h⟩
          · exact ⟨_, .release s i g g' hi h⟩
          · by_cases hcap : s.cap = 0
            · exact ⟨_, .handoff s i g g' x hi h hcap⟩
            · exact ⟨_, .send s i g g' x hi h (by rw [hc]; simp; omega)⟩
      · have ⟨g, hm, hfn⟩ : ∃ g ∈ s.gs, fin g ≠ true := Classical.byContradiction fun h => hd fun g hm => Classical.byContradiction fun h' => h ⟨g, hm, h'⟩
        obtain ⟨i, hi⟩ := List.getElem?_of_mem hm
        rcases hg g hm with h | ⟨-, g', h⟩ | h
        · exact absurd h hfn
        · by_cases hz : s.gs.countP holds = 0
          · exact ⟨_, .acquire s i g g' hi h (by omega)⟩
          · exfalso
            obtain ⟨g2, hm2, hh2⟩ := List.countP_pos_iff.1 (Nat.pos_of_ne_zero hz)
            refine hh ⟨g2, hm2, hh2, ?_⟩
            cases h2 : fin g2 with
            | false => rfl
            | true => rw [hfh g2 h2] at hh2; cases hh2
        · exact absurd ⟨g, hm, h.1, by simpa using hfn⟩ hh

/-- work that is left; `w` is that of a goroutine. -/
def μ (w : σ → Nat) (s : LFan σ α) : Nat := (s.gs.map w).sum + s.chan.length + (if s.closed then 0 else 1)

theorem sum_set_w (w : σ → Nat) {l : List σ} {i : Nat} {a b : σ} (h : l[i]? = some a) : ((l.set i b).map w).sum + w a = (l.map w).sum + w b := by
  induction l generalizing i with
  | nil => cases h
  | cons x l ih =>
    cases i with
    | zero => simp only [List.getElem?_cons_zero, Option.some.injEq] at h; subst h; simp; omega
    | succ i =>
      simp only [List.getElem?_cons_succ] at h
      have := ih h
      simp only [List.set_cons_succ, List.map_cons, List.sum_cons]
      omega

theorem step_μ {w : σ → Nat} {G : σ → Prop} (hw : ∀ g a g', G g → act g a g' → w g' < w g ∧ ∀ x, a = .emit x → w g' + 1 < w g) {s s' : LFan σ α} (hG : ∀ g ∈ s.gs, G g)
    (hs : Step act holds fin s s') : μ w s' < μ w s := by
  cases hs with
  | acquire i g g' hi hx _ => have := sum_set_w w (b := g') hi; have := (hw _ _ _ (hG _ (List.mem_of_getElem? hi)) hx).1; unfold μ; simp only; omega
  | look i g g' hi hx => have := sum_set_w w (b := g') hi; have := (hw _ _ _ (hG _ (List.mem_of_getElem? hi)) hx).1; unfold μ; simp only; omega
  | send i g g' x hi hx _ =>
    have := sum_set_w w (b := g') hi; have := (hw _ _ _ (hG _ (List.mem_of_getElem? hi)) hx).2 _ rfl
    unfold μ; simp only [List.length_append, List.length_cons, List.length_nil]; omega
  | handoff i g g' x hi hx _ =>
    have := sum_set_w w (b := g') hi; have := (hw _ _ _ (hG _ (List.mem_of_getElem? hi)) hx).1; unfold μ; simp only; omega
  | release i g g' hi hx => have := sum_set_w w (b := g') hi; have := (hw _ _ _ (hG _ (List.mem_of_getElem? hi)) hx).1; unfold μ; simp only; omega
  | close hd hc => unfold μ; simp only [hc]; simp
  | recv x q hq => unfold μ; simp only [hq, List.length_cons]; omega

end LFan

namespace LSearch

/-- the loops over sets are in order: what they have to visit is there. -/
def TermLive (m : CMem) : TermG → Prop
  | .iter _ sr must _ => sr.n < m.next ∧ must ⊆ GoMap.keys (m.setCells sr)
  | .sending _ sr must seen id => sr.n < m.next ∧ must ⊆ GoMap.keys (m.setCells sr) ∧ id ∈ GoMap.keys (m.setCells sr) ∧ id ∉ seen
  | _ => True

/-- the steps that the goroutine of a term still has to make if no call is made meanwhile. -/
def termCost (m : CMem) (f : String) : TermG → Nat
  | .waiting t => (match m.index.get? f with | some r => (match (m.idxCells r).get? t with | some sr => 3 * (GoMap.keys (m.setCells sr)).length + 3 | none => 2) + 1 | none => 2) + 1
  | .look t => match m.index.get? f with | some r => (match (m.idxCells r).get? t with | some sr => 3 * (GoMap.keys (m.setCells sr)).length + 3 | none => 2) + 1 | none => 2
  | .look2 t r => match (m.idxCells r).get? t with | some sr => 3 * (GoMap.keys (m.setCells sr)).length + 3 | none => 2
  | .iter _ sr _ seen => 3 * ((GoMap.keys (m.setCells sr)).filter fun d => decide (d ∉ seen)).length + 2
  | .sending _ sr _ seen _ => 3 * ((GoMap.keys (m.setCells sr)).filter fun d => decide (d ∉ seen)).length + 1
  | .leaving => 1
  | .done => 0

/-- … and the goroutine of a batch. -/
def batchCost : BatchG → Nat
  | .waiting ids => 4 * ids.length + 4
  | .look ids fields => 4 * ids.length + 2 * fields.length + 3
  | .look2 _ _ ids fields => 4 * ids.length + 2 * fields.length + 6
  | .sending rem => 2 * rem.length + 1
  | .done => 0

theorem term_live {m : CMem} {f : String} (hal : Alloc m) (g : TermG) (a : GAct String) (g' : TermG) (h : TermLive m g) (ha : TermG.Act m f g a g') : TermLive m g' := by
  cases ha with
  | found2 t r sr hr => exact ⟨hal _ _ _ hr, fun _ h => h⟩
  | next t sr must seen id hk hs => exact ⟨h.1, h.2, hk, hs⟩
  | send t sr must seen id => exact ⟨h.1, h.2.1⟩
  | _ => trivial

theorem term_cost {m : CMem} {f : String} (g : TermG) (a : GAct String) (g' : TermG) (h : TermLive m g) (ha : TermG.Act m f g a g') :
    termCost m f g' < termCost m f g ∧ ∀ x, a = .emit x → termCost m f g' + 1 < termCost m f g := by
  cases ha with
  | acquire t => exact ⟨by simp only [termCost]; omega, by rintro x ⟨⟩⟩
  | found t r hr => exact ⟨by simp only [termCost, hr]; omega, by rintro x ⟨⟩⟩
  | unknown t hr => exact ⟨by simp only [termCost, hr]; omega, by rintro x ⟨⟩⟩
  | found2 t r sr hr =>
    refine ⟨?_, by rintro x ⟨⟩⟩
    simp only [termCost, hr]
    have := List.length_filter_le (fun d => decide (d ∉ ([] : List String))) (GoMap.keys (m.setCells sr))
    omega
  | unknown2 t r hr => exact ⟨by simp only [termCost, hr]; omega, by rintro x ⟨⟩⟩
  | next t sr must seen id hk hs => exact ⟨by simp only [termCost]; omega, by rintro x ⟨⟩⟩
  | send t sr must seen id =>
    have key : ∀ l : List String, id ∈ l → (l.filter fun d => decide (d ∉ id :: seen)).length < (l.filter fun d => decide (d ∉ seen)).length := by
      intro l hl
      have hle : ∀ l : List String, (l.filter fun d => decide (d ∉ id :: seen)).length ≤ (l.filter fun d => decide (d ∉ seen)).length := by
        intro l
        rw [← List.countP_eq_length_filter, ← List.countP_eq_length_filter]
        apply List.countP_mono_left
        intro x _ hx
        simp only [decide_eq_true_eq, List.mem_cons, not_or] at hx ⊢
        exact hx.2
      induction l with
      | nil => cases hl
      | cons y l ih =>
        rcases List.mem_cons.1 hl with rfl | hl
        · have h1 := hle l
          simp only [List.filter_cons, h.2.2.2, List.mem_cons, true_or, not_true_eq_false, decide_false, decide_true, not_false_eq_true, if_true, Bool.false_eq_true, if_false, List.length_cons]
          simp only [List.mem_cons] at h1
          omega
        · have h1 := ih hl
          simp only [List.filter_cons]
          split
          · rename_i hy
            have : decide (y ∉ seen) = true := by
              simp only [decide_eq_true_eq, List.mem_cons, not_or] at hy ⊢
              exact hy.2
            rw [if_pos this]
            simp only [List.length_cons]; omega
          · split
            · simp only [List.length_cons]; omega
            · omega
    have := key _ h.2.2.1
    refine ⟨by simp only [termCost]; omega, by rintro x ⟨⟩; simp only [termCost]; omega⟩
  | end_ t sr must seen hx => exact ⟨by simp only [termCost]; omega, by rintro x ⟨⟩⟩
  | release => exact ⟨by simp only [termCost]; omega, by rintro x ⟨⟩⟩

theorem set_length_le (m : GoMap String Field) (k : String) (v : Field) : (m.set k v).length ≤ m.length + 1 := by
  by_cases h : k ∈ m.keys
  · rw [GoMap.set_length_of_mem h]; omega
  · rw [GoMap.set_eq_append h]; simp

theorem batch_cost {m : CMem} {f : String} (g : BatchG) (a : GAct (String × Field)) (g' : BatchG) (_ : True) (ha : BatchG.Act m f g a g') :
    batchCost g' < batchCost g ∧ ∀ x, a = .emit x → batchCost g' + 1 < batchCost g := by
  cases ha with
  | acquire ids => exact ⟨by simp only [batchCost, List.length_nil]; omega, by rintro x ⟨⟩⟩
  | found id ids fields r hr => exact ⟨by simp only [batchCost, List.length_cons]; omega, by rintro x ⟨⟩⟩
  | unknown id ids fields hr => exact ⟨by simp only [batchCost, List.length_cons]; omega, by rintro x ⟨⟩⟩
  | found2 id r ids fields fl hr => have := set_length_le fields id fl; exact ⟨by simp only [batchCost]; omega, by rintro x ⟨⟩⟩
  | unknown2 id r ids fields hr => exact ⟨by simp only [batchCost]; omega, by rintro x ⟨⟩⟩
  | range fields rem hp => have := hp.length_eq; exact ⟨by simp only [batchCost]; omega, by rintro x ⟨⟩⟩
  | send e rem => exact ⟨by simp only [batchCost, List.length_cons]; omega, by rintro x ⟨⟩; simp only [batchCost, List.length_cons]; omega⟩
  | release => exact ⟨by simp only [batchCost, List.length_nil]; omega, by rintro x ⟨⟩⟩

/-- where the search is, and the work that is left there. -/
def rank (m : CMem) (f : String) : LSearch → Nat × Nat
  | .readLen => (5, 0)
  | .readSize _ => (4, 0)
  | .readNft _ ts => (3, 2 * ts.length)
  | .readTerm _ _ _ ts => (3, 2 * ts.length + 1)
  | .phase1 _ fan => (2, fan.μ (termCost m f))
  | .phase2 _ fan => (1, fan.μ batchCost)
  | .done _ _ => (0, 0)

/-- the loops are in order, and the semaphore has room. -/
def Ready (m : CMem) : LSearch → Prop
  | .phase1 _ fan => 0 < fan.sem ∧ ∀ g ∈ fan.gs, TermLive m g
  | .phase2 _ fan => 0 < fan.sem
  | _ => True

theorem fan_sem {σ α : Type} {act : σ → GAct α → σ → Prop} {holds fin : σ → Bool} {s s' : LFan σ α} (h : LFan.Step act holds fin s s') : s'.sem = s.sem := by cases h <;> rfl

theorem ready_step {m : CMem} {terms : List String} {f : String} {cpus : Nat} (hc : 0 < cpus) (hal : Alloc m) {q q' : LSearch} (h : Ready m q) (hs : Step m terms f cpus q q') : Ready m q' := by
  cases hs with
  | begin1 st =>
    refine ⟨Nat.mul_pos hc (by decide), ?_⟩
    intro g hg
    obtain ⟨t, -, rfl⟩ := List.mem_map.1 hg
    trivial
  | p1 st s s' hx =>
    refine ⟨by rw [fan_sem hx]; exact h.1, ?_⟩
    exact (LFan.step_all (G := TermLive m) (X := fun _ => True) (fun g a g' hg ha => ⟨term_live hal g a g' hg ha, fun _ _ => trivial⟩) hx ⟨h.2, fun _ _ => trivial⟩).1
  | begin2 st s hf => exact Nat.mul_pos hc (by decide)
  | p2 st s s' hx => show 0 < s'.sem; rw [fan_sem hx]; exact h
  | _ => trivial

theorem ready_mono {s s' : Conc} {i k : Nat} (hs : Conc.Step s i k s') {q : LSearch} (h : Ready s.mem q) : Ready s'.mem q := by
  obtain ⟨h1, h2⟩ := step_sets hs
  cases q with
  | phase1 st fan =>
    refine ⟨h.1, fun g hg => ?_⟩
    have := h.2 g hg
    cases g with
    | iter t sr must seen => exact ⟨Nat.lt_of_lt_of_le this.1 h1, fun x hx => h2 sr this.1 x (this.2 hx)⟩
    | sending t sr must seen id => exact ⟨Nat.lt_of_lt_of_le this.1 h1, fun x hx => h2 sr this.1 x (this.2.1 hx), h2 sr this.1 _ this.2.2.1, this.2.2.2⟩
    | _ => trivial
  | _ => exact h

theorem rank_step {m : CMem} {terms : List String} {f : String} {cpus : Nat} {q q' : LSearch} (h : Ready m q) (hs : Step m terms f cpus q q') :
    Prod.Lex (· < ·) (· < ·) (rank m f q') (rank m f q) := by
  cases hs with
  | readLen => exact .left _ _ (by decide)
  | readSize st => exact .left _ _ (by decide)
  | nftFound st t ts r hr => exact .right _ (by simp only [List.length_cons]; omega)
  | nftUnknown st t ts hr => exact .right _ (by simp only [List.length_cons]; omega)
  | readTerm st r t ts => exact .right _ (by omega)
  | begin1 st => exact .left _ _ (by decide)
  | p1 st s s' hx => exact .right _ (LFan.step_μ term_cost h.2 hx)
  | begin2 st s hf => exact .left _ _ (by decide)
  | p2 st s s' hx => exact .right _ (LFan.step_μ (G := fun _ => True) batch_cost (fun _ _ => trivial) hx)
  | finish st s hf => exact .left _ _ (by decide)

theorem progress {m : CMem} {terms : List String} {f : String} {cpus : Nat} {q : LSearch} (h : Ready m q) (hd : ∀ st docs, q ≠ .done st docs) : ∃ q', Step m terms f cpus q q' := by
  cases q with
  | readLen => exact ⟨_, .readLen⟩
  | readSize st => exact ⟨_, .readSize st⟩
  | readNft st ts =>
    cases ts with
    | nil => exact ⟨_, .begin1 st⟩
    | cons t ts =>
      cases hr : m.numberFieldTerm.get? f with
      | none => exact ⟨_, .nftUnknown st t ts hr⟩
      | some r => exact ⟨_, .nftFound st t ts r hr⟩
  | readTerm st r t ts => exact ⟨_, .readTerm st r t ts⟩
  | phase1 st fan =>
    by_cases hf : fan.Finished
    · exact ⟨_, .begin2 st fan hf⟩
    · obtain ⟨fan', hx⟩ := LFan.progress (act := TermG.Act m f) (holds := TermG.holds) (fin := TermG.fin) (by intro g; cases g <;> simp [TermG.fin, TermG.holds]) h.1 (by
        intro g hg
        have hl := h.2 g hg
        cases g with
        | waiting t => exact .inr (.inl ⟨rfl, _, .acquire t⟩)
        | look t =>
          refine .inr (.inr ⟨rfl, ?_⟩)
          cases hr : m.index.get? f with
          | none => exact ⟨_, .inl (.unknown t hr)⟩
          | some r => exact ⟨_, .inl (.found t r hr)⟩
        | look2 t r =>
          refine .inr (.inr ⟨rfl, ?_⟩)
          cases hr : (m.idxCells r).get? t with
          | none => exact ⟨_, .inl (.unknown2 t r hr)⟩
          | some sr => exact ⟨_, .inl (.found2 t r sr hr)⟩
        | iter t sr must seen =>
          refine .inr (.inr ⟨rfl, ?_⟩)
          by_cases hx : ∀ id ∈ must, id ∈ seen
          · exact ⟨_, .inl (.end_ t sr must seen hx)⟩
          · have ⟨id, h1, h2⟩ : ∃ id ∈ must, id ∉ seen := Classical.byContradiction fun h => hx fun id hi => Classical.byContradiction fun h' => h ⟨id, hi, h'⟩
            exact ⟨_, .inl (.next t sr must seen id (hl.2 h1) h2)⟩
        | sending t sr must seen id => exact .inr (.inr ⟨rfl, _, .inr (.inr ⟨id, .send t sr must seen id⟩)⟩)
        | leaving => exact .inr (.inr ⟨rfl, _, .inr (.inl .release)⟩)
        | done => exact .inl rfl) hf
      exact ⟨_, .p1 st fan fan' hx⟩
  | phase2 st fan =>
    by_cases hf : fan.Finished
    · exact ⟨_, .finish st fan hf⟩
    · obtain ⟨fan', hx⟩ := LFan.progress (act := BatchG.Act m f) (holds := BatchG.holds) (fin := BatchG.fin) (by intro g; cases g <;> simp [BatchG.fin, BatchG.holds]) h (by
        intro g hg
        cases g with
        | waiting t => exact .inr (.inl ⟨rfl, _, .acquire t⟩)
        | look ids fields =>
          refine .inr (.inr ⟨rfl, ?_⟩)
          cases ids with
          | nil => exact ⟨_, .inl (.range fields fields (.refl _))⟩
          | cons id ids =>
            cases hr : m.fieldDocument.get? id with
            | none => exact ⟨_, .inl (.unknown id ids fields hr)⟩
            | some r => exact ⟨_, .inl (.found id ids fields r hr)⟩
        | look2 id r ids fields =>
          refine .inr (.inr ⟨rfl, ?_⟩)
          cases hr : (m.docCells r).get? f with
          | none => exact ⟨_, .inl (.unknown2 id r ids fields hr)⟩
          | some fl => exact ⟨_, .inl (.found2 id r ids fields fl hr)⟩
        | sending rem =>
          refine .inr (.inr ⟨rfl, ?_⟩)
          cases rem with
          | nil => exact ⟨_, .inr (.inl .release)⟩
          | cons e rem => exact ⟨_, .inr (.inr ⟨e, .send e rem⟩)⟩
        | done => exact .inl rfl) hf
      exact ⟨_, .p2 st fan fan' hx⟩
  | done st docs => exact absurd rfl (hd st docs)

/-- left alone, a search ends. -/
theorem finish {m : CMem} (hal : Alloc m) {terms : List String} {f : String} {cpus : Nat} (hc : 0 < cpus) (q : LSearch) (h : Ready m q) :
    ∃ st docs, Reaches (Step m terms f cpus) q (.done st docs) := by
  have wf : WellFounded (Prod.Lex (· < ·) (· < ·) : Nat × Nat → Nat × Nat → Prop) := (Prod.lex ⟨_, Nat.lt_wfRel.wf⟩ ⟨_, Nat.lt_wfRel.wf⟩).wf
  generalize hm : rank m f q = n
  induction n using wf.induction generalizing q with
  | _ n ih =>
    by_cases hd : ∃ st docs, q = .done st docs
    · obtain ⟨st, docs, rfl⟩ := hd
      exact ⟨st, docs, .refl _⟩
    · obtain ⟨q', hq⟩ := progress (terms := terms) (f := f) (cpus := cpus) h (fun st docs e => hd ⟨st, docs, e⟩)
      obtain ⟨st, docs, h1⟩ := ih _ (by rw [← hm]; exact rank_step h hq) q' (ready_step hc hal h hq) rfl
      exact ⟨st, docs, (Reaches.single hq).trans h1⟩

end LSearch

namespace Live

/-- the clients' work first, then that of the search. -/
def rank (f : String) (s : Live) : Nat × (Nat × Nat) := (s.conc.cost, LSearch.rank s.conc.mem f s.search)

/-- the order of the ranks. -/
def Less : Nat × (Nat × Nat) → Nat × (Nat × Nat) → Prop := Prod.Lex (· < ·) (Prod.Lex (· < ·) (· < ·))

theorem less_wf : WellFounded Less := (Prod.lex ⟨_, Nat.lt_wfRel.wf⟩ (Prod.lex ⟨_, Nat.lt_wfRel.wf⟩ ⟨_, Nat.lt_wfRel.wf⟩)).wf

theorem ready_inv {progs : List (List StoreOp)} {terms : List String} {f : String} {cpus : Nat} (hc : 0 < cpus) {s s' : Live} (h : Base progs s ∧ LSearch.Ready s.conc.mem s.search)
    (hs : Step terms f cpus s s') : Base progs s' ∧ LSearch.Ready s'.conc.mem s'.search := by
  refine ⟨base_step h.1 hs, ?_⟩
  cases hs with
  | client c i k hx => exact LSearch.ready_mono (step_Step hx) h.2
  | search q hq =>
    obtain ⟨sched, hr⟩ := h.1.run
    exact LSearch.ready_step hc (alloc_run hr) h.2 hq

theorem rank_step {terms : List String} {f : String} {cpus : Nat} {s s' : Live} (h : LSearch.Ready s.conc.mem s.search) (hs : Step terms f cpus s s') : Less (rank f s') (rank f s) := by
  cases hs with
  | client c i k hx => exact .left _ _ (step_cost (step_Step hx))
  | search q hq => exact .right _ (LSearch.rank_step h hq)

theorem lift {terms : List String} {f : String} {cpus : Nat} {c : Conc} {q q' : LSearch} (h : Reaches (LSearch.Step c.mem terms f cpus) q q') : Reaches (Step terms f cpus) ⟨c, q⟩ ⟨c, q'⟩ := by
  exact h.invariant (P := fun q' => Reaches (Step terms f cpus) ⟨c, q⟩ ⟨c, q'⟩) (.refl _) fun _ _ ih hs => ih.tail (.search ⟨c, _⟩ _ hs)

end Live

/-- **C88 A search ends, also while clients save.** In every state that a run can come to in which the search has not returned, one of its goroutines can make a step, without any step of a client;
and there is no infinite run: clients with finitely many calls to make cannot keep a search from returning. -/
theorem c88_live_search_ends {progs : List (List StoreOp)} {s₀ : Conc} {sched : List (Nat × Nat)} (h₀ : (Conc.init progs).run sched = some s₀) {terms : List String} {f : String} {cpus : Nat}
    (hc : 0 < cpus) :
    (∀ s, Reaches (Live.Step terms f cpus) ⟨s₀, .readLen⟩ s → (∀ st docs, s.search ≠ .done st docs) → ∃ q, LSearch.Step s.conc.mem terms f cpus s.search q) ∧
    ¬ ∃ run : Nat → Live, run 0 = ⟨s₀, .readLen⟩ ∧ ∀ n, Live.Step terms f cpus (run n) (run (n + 1)) := by
  have inv : ∀ s, Reaches (Live.Step terms f cpus) ⟨s₀, .readLen⟩ s → Live.Base progs s ∧ LSearch.Ready s.conc.mem s.search := fun s h =>
    h.invariant (P := fun s => Live.Base progs s ∧ LSearch.Ready s.conc.mem s.search) ⟨Live.base_start h₀ _, trivial⟩ (fun _ _ h hs => Live.ready_inv hc h hs)
  refine ⟨fun s hs hd => LSearch.progress (inv s hs).2 hd, ?_⟩
  rintro ⟨run, h0, hr⟩
  have hreach : ∀ n, Reaches (Live.Step terms f cpus) ⟨s₀, .readLen⟩ (run n) := by
    intro n
    induction n with
    | zero => rw [h0]; exact .refl _
    | succ n ih => exact ih.tail (hr n)
  have : ∀ m n, Live.rank f (run n) = m → False := by
    intro m
    induction m using Live.less_wf.induction with
    | _ m ih =>
      intro n hn
      exact ih _ (by rw [← hn]; exact Live.rank_step (inv _ (hreach n)).2 (hr n)) (n + 1) rfl
  exact this _ 0 rfl

end Goir
