import Verif.Model.FanIn
/-! # The fan-in terminates and delivers every element once -/
namespace Goir.FanIn
variable {α : Type}

/-- what a goroutine still has to send. -/
def todo : Sender α → List α
  | .waiting src => src
  | .sending rem => rem
  | .done => []

/-- steps a goroutine still has to make, counting two for a message. -/
def cost : Sender α → Nat
  | .waiting src => 2 * src.length + 2
  | .sending rem => 2 * rem.length + 1
  | .done => 0

/-- the measure. -/
def μ (s : FanIn α) : Nat := (s.senders.map cost).sum + s.chan.length + (if s.closed then 0 else 1)

/-- the invariant: nothing is lost, nothing is duplicated. -/
structure Inv (srcs : List (List α)) (s : FanIn α) : Prop where
  perm : (s.out ++ s.chan ++ s.senders.flatMap todo).Perm srcs.flatten
  closed : s.closed = true → ∀ p ∈ s.senders, p = .done

theorem sum_set (l : List (Sender α)) (i : Nat) (p p' : Sender α) (h : l[i]? = some p) :
    ((l.set i p').map cost).sum + cost p = (l.map cost).sum + cost p' := by
  induction l generalizing i with
  | nil => simp at h
  | cons x l ih =>
    cases i with
    | zero => simp only [List.getElem?_cons_zero, Option.some.injEq] at h; subst h; simp; omega
    | succ i =>
      simp only [List.getElem?_cons_succ] at h
      have := ih i h
      simp only [List.set_cons_succ, List.map_cons, List.sum_cons]
      omega

theorem flatMap_set (l : List (Sender α)) (i : Nat) (p p' : Sender α) (h : l[i]? = some p) (hp : (todo p').Perm (todo p)) :
    ((l.set i p').flatMap todo).Perm (l.flatMap todo) := by
  induction l generalizing i with
  | nil => simp at h
  | cons x l ih =>
    cases i with
    | zero =>
      simp only [List.getElem?_cons_zero, Option.some.injEq] at h; subst h
      simp only [List.set_cons_zero, List.flatMap_cons]
      exact hp.append_right _
    | succ i =>
      simp only [List.getElem?_cons_succ] at h
      simp only [List.set_cons_succ, List.flatMap_cons]
      exact (ih i h).append_left _

theorem flatMap_take (l : List (Sender α)) (i : Nat) (x : α) (rem : List α) (h : l[i]? = some (.sending (x :: rem))) :
    (x :: (l.set i (.sending rem)).flatMap todo).Perm (l.flatMap todo) := by
  induction l generalizing i with
  | nil => simp at h
  | cons y l ih =>
    cases i with
    | zero =>
      simp only [List.getElem?_cons_zero, Option.some.injEq] at h; subst h
      simp only [List.set_cons_zero, List.flatMap_cons, todo, List.cons_append]
      exact .refl _
    | succ i =>
      simp only [List.getElem?_cons_succ] at h
      simp only [List.set_cons_succ, List.flatMap_cons]
      refine .trans ?_ ((ih i h).append_left _)
      exact (List.perm_middle).symm

theorem not_done {l : List (Sender α)} {i : Nat} {p : Sender α} (h : l[i]? = some p) (hp : p ≠ .done) : ¬ ∀ q ∈ l, q = .done :=
  fun hd => hp (hd p (List.mem_of_getElem? h))

theorem start_inv (srcs : List (List α)) (cap sem : Nat) : Inv srcs (start srcs cap sem) := by
  refine ⟨?_, fun h => (by cases h)⟩
  simp only [start, List.nil_append, List.flatMap_map, todo]
  rw [List.flatMap_id']

theorem step_inv {srcs : List (List α)} {s s' : FanIn α} (h : Inv srcs s) (hs : Step s s') : Inv srcs s' := by
  have hp := h.perm
  cases hs with
  | acquire i src items hi hsem hperm =>
    refine ⟨?_, fun hc => absurd (h.closed hc) (not_done hi (by simp))⟩
    exact ((flatMap_set _ i _ (.sending items) hi hperm).append_left _).trans hp
  | send i x rem hi hc =>
    refine ⟨?_, fun hc => absurd (h.closed hc) (not_done hi (by simp))⟩
    refine .trans ?_ hp
    simp only [List.append_assoc]
    refine List.Perm.append_left _ (List.Perm.append_left _ ?_)
    exact flatMap_take _ i x rem hi
  | handoff i x rem hi hc =>
    refine ⟨?_, fun hc => absurd (h.closed hc) (not_done hi (by simp))⟩
    refine .trans ?_ hp
    simp only [List.append_assoc]
    refine List.Perm.append_left _ ?_
    simp only [List.singleton_append]
    refine .trans ?_ (List.Perm.append_left _ (flatMap_take _ i x rem hi))
    exact List.perm_middle.symm
  | release i hi =>
    refine ⟨?_, fun hc => absurd (h.closed hc) (not_done hi (by simp))⟩
    exact ((flatMap_set _ i _ _ hi (by simp [todo])).append_left _).trans hp
  | close hd hc => exact ⟨hp, fun _ => hd⟩
  | recv x q hq =>
    refine ⟨?_, h.closed⟩
    rw [hq] at hp
    simpa using hp

theorem step_static {s s' : FanIn α} (hs : Step s s') : s'.sem = s.sem ∧ s'.cap = s.cap := by cases hs <;> exact ⟨rfl, rfl⟩

theorem step_μ {s s' : FanIn α} (hs : Step s s') : s'.μ < s.μ := by
  cases hs with
  | acquire i src items hi hsem hperm =>
    have := sum_set _ i _ (.sending items) hi
    have hl := hperm.length_eq
    simp only [cost] at this
    unfold μ; simp only; omega
  | send i x rem hi hc =>
    have := sum_set _ i _ (.sending rem) hi
    simp only [cost, List.length_cons] at this
    unfold μ; simp only [List.length_append, List.length_cons, List.length_nil]; omega
  | handoff i x rem hi hc =>
    have := sum_set _ i _ (.sending rem) hi
    simp only [cost, List.length_cons] at this
    unfold μ; simp only; omega
  | release i hi =>
    have := sum_set _ i _ .done hi
    simp only [cost, List.length_nil] at this
    unfold μ; simp only; omega
  | close hd hc => unfold μ; simp only [hc]; simp
  | recv x q hq => unfold μ; simp only [hq, List.length_cons]; omega

/-- no deadlock: if the main goroutine is still in its loop, some goroutine can make a step. -/
theorem progress {s : FanIn α} (hsem : 0 < s.sem) (hf : ¬ s.Finished) : ∃ s', Step s s' := by
  cases hc : s.chan with
  | cons x q => exact ⟨_, .recv s x q hc⟩
  | nil =>
    by_cases hd : ∀ p ∈ s.senders, p = .done
    · cases hcl : s.closed with
      | false => exact ⟨_, .close s hd hcl⟩
      | true => exact absurd ⟨hcl, hc⟩ hf
    · by_cases hh : ∃ p ∈ s.senders, holds p = true
      · obtain ⟨p, hp, hh⟩ := hh
        obtain ⟨i, hi⟩ := List.getElem?_of_mem hp
        match p, hh, hi with
        | .sending [], _, hi => exact ⟨_, .release s i hi⟩
        | .sending (x :: rem), _, hi =>
          by_cases hcap : s.cap = 0
          · exact ⟨_, .handoff s i x rem hi hcap⟩
          · exact ⟨_, .send s i x rem hi (by rw [hc]; simp; omega)⟩
      · have hz : s.senders.countP holds = 0 := by
          rw [List.countP_eq_zero]
          intro p hp hx; exact hh ⟨p, hp, hx⟩
        have ⟨p, hp, hpd⟩ : ∃ p ∈ s.senders, p ≠ .done := Classical.byContradiction fun h =>
          hd fun p hp => Classical.byContradiction fun h' => h ⟨p, hp, h'⟩
        obtain ⟨i, hi⟩ := List.getElem?_of_mem hp
        match p, hpd, hi with
        | .done, hpd, _ => exact absurd rfl hpd
        | .sending rem, _, _ => exact absurd ⟨_, hp, rfl⟩ hh
        | .waiting src, _, hi => exact ⟨_, .acquire s i src src hi (by omega) (.refl _)⟩

/-- when it leaves its loop, the main goroutine has received every element of every collection. -/
theorem finished_out {srcs : List (List α)} {s : FanIn α} (h : Inv srcs s) (hf : s.Finished) : s.out.Perm srcs.flatten := by
  have hp := h.perm
  have hd := h.closed hf.1
  rw [hf.2] at hp
  have : s.senders.flatMap todo = [] := by
    rw [List.flatMap_eq_nil_iff]
    intro p hp; rw [hd p hp]; rfl
  rw [this] at hp
  simpa using hp

theorem start_μ (srcs : List (List α)) (cap sem : Nat) : (start srcs cap sem).μ = 2 * srcs.flatten.length + 2 * srcs.length + 1 := by
  unfold μ start
  simp only [List.map_map, List.length_nil]
  have : ∀ l : List (List α), (l.map (cost ∘ .waiting)).sum = 2 * l.flatten.length + 2 * l.length := by
    intro l
    induction l with
    | nil => rfl
    | cons x l ih => simp only [List.map_cons, List.sum_cons, ih, Function.comp, cost, List.flatten_cons, List.length_append, List.length_cons]; omega
  rw [this]; simp

end Goir.FanIn
