import Verif.Model.Server
import Verif.Props.LiveDiskFinds
/-!
# The searches of a server are clients that read
-/
namespace Goir
open GoMap Spec

namespace CDisk

/-- more clients change nothing for the others, also when the process ends or starts. -/
theorem step_any {s s' : CDisk} {a : Act} (hs : Step s a s') (ex : List DClient) (A : List (List String × String × GoMap String Field)) (hex : s.up = false → ex = []) :
    ∃ A', Step (s.re (s.clients ++ ex) A) a (s'.re (s'.clients ++ if s'.up = true then ex else []) A') ∧ (s'.up = true → ∀ x ∈ A, x ∈ A') := by
  cases h0 : s.up with
  | false =>
    rw [hex h0]
    simp only [ite_self, List.append_nil]
    have off : s.up = true → False := fun h => (by rw [h0] at h; cases h)
    cases hs with
    | recvM hi hc he => exact ⟨A, .recvM (s := s.re s.clients A) hi hc he, fun _ _ h => h⟩
    | recvN hi hc he => exact ⟨A, .recvN (s := s.re s.clients A) hi hc he, fun _ _ h => h⟩
    | recvD hi hc he => exact ⟨A, .recvD (s := s.re s.clients A) hi hc he, fun _ _ h => h⟩
    | ix hb hu he hp => exact ⟨A, .ix (s := s.re s.clients A) hb hu he hp, fun _ _ h => h⟩
    | ixDown hb hu he hp => exact ⟨[], .ixDown (s := s.re s.clients A) hb hu he hp, fun h => (by simp [stop] at h)⟩
    | stepM he => exact ⟨A, .stepM (s := s.re s.clients A) he, fun _ _ h => h⟩
    | stepN he => exact ⟨A, .stepN (s := s.re s.clients A) he, fun _ _ h => h⟩
    | stepD he => exact ⟨A, .stepD (s := s.re s.clients A) he, fun _ _ h => h⟩
    | crash he => exact ⟨[], .crash (s := s.re s.clients A) he, fun h => (by simp [stop] at h)⟩
    | open_ he => exact ⟨A, .open_ (s := s.re s.clients A) he, fun _ _ h => h⟩
    | openRest hp hu hm hn => exact ⟨A, .openRest (s := s.re s.clients A) hp hu hm hn, fun _ _ h => h⟩
    | beginWrite hu => exact (off hu).elim
    | beginRead hu => exact (off hu).elim
    | acc hu => exact (off hu).elim
    | accReturn hu => exact (off hu).elim
    | msgLen hu => exact (off hu).elim
    | msgSize hu => exact (off hu).elim
    | sendI hu => exact (off hu).elim
    | msgN hu => exact (off hu).elim
    | docHit hu => exact (off hu).elim
    | docMiss hu => exact (off hu).elim
    | docSet hu => exact (off hu).elim
    | docPut hu => exact (off hu).elim
    | readEnd hu => exact (off hu).elim
    | readHit hu => exact (off hu).elim
    | readMiss hu => exact (off hu).elim
    | readField hu => exact (off hu).elim
    | readAbsent hu => exact (off hu).elim
    | readLoad hu => exact (off hu).elim
    | readPut hu => exact (off hu).elim
    | tickM hu => exact (off hu).elim
    | tickN hu => exact (off hu).elim
    | tickD hu => exact (off hu).elim
  | true =>
    cases h1 : s'.up with
    | true =>
      obtain ⟨A', h2, h3⟩ := step_more hs (DLive.noOpen_up hs h0) h1 ex A
      exact ⟨A', by simpa using h2, fun _ => h3⟩
    | false =>
      simp only [Bool.false_eq_true, if_false, List.append_nil]
      cases hs with
      | ixDown hb hu he hp => exact ⟨[], .ixDown (s := s.re (s.clients ++ ex) A) hb hu he hp, fun h => (by cases h)⟩
      | crash he => exact ⟨[], .crash (s := s.re (s.clients ++ ex) A) he, fun h => (by cases h)⟩
      | openRest hp hu => rw [h0] at hu; cases hu
      | _ => exact absurd (show s.up = false from h1) (by rw [h0]; decide)

end CDisk

namespace DLive
open CDisk

/-- a search does not depend on the other clients. -/
theorem move_re {terms : List String} {f : String} {cpus : Nat} {d d' : CDisk} {q q' : DSearch} (h : Move terms f cpus ⟨d, q⟩ ⟨d', q'⟩) (cs : List DClient)
    (A : List (List String × String × GoMap String Field)) : Move terms f cpus ⟨d.re cs A, q⟩ ⟨d'.re cs A, q'⟩ := by
  cases h with
  | first _ q q' hx he => exact .first _ q q' hx he
  | begin2 _ st fan hf => exact .begin2 _ st fan hf
  | p2 _ st fan fan' hx => exact .p2 _ st fan fan' hx
  | fetch _ _ st fan i ids loc loc' hg hx => exact .fetch _ _ st fan i ids loc loc' hg (by rw [rexec_re, hx]; rfl)
  | fetched _ _ st fan i ids loc out rem hg hx hp => exact .fetched _ _ st fan i ids loc out rem hg (by rw [rexec_re, hx]; rfl) hp
  | finish _ st fan hf => exact .finish _ st fan hf

theorem move_up {terms : List String} {f : String} {cpus : Nat} {s s' : DLive} (h : Move terms f cpus s s') : s'.disk.up = s.disk.up := by
  cases h with
  | fetch d d' st fan i ids loc loc' hg hx => exact (rexec_clients hx).2.2
  | fetched d d' st fan i ids loc out rem hg hx hp => exact (rexec_clients hx).2.2
  | _ => rfl

end DLive

namespace Server
open CDisk DLive
variable {F : Type}

/-- a property of stores, also of stores that are not running, that does not care how many clients there are that only read. -/
structure Steady (allow : CDisk.Act → Prop) (P : CDisk → Prop) : Prop where
  step : ∀ s a s', P s → CDisk.Step s a s' → allow a → P s'
  idle : ∀ (s : CDisk) (cs : List DClient), P s → s.up = true → (∀ cl ∈ cs, cl ∈ s.clients ∨ (cl.cur = none ∧ writes cl.todo = [])) → P (s.re cs s.answers)

theorem Steady.robust {allow : CDisk.Act → Prop} {P : CDisk → Prop} (h : Steady allow P) (ha : ∀ a, noOpen a = true → allow a) : Robust fun s => P s ∧ s.up = true where
  step s a s' hp hs hno hup := ⟨h.step s a s' hp.1 hs (ha a hno), hup⟩
  idle s cs hp hcs := ⟨h.idle s cs hp.1 hp.2 hcs, hp.2⟩

/-- the clients that stand for the goroutines of a query. -/
def threadReaders : Query F × DQ → List DClient
  | (q, .running x) => DLive.readers q.fieldName x
  | (_, .sent) => []

/-- … and of all searches. -/
def readers (reqs : List (DReq F)) : List DClient := reqs.flatMap fun r => r.threads.flatMap threadReaders

theorem mem_readers {reqs : List (DReq F)} {cl : DClient} : cl ∈ readers reqs ↔ ∃ r ∈ reqs, ∃ q x, (q, DQ.running x) ∈ r.threads ∧ cl ∈ DLive.readers q.fieldName x := by
  unfold readers
  simp only [List.mem_flatMap]
  constructor
  · rintro ⟨r, hr, ⟨q, t⟩, ht, hc⟩
    cases t with
    | running x => exact ⟨r, hr, q, x, ht, hc⟩
    | sent => cases hc
  · rintro ⟨r, hr, q, x, ht, hc⟩
    exact ⟨r, hr, _, ht, hc⟩

/-- the store has the property, with the goroutines of the searches as clients; and the searches send what they were given. -/
def Held (P : CDisk → Prop) (s : Server F) : Prop :=
  (s.disk.up = false → s.reqs = []) ∧ ∃ A, P (s.disk.re (s.disk.clients ++ readers s.reqs) A) ∧ ∀ r ∈ s.reqs, ∀ q x, (q, DQ.running x) ∈ r.threads → SRead q.fieldName A x

theorem Held.up {P : CDisk → Prop} {s : Server F} (h : Held P s) {r : DReq F} (hr : r ∈ s.reqs) : s.disk.up = true := by
  cases hu : s.disk.up with
  | true => rfl
  | false => rw [h.1 hu] at hr; cases hr

/-- the search of one query, seen alone. -/
theorem Held.sim {allow : CDisk.Act → Prop} {P : CDisk → Prop} (hP : Steady allow P) {s : Server F} (h : Held P s) {r : DReq F} (hr : r ∈ s.reqs) {q : Query F} {x : DSearch} (hx : (q, .running x) ∈ r.threads) :
    Sim (fun s => P s ∧ s.up = true) q.fieldName ⟨s.disk, x⟩ := by
  have hu := h.up hr
  obtain ⟨-, A, hp, hs⟩ := h
  refine ⟨hu, A, ⟨?_, hu⟩, hs r hr q x hx⟩
  refine hP.idle _ (s.disk.clients ++ DLive.readers q.fieldName x) hp hu ?_
  intro cl hcl
  rcases List.mem_append.1 hcl with hcl | hcl
  · exact .inl (List.mem_append_left _ hcl)
  · exact .inl (List.mem_append_right _ (mem_readers.2 ⟨r, hr, q, x, hx, hcl⟩))

theorem Held.store {allow : CDisk.Act → Prop} {P : CDisk → Prop} (hP : Steady allow P) {s : Server F} (h : Held P s) : P (s.disk.re s.disk.clients s.disk.answers) ∨ ∃ A, P (s.disk.re s.disk.clients A) := by
  obtain ⟨h0, A, hp, -⟩ := h
  refine .inr ⟨A, ?_⟩
  cases hu : s.disk.up with
  | false => rw [h0 hu] at hp; simpa [readers] using hp
  | true => exact hP.idle _ s.disk.clients hp hu fun cl hcl => .inl (List.mem_append_left _ hcl)

theorem held_step [GoFloat F] {allow : CDisk.Act → Prop} {P : CDisk → Prop} (hP : Steady allow P) (ha : ∀ a, noOpen a = true → allow a) {cpus : Nat} {s s' : Server F} (h : Held P s)
    (hs : Step allow cpus s s') : Held P s' := by
  have hup := @Held.up F P s h
  obtain ⟨h0, A, hp, hr⟩ := h
  cases hs with
  | store a d hal hx =>
    obtain ⟨A', h1, h2⟩ := step_any (exec_step hx) (readers s.reqs) A (fun hu => by rw [h0 hu]; rfl)
    have h3 := hP.step _ _ _ hp h1 hal
    cases hd : d.up with
    | true =>
      rw [if_pos hd] at h3
      refine ⟨fun hu => (by have hu : d.up = false := hu; rw [hd] at hu; cases hu), A', by simpa using h3, ?_⟩
      intro r hm q x hx
      exact (hr r (by simpa using hm) q x hx).mono (h2 hd)
    | false =>
      rw [if_neg (by rw [hd]; decide)] at h3
      exact ⟨fun _ => by simp, A', by simpa [readers] using h3, by intro r hm; simp at hm⟩
  | arrive query hu =>
    refine ⟨fun h => (by have h : s.disk.up = false := h; rw [hu] at h; cases h), A, ?_, ?_⟩
    · refine hP.idle _ _ hp hu fun cl hcl => ?_
      rcases List.mem_append.1 hcl with hcl | hcl
      · exact .inl (List.mem_append_left _ hcl)
      · obtain ⟨r, hr, q, x, hx, hc⟩ := mem_readers.1 hcl
        rcases List.mem_append.1 hr with hr | hr
        · exact .inl (List.mem_append_right _ (mem_readers.2 ⟨r, hr, q, x, hx, hc⟩))
        · cases List.mem_singleton.1 hr
          obtain ⟨q', -, e⟩ := List.mem_map.1 hx
          cases e
          cases hc
    · intro r hm q x hx
      rcases List.mem_append.1 hm with hm | hm
      · exact hr r hm q x hx
      · cases List.mem_singleton.1 hm
        obtain ⟨q', -, e⟩ := List.mem_map.1 hx
        cases e
        trivial
  | req i r r' d hi hm =>
    have hmem := List.mem_of_getElem? hi
    have hu := hup hmem
    have down : ∀ {d' : CDisk} {reqs : List (DReq F)}, d'.up = true → (d'.up = false → reqs = []) := fun h1 h2 => (by rw [h1] at h2; cases h2)
    -- a step that begins no goroutine
    have quiet : ∀ {r'' : DReq F}, (∀ q x, (q, DQ.running x) ∈ r''.threads → (q, DQ.running x) ∈ r.threads) → Held P { disk := s.disk, reqs := s.reqs.set i r'' } := by
      intro r'' hsub
      have old : ∀ r0 ∈ s.reqs.set i r'', ∀ q x, (q, DQ.running x) ∈ r0.threads → ∃ r1 ∈ s.reqs, (q, DQ.running x) ∈ r1.threads := by
        intro r0 hr0 q x hx
        rcases LFan.mem_set' hr0 with rfl | hr0
        · exact ⟨r, hmem, hsub q x hx⟩
        · exact ⟨r0, hr0, hx⟩
      refine ⟨down hu, A, hP.idle _ _ hp hu fun cl hcl => ?_, fun r0 hr0 q x hx => ?_⟩
      · rcases List.mem_append.1 hcl with hcl | hcl
        · exact .inl (List.mem_append_left _ hcl)
        · obtain ⟨r0, hr0, q, x, hx, hc⟩ := mem_readers.1 hcl
          obtain ⟨r1, hr1, h1⟩ := old r0 hr0 q x hx
          exact .inl (List.mem_append_right _ (mem_readers.2 ⟨r1, hr1, q, x, h1, hc⟩))
      · obtain ⟨r1, hr1, h1⟩ := old r0 hr0 q x hx
        exact hr r1 hr1 q x h1
    cases hm with
    | inner _ _ j q x x' ht hmv =>
      have htm := List.mem_of_getElem? ht
      -- the others as clients of the store
      have h1 : P (embed q.fieldName ⟨s.disk.re (s.disk.clients ++ readers s.reqs) A, x⟩ A) := by
        refine hP.idle _ (s.disk.clients ++ readers s.reqs ++ DLive.readers q.fieldName x) hp hu fun cl hcl => ?_
        rcases List.mem_append.1 hcl with hcl | hcl
        · exact .inl hcl
        · exact .inl (List.mem_append_right _ (mem_readers.2 ⟨r, hmem, q, x, htm, hcl⟩))
      obtain ⟨hu', A', ⟨h2, -⟩, h3, h4⟩ := sim_move (hP.robust ha) hu ⟨h1, hu⟩ (hr r hmem q x htm) (move_re hmv (s.disk.clients ++ readers s.reqs) A)
      have hu' : d.up = true := hu'
      have ecl := (move_frame hmv).1
      have old : ∀ r0 ∈ s.reqs.set i { r with threads := r.threads.set j (q, .running x') }, ∀ q0 x0, (q0, DQ.running x0) ∈ r0.threads →
          (q0 = q ∧ x0 = x') ∨ ∃ r1 ∈ s.reqs, (q0, DQ.running x0) ∈ r1.threads := by
        intro r0 hr0 q0 x0 hx0
        rcases LFan.mem_set' hr0 with rfl | hr0
        · rcases LFan.mem_set' hx0 with e | hx0
          · cases e; exact .inl ⟨rfl, rfl⟩
          · exact .inr ⟨r, hmem, hx0⟩
        · exact .inr ⟨r0, hr0, hx0⟩
      refine ⟨down hu', A', hP.idle _ _ h2 hu' fun cl hcl => ?_, fun r0 hr0 q0 x0 hx0 => ?_⟩
      · rcases List.mem_append.1 hcl with hcl | hcl
        · have hcl : cl ∈ d.clients := hcl
          rw [ecl] at hcl
          exact .inl (List.mem_append_left _ (List.mem_append_left _ hcl))
        · obtain ⟨r0, hr0, q0, x0, hx0, hc⟩ := mem_readers.1 hcl
          rcases old r0 hr0 q0 x0 hx0 with ⟨rfl, rfl⟩ | ⟨r1, hr1, h5⟩
          · exact .inl (List.mem_append_right _ hc)
          · exact .inl (List.mem_append_left _ (List.mem_append_right _ (mem_readers.2 ⟨r1, hr1, q0, x0, h5, hc⟩)))
      · rcases old r0 hr0 q0 x0 hx0 with ⟨rfl, rfl⟩ | ⟨r1, hr1, h5⟩
        · exact h3
        · exact (hr r1 hr1 q0 x0 h5).mono h4
    | send _ j q st docs order ht ho hc =>
      refine quiet fun q0 x0 h => ?_
      rcases LFan.mem_set' h with e | h
      · cases e
      · exact h
    | close _ hd hc => exact quiet fun _ _ h => h
    | recv _ l q hq => exact quiet fun _ _ h => h
    | return_ _ order l hf hr' ho hl => exact quiet fun _ _ h => h

end Server
end Goir
