import Verif.Model.LiveDisk
import Verif.Props.ConcurrentDiskDocs
import Verif.Props.LiveSearchRest
/-!
# A search of a live Disk store is a few more clients that read
-/
namespace Goir
open GoMap Spec

namespace CDisk

/-- the converse of `exec_step`. -/
theorem step_exec {s s' : CDisk} {a : Act} (h : Step s a s') : s.exec a = some s' := by
  cases h with
  | beginWrite hu hi hc ht => simp [exec, hu, client, hi, hc, ht]
  | beginRead hu hi hc ht => simp [exec, hu, client, hi, hc, ht]
  | acc hu hi hc he hn => simp [exec, hu, client, hi, hc, wexec, he, hn, setCur]
  | accReturn hu hi hc he hn => simp [exec, hu, client, hi, hc, wexec, he, hn, setCur]
  | msgLen hu hi hc => simp [exec, hu, client, hi, hc, wexec, setCur]
  | msgSize hu hi hc => simp [exec, hu, client, hi, hc, wexec, setCur]
  | sendI hu hi hc he => simp [exec, hu, client, hi, hc, wexec, he, setCur]
  | msgN hu hi hc => simp [exec, hu, client, hi, hc, wexec, setCur]
  | @docHit i k cl op r hu hi hc hr =>
    have : s.cache.get op.doc = ((s.cache.get op.doc).1, some r) := Prod.ext rfl hr
    simp only [exec, hu, client, hi, hc, wexec, if_true]; rw [this]; rfl
  | @docMiss i k cl op hu hi hc hr =>
    have : s.cache.get op.doc = ((s.cache.get op.doc).1, none) := Prod.ext rfl hr
    simp only [exec, hu, client, hi, hc, wexec, if_true]; rw [this]; rfl
  | docSet hu hi hc => simp [exec, hu, client, hi, hc, wexec, setCur]
  | docPut hu hi hc he => simp [exec, hu, client, hi, hc, wexec, he, setCur]
  | readEnd hu hi hc => simp [exec, hu, client, hi, hc, rexec, setCur]
  | @readHit i k cl ids name id todo out r hu hi hc hr =>
    have : s.cache.get id = ((s.cache.get id).1, some r) := Prod.ext rfl hr
    simp only [exec, hu, client, hi, hc, rexec, if_true]; rw [this]; rfl
  | @readMiss i k cl ids name id todo out hu hi hc hr =>
    have : s.cache.get id = ((s.cache.get id).1, none) := Prod.ext rfl hr
    simp only [exec, hu, client, hi, hc, rexec, if_true]; rw [this]; rfl
  | readField hu hi hc => simp [exec, hu, client, hi, hc, rexec, setCur]
  | readAbsent hu hi hc hl =>
    have hl' : (s.fl.file _).cur = none := hl
    simp [exec, hu, client, hi, hc, rexec, load, hl', setCur]
  | readLoad hu hi hc hl hb =>
    have hl' : (s.fl.file _).cur = some (.full _) := hl
    simp [exec, hu, client, hi, hc, rexec, load, hl', hb, setCur]
  | readPut hu hi hc he => simp [exec, hu, client, hi, hc, rexec, he, setCur]
  | recvM hi hc he => simp [exec, curOf, hi, hc, he, handoff, modify_eq_set _ hi]
  | recvN hi hc he => simp [exec, curOf, hi, hc, he, handoff, modify_eq_set _ hi]
  | recvD hi hc he => simp [exec, curOf, hi, hc, he, handoff, modify_eq_set _ hi]
  | ix hb hu he hp => simp [exec, hb, hu, he, hp]
  | ixDown hb hu he hp => simp [exec, hb, hu, he, hp]
  | tickM hu he => simp [exec, hu, he]
  | stepM he => simp [exec, he]
  | tickN hu he => simp [exec, hu, he]
  | stepN he => simp [exec, he]
  | tickD hu he => simp [exec, hu, he]
  | stepD he => simp [exec, he]
  | crash he => simp [exec, he]
  | open_ he => simp [exec, he]
  | openRest hp hu hm hn => simp [exec, hp, hu, hm, hn]

/-- the same store with other clients and other recorded answers. -/
def re (s : CDisk) (cs : List DClient) (A : List (List String × String × GoMap String Field)) : CDisk := { s with clients := cs, answers := A }

/-- GetFields does not depend on the other clients. -/
theorem rexec_re (s : CDisk) (cs : List DClient) (A : List (List String × String × GoMap String Field)) (name : String) (loc : RLoc) :
    (s.re cs A).rexec name loc = (s.rexec name loc).map fun x => (x.1.re cs A, x.2) := by
  cases loc with
  | get todo out =>
    cases todo with
    | nil => rfl
    | cons id todo =>
      simp only [rexec, re]
      cases s.cache.get id with
      | mk c x => cases x <;> rfl
  | field id r todo out => rfl
  | load id todo out =>
    simp only [rexec]
    rw [show (s.re cs A).load id = s.load id from rfl]
    cases s.load id with
    | none => rfl
    | some x => cases x <;> rfl
  | put id r todo out =>
    simp only [rexec, re]
    cases s.cache.put id r <;> rfl

/-- GetFields does not touch the clients and the answers. -/
theorem rexec_clients {s s' : CDisk} {name : String} {loc : RLoc} {x : RLoc ⊕ GoMap String Field} (h : s.rexec name loc = some (s', x)) : s'.clients = s.clients ∧ s'.hist = s.hist ∧ s'.up = s.up := by
  cases loc with
  | get todo out =>
    cases todo with
    | nil => cases h; exact ⟨rfl, rfl, rfl⟩
    | cons id todo =>
      simp only [rexec] at h
      split at h <;> (cases h; exact ⟨rfl, rfl, rfl⟩)
  | field id r todo out => cases h; exact ⟨rfl, rfl, rfl⟩
  | load id todo out =>
    simp only [rexec] at h
    split at h
    · cases h
    · cases h; exact ⟨rfl, rfl, rfl⟩
    · cases h; exact ⟨rfl, rfl, rfl⟩
  | put id r todo out =>
    simp only [rexec] at h
    cases hp : s.cache.put id r with
    | none => rw [hp] at h; cases h
    | some c => rw [hp] at h; cases h; exact ⟨rfl, rfl, rfl⟩

/-- more clients change nothing for the others. -/
theorem step_more {s s' : CDisk} {a : Act} (hs : Step s a s') (hno : noOpen a = true) (hup : s'.up = true) (ex : List DClient) (A : List (List String × String × GoMap String Field)) :
    ∃ A', Step (s.re (s.clients ++ ex) A) a (s'.re (s'.clients ++ ex) A') ∧ ∀ x ∈ A, x ∈ A' := by
  have at_ : ∀ {i : Nat} {cl : DClient}, s.clients[i]? = some cl → (s.clients ++ ex)[i]? = some cl := fun hi => by
    rw [List.getElem?_append_left (List.getElem?_eq_some_iff.1 hi).1]; exact hi
  have set_ : ∀ {i : Nat} {cl : DClient} (c : DClient), s.clients[i]? = some cl → s.clients.set i c ++ ex = (s.clients ++ ex).set i c := fun c hi =>
    (List.set_append_left _ _ (List.getElem?_eq_some_iff.1 hi).1).symm
  cases hs with
  | beginWrite hu hi hc ht => exact ⟨A, by rw [re, set_ _ hi]; exact .beginWrite (s := s.re (s.clients ++ ex) A) hu (at_ hi) hc ht, fun _ h => h⟩
  | beginRead hu hi hc ht => exact ⟨A, by rw [re, set_ _ hi]; exact .beginRead (s := s.re (s.clients ++ ex) A) hu (at_ hi) hc ht, fun _ h => h⟩
  | acc hu hi hc he hn => exact ⟨A, by rw [re, set_ _ hi]; exact .acc (s := s.re (s.clients ++ ex) A) hu (at_ hi) hc he hn, fun _ h => h⟩
  | accReturn hu hi hc he hn => exact ⟨A, by rw [re, set_ _ hi]; exact .accReturn (s := s.re (s.clients ++ ex) A) hu (at_ hi) hc he hn, fun _ h => h⟩
  | msgLen hu hi hc => exact ⟨A, by rw [re, set_ _ hi]; exact .msgLen (s := s.re (s.clients ++ ex) A) hu (at_ hi) hc, fun _ h => h⟩
  | msgSize hu hi hc => exact ⟨A, by rw [re, set_ _ hi]; exact .msgSize (s := s.re (s.clients ++ ex) A) hu (at_ hi) hc, fun _ h => h⟩
  | sendI hu hi hc he => exact ⟨A, by rw [re, set_ _ hi]; exact .sendI (s := s.re (s.clients ++ ex) A) hu (at_ hi) hc he, fun _ h => h⟩
  | msgN hu hi hc => exact ⟨A, by rw [re, set_ _ hi]; exact .msgN (s := s.re (s.clients ++ ex) A) hu (at_ hi) hc, fun _ h => h⟩
  | docHit hu hi hc hr => exact ⟨A, by rw [re, set_ _ hi]; exact .docHit (s := s.re (s.clients ++ ex) A) hu (at_ hi) hc hr, fun _ h => h⟩
  | docMiss hu hi hc hr => exact ⟨A, by rw [re, set_ _ hi]; exact .docMiss (s := s.re (s.clients ++ ex) A) hu (at_ hi) hc hr, fun _ h => h⟩
  | docSet hu hi hc => exact ⟨A, by rw [re, set_ _ hi]; exact .docSet (s := s.re (s.clients ++ ex) A) hu (at_ hi) hc, fun _ h => h⟩
  | docPut hu hi hc he => exact ⟨A, by rw [re, set_ _ hi]; exact .docPut (s := s.re (s.clients ++ ex) A) hu (at_ hi) hc he, fun _ h => h⟩
  | readEnd hu hi hc => exact ⟨A ++ [_], by rw [re, set_ _ hi]; exact .readEnd (s := s.re (s.clients ++ ex) A) hu (at_ hi) hc, fun _ h => List.mem_append_left _ h⟩
  | readHit hu hi hc hr => exact ⟨A, by rw [re, set_ _ hi]; exact .readHit (s := s.re (s.clients ++ ex) A) hu (at_ hi) hc hr, fun _ h => h⟩
  | readMiss hu hi hc hr => exact ⟨A, by rw [re, set_ _ hi]; exact .readMiss (s := s.re (s.clients ++ ex) A) hu (at_ hi) hc hr, fun _ h => h⟩
  | readField hu hi hc => exact ⟨A, by rw [re, set_ _ hi]; exact .readField (s := s.re (s.clients ++ ex) A) hu (at_ hi) hc, fun _ h => h⟩
  | readAbsent hu hi hc hl => exact ⟨A, by rw [re, set_ _ hi]; exact .readAbsent (s := s.re (s.clients ++ ex) A) hu (at_ hi) hc hl, fun _ h => h⟩
  | readLoad hu hi hc hl hb => exact ⟨A, by rw [re, set_ _ hi]; exact .readLoad (s := s.re (s.clients ++ ex) A) hu (at_ hi) hc hl hb, fun _ h => h⟩
  | readPut hu hi hc he => exact ⟨A, by rw [re, set_ _ hi]; exact .readPut (s := s.re (s.clients ++ ex) A) hu (at_ hi) hc he, fun _ h => h⟩
  | recvM hi hc he => exact ⟨A, by rw [re, set_ _ hi]; exact .recvM (s := s.re (s.clients ++ ex) A) (at_ hi) hc he, fun _ h => h⟩
  | recvN hi hc he => exact ⟨A, by rw [re, set_ _ hi]; exact .recvN (s := s.re (s.clients ++ ex) A) (at_ hi) hc he, fun _ h => h⟩
  | recvD hi hc he => exact ⟨A, by rw [re, set_ _ hi]; exact .recvD (s := s.re (s.clients ++ ex) A) (at_ hi) hc he, fun _ h => h⟩
  | ix hb hu he hp => exact ⟨A, .ix (s := s.re (s.clients ++ ex) A) hb hu he hp, fun _ h => h⟩
  | ixDown => simp [stop] at hup
  | tickM hu he => exact ⟨A, .tickM (s := s.re (s.clients ++ ex) A) hu he, fun _ h => h⟩
  | stepM he => exact ⟨A, .stepM (s := s.re (s.clients ++ ex) A) he, fun _ h => h⟩
  | tickN hu he => exact ⟨A, .tickN (s := s.re (s.clients ++ ex) A) hu he, fun _ h => h⟩
  | stepN he => exact ⟨A, .stepN (s := s.re (s.clients ++ ex) A) he, fun _ h => h⟩
  | tickD hu he => exact ⟨A, .tickD (s := s.re (s.clients ++ ex) A) hu he, fun _ h => h⟩
  | stepD he => exact ⟨A, .stepD (s := s.re (s.clients ++ ex) A) he, fun _ h => h⟩
  | crash => simp [stop] at hup
  | open_ he => exact ⟨A, .open_ (s := s.re (s.clients ++ ex) A) he, fun _ h => h⟩
  | openRest => cases hno

end CDisk

namespace DBatchG

/-- the client that does to the store what the goroutine of a batch does. -/
def toClient (f : String) : DBatchG → DClient
  | .waiting ids => { todo := [.getFields ids f] }
  | .reading ids loc => { cur := some (.read ids f loc) }
  | .sending _ => {}
  | .done => {}

end DBatchG

namespace DLive
open CDisk

/-- the clients that stand for the goroutines of a search. -/
def readers (f : String) : DSearch → List DClient
  | .phase2 _ fan => fan.gs.map (DBatchG.toClient f)
  | _ => []

/-- the store, with the goroutines of the search as clients. -/
def embed (f : String) (s : DLive) (A : List (List String × String × GoMap String Field)) : CDisk := s.disk.re (s.disk.clients ++ readers f s.search) A

/-- one of the calls of GetFields on the field returned this. -/
def Read (f : String) (A : List (List String × String × GoMap String Field)) (e : String × Field) : Prop := ∃ ids out, (ids, f, out) ∈ A ∧ e ∈ out

theorem Read.mono {f : String} {A A' : List (List String × String × GoMap String Field)} (h : ∀ x ∈ A, x ∈ A') {e : String × Field} (hr : Read f A e) : Read f A' e := by
  obtain ⟨ids, out, h1, h2⟩ := hr
  exact ⟨ids, out, h _ h1, h2⟩

/-- what the goroutine of a batch sends was returned by GetFields. -/
def GRead (f : String) (A : List (List String × String × GoMap String Field)) : DBatchG → Prop
  | .sending rem => ∀ e ∈ rem, Read f A e
  | _ => True

theorem GRead.mono {f : String} {A A' : List (List String × String × GoMap String Field)} (h : ∀ x ∈ A, x ∈ A') {g : DBatchG} (hr : GRead f A g) : GRead f A' g := by
  cases g with
  | sending rem => exact fun e he => (hr e he).mono h
  | _ => trivial

/-- … and so was what the search returns. -/
def SRead (f : String) (A : List (List String × String × GoMap String Field)) : DSearch → Prop
  | .first _ => True
  | .phase2 _ fan => (∀ g ∈ fan.gs, GRead f A g) ∧ ∀ e ∈ fan.chan ++ fan.out, Read f A e
  | .done _ docs => ∀ d fl, docs.get? d = some fl → Read f A (d, fl)

theorem SRead.mono {f : String} {A A' : List (List String × String × GoMap String Field)} (h : ∀ x ∈ A, x ∈ A') {q : DSearch} (hr : SRead f A q) : SRead f A' q := by
  cases q with
  | first q => trivial
  | phase2 st fan => exact ⟨fun g hg => (hr.1 g hg).mono h, fun e he => (hr.2 e he).mono h⟩
  | done st docs => exact fun d fl e => (hr d fl e).mono h

/-- a property of stores that does not care how many clients there are that only read. -/
structure Robust (P : CDisk → Prop) : Prop where
  step : ∀ s a s', P s → CDisk.Step s a s' → noOpen a = true → s'.up = true → P s'
  idle : ∀ (s : CDisk) (cs : List DClient), P s → (∀ cl ∈ cs, cl ∈ s.clients ∨ (cl.cur = none ∧ writes cl.todo = [])) → P (s.re cs s.answers)

/-- the store is up, has the property, and the search sends what it was given. -/
def Sim (P : CDisk → Prop) (f : String) (s : DLive) : Prop := s.disk.up = true ∧ ∃ A, P (embed f s A) ∧ SRead f A s.search

theorem act_read {f : String} {A : List (List String × String × GoMap String Field)} (g : DBatchG) (a : GAct (String × Field)) (g' : DBatchG) (h : GRead f A g) (ha : DBatchG.Act g a g') :
    GRead f A g' ∧ ∀ x, a = .emit x → Read f A x := by
  cases ha with
  | acquire ids => exact ⟨trivial, by rintro x ⟨⟩⟩
  | send e rem => exact ⟨fun e' he => h e' (List.mem_cons_of_mem _ he), by rintro x ⟨⟩; exact h _ List.mem_cons_self⟩
  | release => exact ⟨trivial, by rintro x ⟨⟩⟩

theorem noOpen_up {s s' : CDisk} {a : CDisk.Act} (hs : CDisk.Step s a s') (hu : s.up = true) : noOpen a = true := by
  cases hs with
  | openRest hp hu' => rw [hu] at hu'; cases hu'
  | _ => rfl

theorem map_set_same {f : String} {gs : List DBatchG} {i : Nat} {g g' : DBatchG} (hg : gs[i]? = some g) (h : g'.toClient f = g.toClient f) : (gs.set i g').map (DBatchG.toClient f) = gs.map (DBatchG.toClient f) := by
  rw [List.map_set, h]
  apply List.ext_getElem?
  intro j
  rw [List.getElem?_set]
  split
  · rename_i e
    subst e
    split
    · rw [List.getElem?_map, hg]; rfl
    · rename_i hl
      rw [List.length_map] at hl
      exact absurd (List.getElem?_eq_some_iff.1 hg).1 hl
  · rfl

/-- a search of a live Disk store does to the store what clients that read do. -/
theorem sim_move {P : CDisk → Prop} (hP : Robust P) {terms : List String} {f : String} {cpus : Nat} {s s' : DLive} (hu : s.disk.up = true) {A : List (List String × String × GoMap String Field)}
    (hp : P (embed f s A)) (hr : SRead f A s.search) (hm : Move terms f cpus s s') : s'.disk.up = true ∧ ∃ A', P (embed f s' A') ∧ SRead f A' s'.search ∧ ∀ x ∈ A, x ∈ A' := by
  have at_ : ∀ {gs : List DBatchG} {i : Nat} {g : DBatchG} {cs : List DClient}, gs[i]? = some g → (cs ++ gs.map (DBatchG.toClient f))[cs.length + i]? = some (g.toClient f) := by
    intro gs i g cs hg
    rw [List.getElem?_append_right (Nat.le_add_right _ _), Nat.add_sub_cancel_left, List.getElem?_map, hg]; rfl
  have set_ : ∀ {gs : List DBatchG} {i : Nat} {g : DBatchG} {cs : List DClient}, (cs ++ gs.map (DBatchG.toClient f)).set (cs.length + i) (g.toClient f) = cs ++ (gs.set i g).map (DBatchG.toClient f) := by
    intro gs i g cs
    rw [List.set_append_right _ _ (Nat.le_add_right _ _), Nat.add_sub_cancel_left, List.map_set]
  cases hm with
  | first d q q' hx he => exact ⟨hu, A, hp, trivial, fun _ h => h⟩
  | begin2 d st fan hf =>
    refine ⟨hu, A, hP.idle _ _ hp ?_, ⟨?_, by simp⟩, fun _ h => h⟩
    · intro cl hcl
      rcases List.mem_append.1 hcl with hcl | hcl
      · exact .inl (List.mem_append_left _ hcl)
      · refine .inr ?_
        obtain ⟨g, hg, rfl⟩ := List.mem_map.1 hcl
        obtain ⟨ids, -, rfl⟩ := List.mem_map.1 hg
        exact ⟨rfl, rfl⟩
    · intro g hg
      obtain ⟨ids, -, rfl⟩ := List.mem_map.1 hg
      trivial
  | p2 d st fan fan' hx =>
    have hr' := LFan.step_all (G := GRead f A) (X := Read f A) act_read hx hr
    refine ⟨hu, A, ?_, hr', fun _ h => h⟩
    have same : ∀ {gs : List DBatchG}, gs.map (DBatchG.toClient f) = fan.gs.map (DBatchG.toClient f) → P (d.re (d.clients ++ gs.map (DBatchG.toClient f)) A) := fun e => by rw [e]; exact hp
    cases hx with
    | acquire i g g' hi ha hs =>
      cases ha with
      | acquire ids =>
        have h1 : CDisk.Step (embed f ⟨d, .phase2 st fan⟩ A) (.client (d.clients.length + i) 0) (d.re ((d.clients ++ fan.gs.map (DBatchG.toClient f)).set (d.clients.length + i) ((DBatchG.reading ids (.get ids [])).toClient f)) A) :=
          .beginRead (s := embed f ⟨d, .phase2 st fan⟩ A) hu (at_ hi) rfl rfl
        rw [set_] at h1
        exact hP.step _ _ _ hp h1 rfl hu
    | look i g g' hi ha => cases ha
    | send i g g' x hi ha hc => cases ha with | send e rem => exact same (map_set_same hi rfl)
    | handoff i g g' x hi ha hc => cases ha with | send e rem => exact same (map_set_same hi rfl)
    | release i g g' hi ha => cases ha with | release => exact same (map_set_same hi rfl)
    | close hd hc => exact same rfl
    | recv x q hq => exact same rfl
  | fetch d d' st fan i ids loc loc' hg hx =>
    obtain ⟨h1, h2, h3⟩ := rexec_clients hx
    have hu : d.up = true := hu
    have he : (embed f ⟨d, .phase2 st fan⟩ A).exec (.client (d.clients.length + i) 0) = some (d'.re ((d.clients ++ fan.gs.map (DBatchG.toClient f)).set (d.clients.length + i) ((DBatchG.reading ids loc').toClient f)) A) := by
      have e1 : (embed f ⟨d, .phase2 st fan⟩ A).clients[d.clients.length + i]? = some ((DBatchG.reading ids loc).toClient f) := at_ hg
      have e2 : (embed f ⟨d, .phase2 st fan⟩ A).rexec f loc = some (d'.re (d.clients ++ fan.gs.map (DBatchG.toClient f)) A, .inl loc') := by
        unfold embed; rw [rexec_re, hx]; rfl
      simp only [exec, show (embed f ⟨d, .phase2 st fan⟩ A).up = true from hu, if_true, client, e1, DBatchG.toClient, e2]
      rfl
    rw [set_] at he
    have h4 := hP.step _ _ _ hp (exec_step he) rfl (by show d'.up = true; rw [h3]; exact hu)
    refine ⟨by show d'.up = true; rw [h3]; exact hu, A, ?_, ⟨?_, hr.2⟩, fun _ h => h⟩
    · show P (d'.re (d'.clients ++ _) A)
      rw [h1]; exact h4
    · intro g hm
      rcases LFan.mem_set' hm with rfl | hm
      · trivial
      · exact hr.1 g hm
  | fetched d d' st fan i ids loc out rem hg hx hperm =>
    obtain ⟨h1, h2, h3⟩ := rexec_clients hx
    have hu : d.up = true := hu
    have he : (embed f ⟨d, .phase2 st fan⟩ A).exec (.client (d.clients.length + i) 0) =
        some (d'.re ((d.clients ++ fan.gs.map (DBatchG.toClient f)).set (d.clients.length + i) ((DBatchG.sending rem).toClient f)) (A ++ [(ids, f, out)])) := by
      have e1 : (embed f ⟨d, .phase2 st fan⟩ A).clients[d.clients.length + i]? = some ((DBatchG.reading ids loc).toClient f) := at_ hg
      have e2 : (embed f ⟨d, .phase2 st fan⟩ A).rexec f loc = some (d'.re (d.clients ++ fan.gs.map (DBatchG.toClient f)) A, .inr out) := by
        unfold embed; rw [rexec_re, hx]; rfl
      simp only [exec, show (embed f ⟨d, .phase2 st fan⟩ A).up = true from hu, if_true, client, e1, DBatchG.toClient, e2]
      rfl
    rw [set_] at he
    have h4 := hP.step _ _ _ hp (exec_step he) rfl (by show d'.up = true; rw [h3]; exact hu)
    have hmono : ∀ x ∈ A, x ∈ A ++ [(ids, f, out)] := fun x hx => List.mem_append_left _ hx
    refine ⟨by show d'.up = true; rw [h3]; exact hu, A ++ [(ids, f, out)], ?_, ⟨?_, fun e he => (hr.2 e he).mono hmono⟩, hmono⟩
    · show P (d'.re (d'.clients ++ _) _)
      rw [h1]; exact h4
    · intro g hm
      rcases LFan.mem_set' hm with rfl | hm
      · exact fun e he => ⟨ids, out, by simp, hperm.mem_iff.1 he⟩
      · exact (hr.1 g hm).mono hmono
  | finish d st fan hf =>
    refine ⟨hu, A, ?_, fun d fl e => hr.2 _ (List.mem_append_right _ (collect_sound e)), fun _ h => h⟩
    exact hP.idle _ (d.clients ++ []) hp (fun cl hcl => .inl (List.mem_append_left _ (by simpa using hcl)))

/-! ### the properties of stores that are needed -/

theorem sim_step {P : CDisk → Prop} (hP : Robust P) {terms : List String} {f : String} {cpus : Nat} {s s' : DLive} (h : Sim P f s) (hs : Step terms f cpus s s') : Sim P f s' := by
  obtain ⟨hu, A, hp, hr⟩ := h
  cases hs with
  | store a d hx hd =>
    have hst := exec_step hx
    have hno := noOpen_up hst hu
    obtain ⟨A', h1, h2⟩ := step_more hst hno hd (readers f s.search) A
    exact ⟨hd, A', hP.step _ _ _ hp h1 hno hd, hr.mono h2⟩
  | search _ hm =>
    obtain ⟨h1, A', h2, h3, -⟩ := sim_move hP hu hp hr hm
    exact ⟨h1, A', h2, h3⟩

/-- the results of GetFields are maps. -/
structure OutWF (s : CDisk) : Prop where
  out : ∀ cl ∈ s.clients, ∀ ids name loc, cl.cur = some (.read ids name loc) → (outOf loc).WF
  ans : ∀ x ∈ s.answers, x.2.2.WF

theorem found_wf {out : GoMap String Field} (h : out.WF) (id : String) (o : Option Field) : (found out id o).WF := by
  cases o with
  | none => exact h
  | some f => exact h.set _ _

theorem outWF_step {s s' : CDisk} {a : CDisk.Act} (h : OutWF s) (hs : CDisk.Step s a s') : OutWF s' := by
  have set_ : ∀ {i : Nat} {cl : DClient} (c : DClient), s.clients[i]? = some cl → (∀ ids name loc, c.cur = some (.read ids name loc) → (outOf loc).WF) →
      ∀ cl ∈ s.clients.set i c, ∀ ids name loc, cl.cur = some (.read ids name loc) → (outOf loc).WF := by
    intro i cl c hi hc x hx
    rcases CDisk.mem_set (P := fun x => ∀ ids name loc, x.cur = some (.read ids name loc) → (outOf loc).WF) hc x hx with hx | hx
    · exact h.out x hx
    · exact hx
  cases hs with
  | beginWrite hu hi hc ht => exact ⟨set_ _ hi (by rintro _ _ _ ⟨⟩), h.ans⟩
  | beginRead hu hi hc ht => exact ⟨set_ _ hi (by rintro _ _ _ ⟨⟩; exact List.nodup_nil), h.ans⟩
  | acc hu hi hc he hn => exact ⟨set_ _ hi (by rintro _ _ _ ⟨⟩), h.ans⟩
  | accReturn hu hi hc he hn => exact ⟨set_ _ hi (by rintro _ _ _ ⟨⟩), h.ans⟩
  | msgLen hu hi hc => exact ⟨set_ _ hi (by rintro _ _ _ ⟨⟩), h.ans⟩
  | msgSize hu hi hc => exact ⟨set_ _ hi (by rintro _ _ _ ⟨⟩), h.ans⟩
  | sendI hu hi hc he => exact ⟨set_ _ hi (by rintro _ _ _ ⟨⟩), h.ans⟩
  | msgN hu hi hc => exact ⟨set_ _ hi (by rintro _ _ _ ⟨⟩), h.ans⟩
  | docHit hu hi hc hr => exact ⟨set_ _ hi (by rintro _ _ _ ⟨⟩), h.ans⟩
  | docMiss hu hi hc hr => exact ⟨set_ _ hi (by rintro _ _ _ ⟨⟩), h.ans⟩
  | docSet hu hi hc => exact ⟨set_ _ hi (by rintro _ _ _ ⟨⟩), h.ans⟩
  | docPut hu hi hc he => exact ⟨set_ _ hi (by rintro _ _ _ ⟨⟩), h.ans⟩
  | readEnd hu hi hc =>
    refine ⟨set_ _ hi (by rintro _ _ _ ⟨⟩), ?_⟩
    intro x hx
    rcases List.mem_append.1 hx with hx | hx
    · exact h.ans x hx
    · cases List.mem_singleton.1 hx
      exact h.out _ (List.mem_of_getElem? hi) _ _ _ hc
  | readHit hu hi hc hr => exact ⟨set_ _ hi (by rintro _ _ _ ⟨⟩; exact (h.out _ (List.mem_of_getElem? hi) _ _ _ hc :)), h.ans⟩
  | readMiss hu hi hc hr => exact ⟨set_ _ hi (by rintro _ _ _ ⟨⟩; exact (h.out _ (List.mem_of_getElem? hi) _ _ _ hc :)), h.ans⟩
  | readField hu hi hc => exact ⟨set_ _ hi (by rintro _ _ _ ⟨⟩; exact found_wf (h.out _ (List.mem_of_getElem? hi) _ _ _ hc) _ _), h.ans⟩
  | readAbsent hu hi hc hl => exact ⟨set_ _ hi (by rintro _ _ _ ⟨⟩; exact (h.out _ (List.mem_of_getElem? hi) _ _ _ hc :)), h.ans⟩
  | readLoad hu hi hc hl hb => exact ⟨set_ _ hi (by rintro _ _ _ ⟨⟩; exact found_wf (h.out _ (List.mem_of_getElem? hi) _ _ _ hc) _ _), h.ans⟩
  | readPut hu hi hc he => exact ⟨set_ _ hi (by rintro _ _ _ ⟨⟩; exact (h.out _ (List.mem_of_getElem? hi) _ _ _ hc :)), h.ans⟩
  | recvM hi hc he => exact ⟨set_ _ hi (by rintro _ _ _ ⟨⟩), h.ans⟩
  | recvN hi hc he => exact ⟨set_ _ hi (by rintro _ _ _ ⟨⟩), h.ans⟩
  | recvD hi hc he => exact ⟨set_ _ hi (by rintro _ _ _ ⟨⟩), h.ans⟩
  | ix hb hu he hp => exact ⟨h.out, h.ans⟩
  | tickM hu he => exact ⟨h.out, h.ans⟩
  | stepM he => exact ⟨h.out, h.ans⟩
  | tickN hu he => exact ⟨h.out, h.ans⟩
  | stepN he => exact ⟨h.out, h.ans⟩
  | tickD hu he => exact ⟨h.out, h.ans⟩
  | stepD he => exact ⟨h.out, h.ans⟩
  | open_ he => exact ⟨h.out, h.ans⟩
  | ixDown hb hu he hp => exact ⟨(by rintro cl ⟨⟩), (by rintro x ⟨⟩)⟩
  | crash he => exact ⟨(by rintro cl ⟨⟩), (by rintro x ⟨⟩)⟩
  | openRest hp hu hm hn =>
    refine ⟨?_, h.ans⟩
    intro cl hcl ids name loc e
    obtain ⟨p, -, rfl⟩ := List.mem_map.1 hcl
    cases e

theorem outWF_run {as : List CDisk.Act} {s : CDisk} (h : run {} as = some s) : OutWF s :=
  run_inv (fun _ _ _ => outWF_step) ⟨(by rintro cl ⟨⟩), (by rintro x ⟨⟩)⟩ h

/-- everything that C89 is made of. -/
structure Good (s : CDisk) : Prop where
  up : s.up = true
  ok : Ok s
  post : PostOk s
  docs : GoValues s.hist → DocsOk s
  out : OutWF s

theorem hist_grows {s s' : CDisk} {a : CDisk.Act} (hs : CDisk.Step s a s') (hup : s'.up = true) : ∃ x, s'.hist = s.hist ++ x := by
  cases hs with
  | beginWrite hu hi hc ht => exact ⟨[_], by simp [hist]; rfl⟩
  | ixDown => simp [stop] at hup
  | crash => simp [stop] at hup
  | _ => exact ⟨[], by simp [hist]⟩

theorem Good.robust : Robust Good where
  step s a s' h hs hno hup := by
    obtain ⟨x, e⟩ := hist_grows hs hup
    refine ⟨hup, ok_step h.ok hs, postOk_step h.ok h.post hs, fun gv => docsOk_step h.ok (h.docs fun op hop => gv op ?_) hs gv, outWF_step h.out hs⟩
    rw [e]; exact List.mem_append_left _ hop
  idle s cs h hcs := by
    have hcur : ∀ cl ∈ cs, ∀ c, cl.cur = some c → cl ∈ s.clients := by
      intro cl hcl c hc
      rcases hcs cl hcl with h | ⟨h, -⟩
      · exact h
      · rw [h] at hc; cases hc
    refine ⟨h.up, ?_, ⟨h.post.set, h.post.ix⟩, fun gv => ?_, ?_⟩
    · exact { h.ok with off := fun hu => (by have := h.up; rw [show s.up = false from hu] at this; cases this), cur := fun cl hcl c hc => h.ok.cur cl (hcur cl hcl c hc) c hc }
    · have hd := h.docs gv
      exact ⟨hd.cell, hd.fin, hd.file, fun cl hcl ids name loc e => hd.out cl (hcur cl hcl _ e) ids name loc e, hd.ans⟩
    · exact ⟨fun cl hcl ids name loc e => h.out.out cl (hcur cl hcl _ e) ids name loc e, h.out.ans⟩

theorem good_run {as : List CDisk.Act} {s : CDisk} (h : run {} as = some s) (hu : s.up = true) : Good s := ⟨hu, ok_run h, postOk_run h, docsOk_run h, outWF_run h⟩

theorem sim_start {P : CDisk → Prop} {f : String} {s : CDisk} (hu : s.up = true) (h : P s) : Sim P f ⟨s, .first .readLen⟩ :=
  ⟨hu, s.answers, by unfold embed; simp only [readers, List.append_nil]; exact h, trivial⟩

end DLive
end Goir
