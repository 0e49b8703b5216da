import Verif.Props.HttpServed
import Verif.Props.ServerAsked
import Verif.Props.ServerWitness
/-!
# C116: GET /nir while POST /nir is at work, in bytes
-/
namespace Goir
open GoMap Spec

namespace CDisk

/-- every call that has begun or is still to come is one of `W`. -/
def Given (W : StoreOp → Prop) (s : CDisk) : Prop := (∀ op ∈ s.hist, W op) ∧ ∀ cl ∈ s.clients, ∀ op ∈ writes cl.todo, W op

theorem given_step {W : StoreOp → Prop} {s s' : CDisk} {a : Act} (h : Given W s) (hs : Step s a s') (ha : ∀ n progs, a = .openRest n progs → ∀ op ∈ progs.flatMap writes, W op) : Given W s' := by
  have set_ : ∀ {i : Nat} {cl : DClient} (c : DClient), s.clients[i]? = some cl → (∀ op ∈ writes c.todo, op ∈ writes cl.todo) → ∀ cl ∈ s.clients.set i c, ∀ op ∈ writes cl.todo, W op := by
    intro i cl c hi hc x hx op ho
    rcases LFan.mem_set' hx with rfl | hx
    · exact h.2 cl (List.mem_of_getElem? hi) op (hc op ho)
    · exact h.2 x hx op ho
  cases hs with
  | @beginWrite i k cl op rest hu hi hc ht =>
    refine ⟨?_, set_ _ hi (by intro op' ho; rw [ht]; exact List.mem_cons_of_mem _ ho)⟩
    intro op' ho
    have : op' ∈ s.hist ++ [op] := by simpa [hist] using ho
    rcases List.mem_append.1 this with ho | ho
    · exact h.1 op' ho
    · cases List.mem_singleton.1 ho
      exact h.2 cl (List.mem_of_getElem? hi) _ (by rw [ht]; exact List.mem_cons_self)
  | @beginRead i k cl ids name rest hu hi hc ht => exact ⟨h.1, set_ _ hi (by intro op' ho; rw [ht]; exact ho)⟩
  | acc hu hi hc he hn => exact ⟨h.1, set_ _ hi fun _ ho => ho⟩
  | accReturn hu hi hc he hn => exact ⟨h.1, set_ _ hi fun _ ho => ho⟩
  | msgLen hu hi hc => exact ⟨h.1, set_ _ hi fun _ ho => ho⟩
  | msgSize hu hi hc => exact ⟨h.1, set_ _ hi fun _ ho => ho⟩
  | sendI hu hi hc he => exact ⟨h.1, set_ _ hi fun _ ho => ho⟩
  | msgN hu hi hc => exact ⟨h.1, set_ _ hi fun _ ho => ho⟩
  | docHit hu hi hc hr => exact ⟨h.1, set_ _ hi fun _ ho => ho⟩
  | docMiss hu hi hc hr => exact ⟨h.1, set_ _ hi fun _ ho => ho⟩
  | docSet hu hi hc => exact ⟨h.1, set_ _ hi fun _ ho => ho⟩
  | docPut hu hi hc he => exact ⟨h.1, set_ _ hi fun _ ho => ho⟩
  | readEnd hu hi hc => exact ⟨h.1, set_ _ hi fun _ ho => ho⟩
  | readHit hu hi hc hr => exact ⟨h.1, set_ _ hi fun _ ho => ho⟩
  | readMiss hu hi hc hr => exact ⟨h.1, set_ _ hi fun _ ho => ho⟩
  | readField hu hi hc => exact ⟨h.1, set_ _ hi fun _ ho => ho⟩
  | readAbsent hu hi hc hl => exact ⟨h.1, set_ _ hi fun _ ho => ho⟩
  | readLoad hu hi hc hl hb => exact ⟨h.1, set_ _ hi fun _ ho => ho⟩
  | readPut hu hi hc he => exact ⟨h.1, set_ _ hi fun _ ho => ho⟩
  | recvM hi hc he => exact ⟨h.1, set_ _ hi fun _ ho => ho⟩
  | recvN hi hc he => exact ⟨h.1, set_ _ hi fun _ ho => ho⟩
  | recvD hi hc he => exact ⟨h.1, set_ _ hi fun _ ho => ho⟩
  | ixDown hb hu he hp => exact ⟨fun op ho => h.1 op (by simpa [hist, stop] using ho), fun _ hx => (by simp [stop] at hx)⟩
  | crash he => exact ⟨fun op ho => h.1 op (by simpa [hist, stop] using ho), fun _ hx => (by simp [stop] at hx)⟩
  | @openRest n progs hp hu hm hn =>
    refine ⟨h.1, fun cl hcl op ho => ?_⟩
    obtain ⟨p, hp, rfl⟩ := List.mem_map.1 hcl
    exact ha n progs rfl op (List.mem_flatMap.2 ⟨p, hp, ho⟩)
  | _ => exact ⟨h.1, h.2⟩

end CDisk

namespace Server
open CDisk
variable {F : Type} [GoFloat F]

theorem given_server {W : StoreOp → Prop} {cpus : Nat} {s s' : Server F} (h : Given W s.disk)
    (hs : Step (fun a => ∀ n progs, a = .openRest n progs → ∀ op ∈ progs.flatMap writes, W op) cpus s s') : Given W s'.disk := by
  cases hs with
  | store a d ha hx => exact given_step h (exec_step hx) ha
  | arrive query hu => exact h
  | req i r r' d hi hm =>
    cases hm with
    | inner _ _ j q x x' ht hm =>
      have e := DLive.clients_moves (Reaches.single hm)
      refine ⟨?_, ?_⟩
      · intro op ho; exact h.1 op (by rw [← e.1]; exact ho)
      · intro cl hcl; exact h.2 cl (by rw [← e.2]; exact hcl)
    | _ => exact h

end Server

namespace Http
open Json

/-- the processes that are started serve the POST requests with these bodies, any number of times, in any order and in any distribution over clients that run side by side: their calls of the store are those of the handler. -/
def Serves (env : TextEnv) (bodies : List (List UInt8)) (a : CDisk.Act) : Prop :=
  ∀ n progs, a = .openRest n progs → ∀ op ∈ progs.flatMap CDisk.writes, op ∈ (bodies.map shouldBindJSON).flatMap (callsOf env)

/-- the answer to a client that wants the documents `W`, from a server that is at work: no answer (the panic of C69, then there is one), an empty body (there is one, but a score was not a number), a body that says that there are none, or a
body with ten different ones. -/
def LiveAnswer (W : String → Prop) (out : Option (Nat × List UInt8)) : Prop :=
  (out = none ∧ ∃ d, W d) ∨ ∃ body, out = some (200, body) ∧ ((body = [] ∧ ∃ d, W d) ∨ Tells body 0 "B25F" none ∨
    ∃ rs, Tells body 10 "BM25" (some rs) ∧ rs.length = 10 ∧ (rs.map Prod.fst).Nodup ∧ ∀ r ∈ rs, W r.1)

/-- what a call of the POST handler stores is what the request carried. -/
theorem posted_wanted (env : TextEnv) (bodies : List (List UInt8)) {h : List StoreOp} (hh : ∀ op ∈ h, op ∈ (bodies.map shouldBindJSON).flatMap (callsOf env))
    {q name t d : String} (hn : name = "title" ∨ name = "text") (ht : t ∈ termsOf env q) (hp : Posted h name t d) : Wanted env bodies q d := by
  obtain ⟨op, hop, h1, h2, h3⟩ := hp
  obtain ⟨b, hb, hob⟩ := List.mem_flatMap.1 (hh op hop)
  rw [wanted_iff]
  cases b with
  | none => cases hob
  | some doc =>
    simp only [callsOf] at hob
    split at hob
    · cases hob
    · rename_i hid
      simp only [fieldsOf, List.map_cons, List.map_nil, List.mem_cons, List.not_mem_nil, or_false] at hob
      have hd : doc.id = d := by rcases hob with rfl | rfl | rfl <;> exact h1
      refine ⟨doc, hb, hd, hd ▸ hid, t, ht, ?_⟩
      rcases hob with rfl | rfl | rfl
      · rcases hn with rfl | rfl <;> simp [StoreOp.field, Text.makeField] at h2
      · exact .inl ((mem_makeField _ _ _).1 h3)
      · exact .inr ((mem_makeField _ _ _).1 h3)

/-- **C116** The server handles POST requests, side by side and over any number of processes that may crash at any point; GET /nir arrives at any point, while they and other searches are under way, and its search returns. For every query string:
the bytes answered are as `LiveAnswer` says for the documents that the client wants, whatever the numbers are and however they are printed. -/
theorem c116_live {F : Type} [GoFloat F] (env : TextEnv) {pr : Printer F} (hp : pr.Ok) (bodies : List (List UInt8)) {cpus : Nat} {s₂ s : Server F}
    (h1 : Reaches (Server.Step (Serves env bodies) cpus) ({} : Server F) s₂) (hu : s₂.disk.up = true)
    {raw bs : List UInt8} {q : String} (ha : Asks raw bs) (hq : Decodes bs q.toList) {terms : List String} (ht : Text.preprocessing env (queryText raw) = some terms)
    (h2 : Reaches (Server.UpStep (Serves env bodies) cpus) { s₂ with reqs := s₂.reqs ++ [DReq.start (queries terms)] } s)
    {r : DReq F} (hr : s.reqs[s₂.reqs.length]? = some r) {l : Scores F} (hl : r.result = some l) (duration : String) :
    LiveAnswer (Wanted env bodies q) ((respond l).map (reply pr duration)) := by
  rw [preprocessing_some, c115_query ha hq] at ht
  obtain rfl := Option.some.inj ht
  have hg : CDisk.Given (fun op => op ∈ (bodies.map shouldBindJSON).flatMap (callsOf env)) s.disk := by
    have g2 : CDisk.Given (fun op => op ∈ (bodies.map shouldBindJSON).flatMap (callsOf env)) s₂.disk :=
      h1.invariant (P := fun x : Server F => CDisk.Given _ x.disk) ⟨(fun _ hx => by cases hx), (fun _ hx => by cases hx)⟩ fun a b => Server.given_server
    exact h2.invariant (P := fun x : Server F => CDisk.Given _ x.disk) g2 fun a b ih hs => Server.given_server ih hs.1
  have gv : Spec.GoValues s.disk.hist := fun op ho => (c68_http_finite env (bodies.map shouldBindJSON)).1 op (hg.1 op ho)
  obtain ⟨as, a1, a2, a3⟩ := c100_asked h1 hu h2 gv hr hl
  have hW : ∀ x ∈ l, Wanted env bodies q x.1 := by
    rintro ⟨d, x⟩ hx
    obtain ⟨hne, -⟩ := (a3.2 d x).1 hx
    obtain ⟨v, hv⟩ := List.exists_mem_of_ne_nil _ hne
    obtain ⟨a, hma, hs⟩ := List.mem_filterMap.1 hv
    obtain ⟨fl, hfl, -⟩ := Option.map_eq_some_iff.1 hs
    obtain ⟨t, ht, hpo⟩ := (a2 a hma).posted d fl hfl
    have hqm : a.query ∈ queries (F := F) (termsOf env q) := a1.mem_iff.1 (List.mem_map_of_mem hma)
    simp only [queries, List.mem_cons, List.not_mem_nil, or_false] at hqm
    refine posted_wanted env bodies hg.1 (name := a.query.fieldName) ?_ (t := t) ?_ hpo
    · rcases hqm with e | e <;> rw [e] <;> simp
    · rcases hqm with e | e <;> rw [e] at ht <;> exact ht
  obtain ⟨b1, b2, b3, b4⟩ := respond_tells hp duration l
  rcases Nat.eq_zero_or_pos l.length with h0 | h0
  · obtain ⟨body, e1, e2⟩ := b1 (List.length_eq_zero_iff.1 h0)
    exact Or.inr ⟨body, e1, Or.inr (Or.inl e2)⟩
  have hsome : ∃ d, Wanted env bodies q d := by
    obtain ⟨x, hx⟩ := List.exists_mem_of_length_pos h0
    exact ⟨_, hW x hx⟩
  by_cases h9 : l.length ≤ 9
  · exact Or.inl ⟨b4 h0 h9, hsome⟩
  have h10 : 10 ≤ l.length := by omega
  by_cases hf : ∀ x ∈ l.take 10, pr.finite x.2 = true
  · obtain ⟨body, e1, e2⟩ := b2 h10 hf
    refine Or.inr ⟨body, e1, Or.inr (Or.inr ⟨_, e2, by simp [h10], ?_, ?_⟩)⟩
    · rw [List.map_map]
      show ((l.take 10).map Prod.fst).Nodup
      rw [List.map_take]; exact (List.take_sublist _ _).nodup a3.1
    · intro x hx
      obtain ⟨y, hy, rfl⟩ := List.mem_map.1 hx
      exact hW y (List.mem_of_mem_take hy)
  · simp only [not_forall] at hf
    obtain ⟨x, hx, hfx⟩ := hf
    exact Or.inr ⟨[], b3 h10 ⟨x, hx, by simpa using hfx⟩, Or.inl ⟨rfl, hsome⟩⟩

/-- the calls of the handler for a document with id "7" and text "red". -/
def redCalls : List DOp := (callsOf demoEnv (some ⟨"7", "", "red"⟩)).map .write

theorem red_run : ∃ d, CDisk.run {} (CDisk.openEmpty 5 [redCalls, redCalls] ++ [.client 0 0, .client 1 0, .client 0 0]) = some d ∧ d.up = true ∧
    (d.clients.map fun cl => cl.cur.isSome) = [true, true] ∧ d.hist.length = 2 := exists_of_run (by decide +kernel)

/-- the hypotheses are met: two clients POST a document at the same time and are in the middle of it when GET /nir?query=red arrives, and the search comes to an end. -/
example {F : Type} [GoFloat F] : ∃ (s₂ s : Server F) (r : DReq F) (l : Scores F), Reaches (Server.Step (Serves demoEnv [bodyOf "7" "" "red"]) 4) ({} : Server F) s₂ ∧ s₂.disk.up = true ∧
    (s₂.disk.clients.map fun cl => cl.cur.isSome) = [true, true] ∧
    Reaches (Server.UpStep (Serves demoEnv [bodyOf "7" "" "red"]) 4) { s₂ with reqs := s₂.reqs ++ [DReq.start (queries (termsOf demoEnv "red"))] } s ∧
    s.reqs[s₂.reqs.length]? = some r ∧ r.result = some l := by
  obtain ⟨d, h1, hu, hc, hh⟩ := red_run
  obtain ⟨cs, b1, b2⟩ := bodyOf_carries "7" "" "red" (by decide)
  have hb := bind_carries b1 b2
  have hs : ∀ a ∈ CDisk.openEmpty 5 [redCalls, redCalls] ++ [.client 0 0, .client 1 0, .client 0 0], Server.RoomyAct a ∧ Serves demoEnv [bodyOf "7" "" "red"] a := by
    intro a ha
    refine ⟨(Server.fits_ok (d := "a") ((by decide +kernel : ∀ a ∈ CDisk.openEmpty 5 [redCalls, redCalls] ++ [.client 0 0, .client 1 0, .client 0 0], Server.fits "a" a = true) a ha)).1, ?_⟩
    rintro n progs rfl op hop
    have : progs = [redCalls, redCalls] := by simp [CDisk.openEmpty] at ha; exact ha.2
    subst this
    simp only [List.map_cons, List.map_nil, hb, List.flatMap_cons, List.flatMap_nil, List.append_nil]
    have e : CDisk.writes redCalls = callsOf demoEnv (some ⟨"7", "", "red"⟩) := by decide +kernel
    simpa [e] using hop
  have gv : Spec.GoValues d.hist := by
    have r : Reaches (Server.Step (Serves demoEnv [bodyOf "7" "" "red"]) 4) ({} : Server F) { disk := d } := Server.reaches_run h1 fun a ha => (hs a ha).2
    have g := r.invariant (P := fun x : Server F => CDisk.Given (fun op => op ∈ ([bodyOf "7" "" "red"].map shouldBindJSON).flatMap (callsOf demoEnv)) x.disk) ⟨(fun _ hx => by cases hx), (fun _ hx => by cases hx)⟩ fun a b => Server.given_server
    exact fun op ho => (c68_http_finite demoEnv _).1 op (g.1 op ho)
  have r1 : Reaches (Server.Step Server.RoomyAct 4) ({} : Server F) { disk := d, reqs := [DReq.start (queries (termsOf demoEnv "red"))] } :=
    (Server.reaches_run h1 fun a ha => (hs a ha).1).tail (.arrive { disk := d } _ hu)
  have lv := Server.lively_reach (by decide) r1
  obtain ⟨s, l, hs', hl⟩ := ((c101_server_search_ends (by decide) r1 (i := 0) rfl).1 gv).2
  unfold Server.resultOf at hl
  cases hr : s.reqs[0]? with
  | none => rw [hr] at hl; cases hl
  | some r =>
    rw [hr] at hl
    exact ⟨{ disk := d }, s, r, l, Server.reaches_run h1 fun a ha => (hs a ha).2, hu, hc, Server.reqStep_upStep (by decide) lv hs', hr, by simpa using hl⟩

end Http
end Goir
