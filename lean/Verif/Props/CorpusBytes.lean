import Verif.Props.CorpusServer
import Verif.Props.ServerBytesCases
/-!
# C127 on the bytes of the files

The server of `Verif.Model.ServerBytes`, whose store writes gzip files of FlatBuffers one byte at a time, ranks by BM25 of the collection as well.
-/
namespace Goir
open GoMap Spec Strconv

namespace BServer
open CDisk BDisk

/-- the store with bytes and the store with objects, when the clients of the first process are done, and the searches that follow. -/
theorem done_sim {F : Type} [GoFloat F] {root : Path} {fs : FS} {z : Bytes → Bytes} {D : String → Prop} {cpus : Nat} (hroot : EmptyRoot root fs) (hz : ∀ d, Gz.Written d (z d)) (hD : Ids D)
    {as : List Act} {n : Int} {progs : List (List DOp)} {bs : List Act} {b₀ : BDisk} (hno : ∀ a ∈ as, noOpen a = true) (hn : ∀ p ∈ progs, ∀ o ∈ p, OpNames D o)
    (hsv : ∀ op ∈ progs.flatMap writes, op.isSave = true) (h1 : BDisk.run z root { fs := fs } (as ++ [.openRest n progs] ++ bs) = some b₀) (hb : ∀ b ∈ bs, noOpen b = true) (hu : b₀.d.up = true)
    {b : BServer F} (h2 : Reaches (UpStep z root (fun a => noOpen a = true) cpus) ⟨b₀, []⟩ b) :
    ∃ (as' bs' : List Act) (a₀ : CDisk) (a : Server F), (∀ x ∈ as', noOpen x = true) ∧ (∀ x ∈ bs', noOpen x = true) ∧ CDisk.run {} (as' ++ [.openRest n progs] ++ bs') = some a₀ ∧ Alike b₀ a₀ ∧
      Reaches (Server.UpStep (fun a => noOpen a = true) cpus) ⟨a₀, []⟩ a ∧ a.reqs = b.reqs := by
  obtain ⟨s₁, g0, g3⟩ := brun_append.1 h1
  obtain ⟨s₀, g1, g2⟩ := brun_append.1 g0
  obtain ⟨bs0, a0, q1, q2, q3, q0⟩ := sim hz hD (brel_init hroot) (AInv.init D) (fun n p hm => by have := hno _ hm; cases this) g1
  obtain ⟨a1, q4, q5⟩ := openRest_sim q2 q3 (brun_one.1 g2)
  have q6 : AInv D a1 := q3.step q4 fun n' p' e => by cases e; exact hn
  obtain ⟨bs1, a₀, q7, q8, -, q9⟩ := sim hz hD q5 q6 (fun n p hm => by have := hb _ hm; cases this) g3
  have no0 := noOpen_of_filter q0 hno
  have no1 := noOpen_of_filter q9 hb
  have hrun : CDisk.run {} (bs0 ++ [.openRest n progs] ++ bs1) = some a₀ := by
    rw [CDisk.run_append, CDisk.run_append, q1]
    show (CDisk.run a0 [.openRest n progs]).bind _ = _
    rw [run_one q4]; exact q7
  let allow0 : Act → Prop := fun a => ∀ n' p', a = .openRest n' p' → p' = progs
  have ht0 : Tame D allow0 := by
    intro n' p' hal p hp o ho
    obtain rfl := hal n' p' rfl
    refine ⟨hn p hp o ho, ?_⟩
    rintro op rfl
    refine (hn p hp _ ho).2.1 (hsv op (List.mem_flatMap.2 ⟨p, hp, ?_⟩))
    clear hp
    induction p with
    | nil => cases ho
    | cons x p ih =>
      rcases List.mem_cons.1 ho with rfl | ho'
      · exact List.mem_cons_self
      · cases x with
        | write y => exact List.mem_cons_of_mem _ (ih ho')
        | getFields => exact ih ho'
  have hin : SInv D (⟨a₀, []⟩ : Server F) := by
    refine (SInv.init D).reach ht0 (cpus := cpus) (Server.reaches_run hrun ?_)
    rintro x hx n' p' rfl
    rcases List.mem_append.1 hx with hx | hx
    · rcases List.mem_append.1 hx with hx | hx
      · have := no0 _ hx; cases this
      · cases List.mem_singleton.1 hx; rfl
    · have := no1 _ hx; cases this
  obtain ⟨-, a, k1, k2⟩ := reach_up hD hz (allow := fun a => noOpen a = true) (fun n' p' hal => by cases hal) (fun a h => h) (b := ⟨b₀, []⟩) (a := ⟨a₀, []⟩) ⟨q8, rfl⟩ hin hu h2
  exact ⟨bs0, bs1, a₀, a, no0, no1, hrun, q8.alike, k1, k2.reqs⟩

end BServer

/-- **C127 on bytes.** As `c127_live`, for the server whose store keeps its data in the bytes of files, in an empty folder: field names and ids are such that files can have their names. -/
theorem c127_bytes {L : MathLog} {root : Path} {fs : FS} {z : Bytes → Bytes} {D : String → Prop} (hroot : EmptyRoot root fs) (hz : ∀ d, Gz.Written d (z d)) (hD : Ids D)
    {S : List Entry} (h : Once S) {n : Int} {progs : List (List DOp)} {bs : List CDisk.Act} {b₀ : BDisk} (hn : ∀ p ∈ progs, ∀ o ∈ p, OpNames D o)
    (h1 : BDisk.run z root { fs := fs } (CDisk.openEmpty n progs ++ bs) = some b₀) (hb : ∀ b ∈ bs, CDisk.noOpen b = true) (hu : b₀.d.up = true) (hd : CDisk.Done b₀.d)
    (hS : (progs.flatMap CDisk.writes).Perm (savesOf S)) (ha : CDisk.Apart progs) (hroom : ((progs.flatMap CDisk.touched).toFinset.card : Int) ≤ n)
    {cpus : Nat} {b : BServer (F64 L)} (h2 : Reaches (BServer.UpStep z root (fun a => CDisk.noOpen a = true) cpus) ⟨b₀, []⟩ b)
    {r : DReq (F64 L)} (hr : r ∈ b.reqs) {l : Scores (F64 L)} (hl : r.result = some l) {N T : Nat} (hm : Moderate S r.query N T) :
    (l.map Prod.fst).Nodup ∧ (∀ d, d ∈ l.map Prod.fst ↔ ∃ q ∈ r.query, Hits S q.fieldName q.terms d) ∧
    (∀ d v, (d, v) ∈ l → ∃ x, v.toReal = some x ∧ |x - collectionScore S r.query d| ≤ scoreError64 N T r.query.length * collectionScore S r.query d) ∧
    ∀ (i j : Nat) (d d' : String), (l.map Prod.fst)[i]? = some d → (l.map Prod.fst)[j]? = some d' →
      collectionScore S r.query d' * (1 + scoreError64 N T r.query.length) < collectionScore S r.query d * (1 - scoreError64 N T r.query.length) → i < j := by
  obtain ⟨as', bs', a₀, a, k1, k2, k3, k4, k5, k6⟩ := BServer.done_sim hroot hz hD (as := [.open_, .ix .merge]) (by decide) hn (fun op hop => savesOf_isSave S op (hS.mem_iff.1 hop)) h1 hb hu h2
  have hu' : a₀.up = true := by rw [k4.up]; exact hu
  have hd' : CDisk.Done a₀ := by unfold CDisk.Done; rw [k4.clients]; exact hd
  obtain ⟨hin, hal⟩ := CDisk.done_alike h k1 k3 k2 hu' hd' hS ha hroom
  exact c125_search h (readsOf_consistent _ _) hal hm 1 (Server.loaded_returns hu' hd' (CDisk.ok_run k3).lok hin k5 (by rw [k6]; exact hr) hl (by omega))

/-! ### a concrete case -/

namespace BServer
open CDisk BDisk

/-- while a search makes steps, the process does not end. -/
theorem req_upStep {F : Type} [GoFloat F] {root : Path} {fs : FS} {z : Bytes → Bytes} {D : String → Prop} {allow : Act → Prop} {cpus : Nat} (hc : 0 < cpus) (hroot : EmptyRoot root fs) (hz : ∀ d, Gz.Written d (z d)) (hD : Ids D)
    (ht : Tame D allow) (ha : ∀ a, noOpen a = true → allow a) (hr : ∀ a, allow a → Server.RoomyAct a) {b b' : BServer F} (h1 : Reaches (Step z root allow cpus) { disk := { fs := fs } } b) (hu : b.disk.d.up = true) {i : Nat}
    (h2 : Reaches (ReqStep root cpus i) b b') (allow' : Act → Prop) : Reaches (UpStep z root allow' cpus) b b' := by
  refine (h2.invariant (P := fun x => x.disk.d.up = true ∧ Reaches (Step z root allow cpus) { disk := { fs := fs } } x ∧ Reaches (UpStep z root allow' cpus) b x) ⟨hu, h1, .refl _⟩ ?_).2.2
  rintro x y ⟨p1, p2, p3⟩ hs
  obtain ⟨a, k1, k2⟩ := reach_sim hD hz ht ha (a := {}) ⟨brel_init hroot, rfl⟩ (SInv.init D) p2
  obtain ⟨a', e1, e2⟩ := reqStep_sim hD k2 ((SInv.init D).reach ht k1) hs
  have hup : y.disk.d.up = true := by
    rw [← e2.disk.up]
    exact (Server.reqStep_up (Server.lively_reach hc (Server.reaches_mono (fun x y hs => hs.mono hr) k1)) e1).2
  obtain ⟨r, r', d, e3, e4, rfl⟩ := hs
  exact ⟨hup, p2.tail (.req _ i r r' d e3 e4), p3.tail ⟨.req _ i r r' d e3 e4, hup⟩⟩

end BServer

theorem move_query {F : Type} [GoFloat F] {root : Path} {cpus : Nat} {d d' : BDisk} {r r' : DReq F} (h : BReq.Move root cpus d r d' (some r')) : r'.query = r.query := by
  have same : ∀ (i : Nat) (q : Query F) (x y : DQ), r.threads[i]? = some (q, x) → (r.threads.set i (q, y)).map Prod.fst = r.threads.map Prod.fst := by
    intro i q x y hi
    refine List.ext_getElem? fun j => ?_
    rw [List.getElem?_map, List.getElem?_map, List.getElem?_set]
    split
    · rename_i e
      subst e
      rw [hi]
      obtain ⟨hlt, -⟩ := List.getElem?_eq_some_iff.1 hi
      simp [hlt]
    · rfl
  cases h with
  | inner _ _ i q x x' ht hx => exact same i q _ _ ht
  | send _ i q st docs order ht ho hc => exact same i q _ _ ht
  | _ => rfl

set_option maxRecDepth 100000 in
theorem twoRun_bytes : ∃ s, BDisk.run packer ["data"] { fs := BDisk.folder } (CDisk.openEmpty 2 twoClients ++ (twoRun ++ List.replicate 20 .stepD)) = some s ∧ (decide (s.d.up = true ∧ ∀ cl ∈ s.d.clients, cl.todo = [] ∧ cl.cur = none)) = true :=
  BDisk.exists_of (by decide +kernel)

/-- the hypotheses of `c127_bytes` are met: as in `c127_live`, and the search arrives after the first bytes of a document file have been written. -/
example {L : MathLog} : ∃ (b₀ : BDisk) (b : BServer (F64 L)) (r : DReq (F64 L)) (l : Scores (F64 L)),
    BDisk.run packer ["data"] { fs := BDisk.folder } (CDisk.openEmpty 2 twoClients ++ (twoRun ++ List.replicate 20 .stepD)) = some b₀ ∧ b₀.d.up = true ∧ CDisk.Done b₀.d ∧
    Reaches (BServer.UpStep packer ["data"] (fun a => CDisk.noOpen a = true) 4) ⟨b₀, []⟩ b ∧ r ∈ b.reqs ∧ r.result = some l ∧ (l.map Prod.fst).Perm ["a", "b"] := by
  obtain ⟨b₀, h1, h2⟩ := twoRun_bytes
  obtain ⟨hu, hd⟩ := of_decide_eq_true h2
  have hd : CDisk.Done b₀.d := hd
  let Q : List (Query (F64 L)) := twoQuery
  let allow : CDisk.Act → Prop := fun a => ∀ n progs, a = .openRest n progs → n = 2 ∧ progs = twoClients
  have names : ∀ p ∈ twoClients, ∀ o ∈ p, OpNames BServer.AB o ∧ ∀ op, o = .write op → BServer.AB op.doc := by
    intro p hp o ho
    simp only [twoClients, savesOf, twoTexts, List.map_cons, List.map_nil, List.mem_cons, List.not_mem_nil, or_false] at hp
    have f1 : FieldName "title" := ⟨by decide, by decide⟩
    have f2 : FieldName "body" := ⟨by decide, by decide⟩
    rcases hp with rfl | rfl <;> cases List.mem_singleton.1 ho
    · exact ⟨⟨f1, fun _ => .inl rfl, by decide⟩, by rintro op e; cases e; exact .inl rfl⟩
    · exact ⟨⟨f2, fun _ => .inr rfl, by decide⟩, by rintro op e; cases e; exact .inr rfl⟩
  have ht : BServer.Tame BServer.AB allow := by
    intro n progs hal
    obtain ⟨-, rfl⟩ := hal n progs rfl
    exact names
  have hno : ∀ a, CDisk.noOpen a = true → allow a := by rintro a ha n progs rfl; cases ha
  have hroomy : ∀ a, allow a → Server.RoomyAct a := by
    intro a ha n progs e
    obtain ⟨rfl, -⟩ := ha n progs e
    decide
  have acts : ∀ a ∈ CDisk.openEmpty 2 twoClients ++ (twoRun ++ List.replicate 20 .stepD), allow a := by
    rintro a ha n progs rfl
    rcases List.mem_append.1 ha with ha | ha
    · simpa [CDisk.openEmpty] using ha
    · rcases List.mem_append.1 ha with ha | ha
      · have := (by decide : ∀ b ∈ twoRun, CDisk.noOpen b = true) _ ha; cases this
      · cases List.eq_of_mem_replicate ha
  have r0 : Reaches (BServer.Step (F := F64 L) packer ["data"] allow 4) { disk := { fs := BDisk.folder } } { disk := b₀, reqs := [DReq.start Q] } := (BServer.reaches_run h1 acts).tail (.arrive { disk := b₀ } _ hu)
  obtain ⟨-, ⟨b, l, hb, hl⟩, -⟩ := c119_ends (by decide) BDisk.folder_empty packer_written BServer.ids_ab ht hno hroomy r0 (i := 0) rfl
  have r1 := BServer.req_upStep (by decide) BDisk.folder_empty packer_written BServer.ids_ab ht hno hroomy r0 hu hb (fun a => CDisk.noOpen a = true)
  have r2 : Reaches (BServer.UpStep (F := F64 L) packer ["data"] (fun a => CDisk.noOpen a = true) 4) ⟨b₀, []⟩ b := (Reaches.single ⟨.arrive { disk := b₀ } Q hu, hu⟩).trans r1
  have hqs : ∀ x, Reaches (BServer.ReqStep ["data"] 4 0) ({ disk := b₀, reqs := [DReq.start Q] } : BServer (F64 L)) x → x.reqs.map DReq.query = [Q] := by
    intro x hx
    refine hx.invariant (P := fun x => x.reqs.map DReq.query = [Q]) (by simp [DReq.query, DReq.start, Q, twoQuery]) ?_
    rintro x y ih ⟨r, r', d, e1, e2, rfl⟩
    have e3 := move_query e2
    cases hx : x.reqs with
    | nil => rw [hx] at ih; cases ih
    | cons r0 rest =>
      rw [hx] at ih e1
      cases e1
      simp only [List.set_cons_zero, List.map_cons] at ih ⊢
      rw [e3]; exact ih
  unfold BServer.resultOf at hl
  obtain ⟨r, hr, hl⟩ := Option.bind_eq_some_iff.1 hl
  have hrm := List.mem_of_getElem? hr
  have hq : r.query = twoQuery := by
    have : r.query ∈ b.reqs.map DReq.query := List.mem_map_of_mem hrm
    rw [hqs b hb] at this
    exact List.mem_singleton.1 this
  have fin := c127_bytes BDisk.folder_empty packer_written BServer.ids_ab twoTexts_once (fun p hp o ho => (names p hp o ho).1) h1 (by decide) hu hd (.refl _) twoClients_apart (by decide) r2 hrm hl
    (N := 1) (T := 1) (by rw [hq]; exact twoQuery_moderate)
  refine ⟨b₀, b, r, l, h1, hu, hd, r2, hrm, hl, ?_⟩
  rw [List.perm_ext_iff_of_nodup fin.1 (by decide)]
  intro x
  rw [fin.2.1 x, hq]
  simp [twoQuery, Hits, twoTexts, eq_comm]

namespace Http
variable {L : MathLog}

/-- **C127 (HTTP) on bytes.** From the bytes of the POST requests, through the bytes of the files, to the bytes of the ranking: as `c127_http`, for the server whose store keeps its data in the bytes of files. -/
theorem c127_http_bytes (Dg : Digits) (env : TextEnv) {root : Path} {fs : FS} {z : Bytes → Bytes} {D : String → Prop} (hroot : EmptyRoot root fs) (hz : ∀ d, Gz.Written d (z d)) (hD : Ids D)
    {bodies : List (List UInt8)} {docs : List Document} (h : Accepts bodies docs) (hid : (docs.map Document.id).Nodup) (hids : ∀ d ∈ docs, D d.id)
    {n : Int} {acts : List CDisk.Act} {b₀ : BDisk} (h1 : BDisk.run z root { fs := fs } (CDisk.openEmpty n [((bodies.map shouldBindJSON).flatMap (callsOf env)).map .write] ++ acts) = some b₀)
    (hb : ∀ b ∈ acts, CDisk.noOpen b = true) (hu : b₀.d.up = true) (hd : CDisk.Done b₀.d) (hroom : (docs.length : Int) ≤ n)
    {cpus : Nat} {b : BServer (F64 L)} (h2 : Reaches (BServer.UpStep z root (fun a => CDisk.noOpen a = true) cpus) ⟨b₀, []⟩ b)
    {raw bs : List UInt8} {q : String} (ha : Asks raw bs) (hq : Decodes bs q.toList) (hf : Fair (termsOf env) docs (termsOf env q)) {terms : List String} (ht : Text.preprocessing env (queryText raw) = some terms)
    {r : DReq (F64 L)} (hr : r ∈ b.reqs) (hrq : r.query = queries terms) {l : Scores (F64 L)} (hl : r.result = some l) (duration : String) :
    Ranked (termsOf env) docs (termsOf env q) ((respond l).map (reply (Dg.printer L) duration)) := by
  rw [(accepts_calls env h).1] at h1
  have once := posted_once (termsOf env) hid
  have hS : ([(savesOf (posted (termsOf env) docs)).map DOp.write].flatMap CDisk.writes).Perm (savesOf (posted (termsOf env) docs)) := by
    simp only [List.flatMap_cons, List.flatMap_nil, List.append_nil, CDisk.writes_calls]; exact .refl _
  have hn : ∀ p ∈ [(savesOf (posted (termsOf env) docs)).map DOp.write], ∀ o ∈ p, OpNames D o := by
    intro p hp o ho
    cases List.mem_singleton.1 hp
    obtain ⟨op, hop, rfl⟩ := List.mem_map.1 ho
    refine ⟨?_, fun _ => ?_, savesOf_goValues _ op hop⟩
    all_goals
      obtain ⟨e, he, rfl⟩ := List.mem_map.1 hop
      obtain ⟨d, hdm, he⟩ := List.mem_flatMap.1 he
      simp only [textsOf, List.mem_cons, List.not_mem_nil, or_false] at he
    · have i1 : FieldName "id" := ⟨by decide, by decide⟩
      have i2 : FieldName "title" := ⟨by decide, by decide⟩
      have i3 : FieldName "text" := ⟨by decide, by decide⟩
      rcases he with rfl | rfl | rfl
      · exact i1
      · exact i2
      · exact i3
    · rcases he with rfl | rfl | rfl <;> exact hids d hdm
  obtain ⟨as', bs', a₀, a, k1, k2, k3, k4, k5, k6⟩ := BServer.done_sim hroot hz hD (as := [.open_, .ix .merge]) (by decide) hn (fun op hop => savesOf_isSave _ op (hS.mem_iff.1 hop)) h1 hb hu h2
  have hu' : a₀.up = true := by rw [k4.up]; exact hu
  have hd' : CDisk.Done a₀ := by unfold CDisk.Done; rw [k4.clients]; exact hd
  obtain ⟨hin, hal⟩ := CDisk.done_alike (S := posted (termsOf env) docs) once k1 k3 k2 hu' hd' hS (CDisk.apart_one _) (touched_posted env docs hroom)
  have hret := Server.loaded_returns hu' hd' (CDisk.ok_run k3).lok hin k5 (by rw [k6]; exact hr) hl (cpus' := 1) (by omega)
  rw [hrq] at hret
  exact ranked Dg env hid ha hq hf (readsOf_consistent _ _) hal (cpus := 1) ⟨_, duration, ⟨terms, l, ht, hret, rfl⟩, rfl⟩

end Http
end Goir
