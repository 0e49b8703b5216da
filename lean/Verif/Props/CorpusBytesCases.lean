import Verif.Props.CorpusBytes
/-!
# A concrete case for C127 (HTTP) on bytes
-/
namespace Goir
open Spec
namespace Http
open BDisk
variable {L : MathLog}

set_option maxRecDepth 100000 in
theorem tenRun_bytes : ∃ s, BDisk.run packer ["data"] { fs := folder } (CDisk.openEmpty 10 [(savesOf (posted (termsOf demoEnv) tenDocs)).map .write] ++ (tenRun ++ List.replicate 20 .stepD)) = some s ∧
    (decide (s.d.up = true ∧ ∀ cl ∈ s.d.clients, cl.todo = [] ∧ cl.cur = none)) = true :=
  BDisk.exists_of (by decide +kernel)

/-- the ids of the ten documents. -/
def Digit (d : String) : Prop := d ∈ ["0", "1", "2", "3", "4", "5", "6", "7", "8", "9"]

theorem ids_digit : Ids Digit := by
  refine ⟨fun d h => ?_, fun d e h h' => ?_⟩
  · exact (by decide : ∀ d ∈ ["0", "1", "2", "3", "4", "5", "6", "7", "8", "9"], _) d h
  · exact (by decide : ∀ d ∈ ["0", "1", "2", "3", "4", "5", "6", "7", "8", "9"], ∀ e ∈ ["0", "1", "2", "3", "4", "5", "6", "7", "8", "9"], d ≠ e ++ "_temp" ∧ d ≠ e ++ "_old") d h e h'

/-- the hypotheses of `c127_http_bytes` are met: ten documents are posted; after the first bytes of the first document file have been written GET /nir?query=red arrives; the search comes to an end, and the answer ranks the ten. -/
example (D : Strconv.Digits) : ∃ (bodies : List (List UInt8)) (b₀ : BDisk) (b : BServer (F64 L)) (raw bs : List UInt8) (terms : List String) (r : DReq (F64 L)) (l : Scores (F64 L)),
    Accepts bodies tenDocs ∧ BDisk.run packer ["data"] { fs := folder } (CDisk.openEmpty 10 [((bodies.map shouldBindJSON).flatMap (callsOf demoEnv)).map .write] ++ (tenRun ++ List.replicate 20 .stepD)) = some b₀ ∧
    b₀.d.up = true ∧ CDisk.Done b₀.d ∧ Reaches (BServer.UpStep packer ["data"] (fun a => CDisk.noOpen a = true) 4) ⟨b₀, []⟩ b ∧ Asks raw bs ∧ Decodes bs "red".toList ∧
    Text.preprocessing demoEnv (queryText raw) = some terms ∧ r ∈ b.reqs ∧ r.query = queries terms ∧ r.result = some l ∧
    ∃ body rs, (respond l).map (reply (D.printer L) "1ms") = some (200, body) ∧ Tells body 10 "BM25" (some rs) ∧ rs.length = 10 := by
  have key : ∀ ids : List String, (∀ i ∈ ids, i ≠ "") → Accepts (ids.map fun i => bodyOf i "red" "red") (ids.map fun i => ⟨i, "red", "red"⟩) := by
    intro ids
    induction ids with
    | nil => intro _; exact .nil
    | cons i ids ih =>
      intro h
      obtain ⟨s, h1, h2⟩ := bodyOf_carries i "red" "red" (h i (by simp))
      exact .doc h1 h2 (h i (by simp)) (ih fun j hj => h j (by simp [hj]))
  have ha := key ["0", "1", "2", "3", "4", "5", "6", "7", "8", "9"] (by decide)
  obtain ⟨b₀, h1, h2⟩ := tenRun_bytes
  obtain ⟨hu, hd⟩ := of_decide_eq_true h2
  have hd : CDisk.Done b₀.d := hd
  have h1' : BDisk.run packer ["data"] { fs := folder } (CDisk.openEmpty 10 [(((["0", "1", "2", "3", "4", "5", "6", "7", "8", "9"].map fun i => bodyOf i "red" "red").map shouldBindJSON).flatMap (callsOf demoEnv)).map .write] ++ (tenRun ++ List.replicate 20 .stepD)) = some b₀ := by
    rw [(accepts_calls demoEnv ha).1]; exact h1
  let Q : List (Query (F64 L)) := queries (termsOf demoEnv "red")
  let prog : List (List DOp) := [(savesOf (posted (termsOf demoEnv) tenDocs)).map .write]
  let allow : CDisk.Act → Prop := fun a => ∀ n progs, a = .openRest n progs → n = 10 ∧ progs = prog
  have names : ∀ p ∈ prog, ∀ o ∈ p, OpNames Digit o ∧ ∀ op, o = .write op → Digit op.doc := by
    intro p hp o ho
    cases List.mem_singleton.1 hp
    obtain ⟨op, hop, rfl⟩ := List.mem_map.1 ho
    have hdoc : Digit op.doc := by
      obtain ⟨e, he, rfl⟩ := List.mem_map.1 hop
      obtain ⟨d, hdm, he⟩ := List.mem_flatMap.1 he
      simp only [textsOf, List.mem_cons, List.not_mem_nil, or_false] at he
      obtain ⟨i, hi, rfl⟩ := List.mem_map.1 hdm
      rcases he with rfl | rfl | rfl <;> exact hi
    refine ⟨⟨?_, fun _ => hdoc, savesOf_goValues _ op hop⟩, by rintro op e; cases e; exact hdoc⟩
    obtain ⟨e, he, rfl⟩ := List.mem_map.1 hop
    obtain ⟨d, hdm, he⟩ := List.mem_flatMap.1 he
    simp only [textsOf, List.mem_cons, List.not_mem_nil, or_false] at he
    have i1 : FieldName "id" := ⟨by decide, by decide⟩
    have i2 : FieldName "title" := ⟨by decide, by decide⟩
    have i3 : FieldName "text" := ⟨by decide, by decide⟩
    rcases he with rfl | rfl | rfl
    · exact i1
    · exact i2
    · exact i3
  have ht : BServer.Tame Digit allow := by
    intro n progs hal
    obtain ⟨-, rfl⟩ := hal n progs rfl
    exact names
  have hno : ∀ a, CDisk.noOpen a = true → allow a := by rintro a ha n progs rfl; cases ha
  have hroomy : ∀ a, allow a → Server.RoomyAct a := by
    intro a ha n progs e
    obtain ⟨rfl, -⟩ := ha n progs e
    decide
  have noOpen : ∀ b ∈ tenRun ++ List.replicate 20 .stepD, CDisk.noOpen b = true := by
    intro b hb
    rcases List.mem_append.1 hb with hb | hb
    · exact tenRun_noOpen b hb
    · cases List.eq_of_mem_replicate hb; rfl
  have acts : ∀ a ∈ CDisk.openEmpty 10 prog ++ (tenRun ++ List.replicate 20 .stepD), allow a := by
    rintro a ha n progs rfl
    rcases List.mem_append.1 ha with ha | ha
    · simp only [CDisk.openEmpty, List.mem_cons, List.not_mem_nil, or_false, reduceCtorEq, false_or, CDisk.Act.openRest.injEq] at ha
      exact ha
    · have := noOpen _ ha; cases this
  have r0 : Reaches (BServer.Step (F := F64 L) packer ["data"] allow 4) { disk := { fs := folder } } { disk := b₀, reqs := [DReq.start Q] } := (BServer.reaches_run h1 acts).tail (.arrive { disk := b₀ } _ hu)
  obtain ⟨-, ⟨b, l, hb, hl⟩, -⟩ := c119_ends (by decide) folder_empty packer_written ids_digit ht hno hroomy r0 (i := 0) rfl
  have r1 := BServer.req_upStep (by decide) folder_empty packer_written ids_digit ht hno hroomy r0 hu hb (fun a => CDisk.noOpen a = true)
  have r2 : Reaches (BServer.UpStep (F := F64 L) packer ["data"] (fun a => CDisk.noOpen a = true) 4) ⟨b₀, []⟩ b := (Reaches.single ⟨.arrive { disk := b₀ } Q hu, hu⟩).trans r1
  have hqs : ∀ x, Reaches (BServer.ReqStep ["data"] 4 0) ({ disk := b₀, reqs := [DReq.start Q] } : BServer (F64 L)) x → x.reqs.map DReq.query = [Q] := by
    intro x hx
    refine hx.invariant (P := fun x => x.reqs.map DReq.query = [Q]) (by simp [DReq.query, DReq.start, Q, queries]) ?_
    rintro x y ih ⟨r, r', d, e1, e2, rfl⟩
    have e3 := move_query e2
    cases hx : x.reqs with
    | nil => rw [hx] at ih; cases ih
    | cons r0 rest =>
      rw [hx] at ih e1
      cases e1
      simp only [List.set_cons_zero, List.map_cons] at ih ⊢
      rw [e3]; exact ih
  unfold BServer.resultOf at hl
  obtain ⟨r, hr, hl⟩ := Option.bind_eq_some_iff.1 hl
  have hrm := List.mem_of_getElem? hr
  have hq : r.query = queries (termsOf demoEnv "red") := by
    have : r.query ∈ b.reqs.map DReq.query := List.mem_map_of_mem hrm
    rw [hqs b hb] at this
    exact List.mem_singleton.1 this
  obtain ⟨raw, bs, a1, a2⟩ : ∃ raw bs, Asks raw bs ∧ Decodes bs "red".toList :=
    ⟨"query=red".toList.map Char.toUInt8, Collection.utf8 "red".toList,
      Or.inl ⟨[], "query=red".toList.map Char.toUInt8, [], (fun p hp => by cases hp), forQuery_of (by decide) rfl, (fun p hp => by cases hp), rfl⟩, Collection.decodes_utf8 _⟩
  have htx : Text.preprocessing demoEnv (queryText raw) = some (termsOf demoEnv "red") := by rw [preprocessing_some, c115_query a1 a2]
  have fair : Fair (termsOf demoEnv) tenDocs (termsOf demoEnv "red") := ⟨by decide, by decide, by decide, by decide, by decide⟩
  have fin := c127_http_bytes D demoEnv (L := L) folder_empty packer_written ids_digit ha (by decide) (fun d hd => by obtain ⟨i, hi, rfl⟩ := List.mem_map.1 hd; exact hi) h1' noOpen hu hd (by decide) r2 a1 a2 fair htx hrm hq hl "1ms"
  refine ⟨_, b₀, b, raw, bs, _, r, l, ha, h1', hu, hd, r2, a1, a2, htx, hrm, hq, hl, ?_⟩
  have hred : "red" ∈ termsOf demoEnv "red" := by decide
  obtain ⟨body, rs, e1, e2, e3, -⟩ := fin.2.1 ⟨tenDocs, by decide, by decide, fun x hx => ⟨hx, by
    obtain ⟨i, -, rfl⟩ := List.mem_map.1 hx
    exact ⟨"red", hred, .inr hred⟩⟩⟩
  exact ⟨body, rs, e1, e2, e3⟩

end Http
end Goir
