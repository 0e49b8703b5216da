import Verif.Spec.Server
import Verif.Lemmas.Server
import Verif.Lemmas.ServerCollect
import Verif.Props.Search
/-!
# C100: what the searches of a running server return
-/
namespace Goir
open GoMap Spec

namespace Server
open CDisk DLive
variable {F : Type} [GoFloat F]

/-- what is known of a store, also when it is not running. -/
structure Good0 (s : CDisk) : Prop where
  ok : Ok s
  post : PostOk s
  docs : GoValues s.hist → DocsOk s
  out : OutWF s

theorem good_of {s : CDisk} (h : Good0 s ∧ s.up = true) : DLive.Good s := ⟨h.2, h.1.ok, h.1.post, h.1.docs, h.1.out⟩

theorem Good0.steady : Steady (fun _ => True) Good0 where
  step s a s' h hs _ := ⟨ok_step h.ok hs, postOk_step h.ok h.post hs, fun gv => docsOk_step h.ok (h.docs fun op hop => gv op (hist_mono hs op hop)) hs gv, outWF_step h.out hs⟩
  idle s cs h hu hcs := by
    have := DLive.Good.robust.idle s cs (good_of ⟨h, hu⟩) hcs
    exact ⟨this.ok, this.post, this.docs, this.out⟩

theorem good0_init : Good0 {} := ⟨ok_run (as := []) rfl, postOk_run (as := []) rfl, docsOk_run (as := []) rfl, outWF_run (as := []) rfl⟩

theorem sim_mono {P Q : CDisk → Prop} (h : ∀ s, P s → Q s) {f : String} {s : DLive} (hs : Sim P f s) : Sim Q f s :=
  let ⟨hu, A, hp, hr⟩ := hs
  ⟨hu, A, h _ hp, hr⟩

/-- of every goroutine that is still in its index search. -/
def Threads (T : CDisk → Query F → DSearch → Prop) (s : Server F) : Prop := ∀ r ∈ s.reqs, ∀ q x, (q, DQ.running x) ∈ r.threads → T s.disk q x

/-- the goroutines of all searches, step by step. -/
theorem threads_step {allow : CDisk.Act → Prop} {T : CDisk → Query F → DSearch → Prop} {cpus : Nat} {s s' : Server F} (h : Threads T s) (hs : Step allow cpus s s')
    (start : ∀ q, s.disk.up = true → T s.disk q (.first .readLen))
    (store : ∀ a d q x, s.reqs ≠ [] → s.disk.exec a = some d → d.up = true → T s.disk q x → T d q x)
    (move : ∀ d r q x x', r ∈ s.reqs → (q, DQ.running x) ∈ r.threads → DLive.Move q.terms q.fieldName cpus ⟨s.disk, x⟩ ⟨d, x'⟩ → T s.disk q x → T d q x' ∧ ∀ q' y, T s.disk q' y → T d q' y) :
    Threads T s' := by
  cases hs with
  | store a d ha hx =>
    intro r hr q x ht
    cases hd : d.up with
    | true =>
      have hr : r ∈ s.reqs := by simpa [hd] using hr
      exact store a d q x (List.ne_nil_of_mem hr) hx hd (h r hr q x ht)
    | false => simp [hd] at hr
  | arrive query hu =>
    intro r hr q x ht
    rcases List.mem_append.1 hr with hr | hr
    · exact h r hr q x ht
    · cases List.mem_singleton.1 hr
      obtain ⟨q', -, e⟩ := List.mem_map.1 ht
      cases e
      exact start q hu
  | req i r r' d hi hm =>
    have hmem := List.mem_of_getElem? hi
    have quiet : ∀ {r'' : DReq F}, (∀ q x, (q, DQ.running x) ∈ r''.threads → (q, DQ.running x) ∈ r.threads) → Threads T { disk := s.disk, reqs := s.reqs.set i r'' } := by
      intro r'' hsub r0 hr0 q x hx
      rcases LFan.mem_set' hr0 with rfl | hr0
      · exact h r hmem q x (hsub q x hx)
      · exact h r0 hr0 q x hx
    cases hm with
    | inner _ _ j q x x' ht hmv =>
      have htm := List.mem_of_getElem? ht
      obtain ⟨h1, h2⟩ := move d r q x x' hmem htm hmv (h r hmem q x htm)
      intro r0 hr0 q0 x0 hx0
      rcases LFan.mem_set' hr0 with rfl | hr0
      · rcases LFan.mem_set' hx0 with e | hx0
        · cases e; exact h1
        · exact h2 _ _ (h r hmem q0 x0 hx0)
      · exact h2 _ _ (h r0 hr0 q0 x0 hx0)
    | send _ j q st docs order ht ho hc =>
      refine quiet fun q0 x0 h => ?_
      rcases LFan.mem_set' h with e | h
      · cases e
      · exact h
    | close _ hd hc => exact quiet fun _ _ h => h
    | recv _ l q hq => exact quiet fun _ _ h => h
    | return_ _ order l hf hr' ho hl => exact quiet fun _ _ h => h

theorem req_hist {cpus : Nat} {d d' : CDisk} {r r' : DReq F} (h : DReq.Move cpus d r d' r') : d'.hist = d.hist := by
  cases h with
  | inner _ _ j q x x' ht hm => exact hist_move hm
  | _ => rfl

/-- the calls that have begun remain. -/
theorem hist_le {allow : CDisk.Act → Prop} {cpus : Nat} {s s' : Server F} (hs : Step allow cpus s s') : ∀ op ∈ s.disk.hist, op ∈ s'.disk.hist := by
  cases hs with
  | store a d ha hx => exact hist_mono (exec_step hx)
  | arrive query hu => exact fun _ h => h
  | req i r r' d hi hm => intro op h; show op ∈ d.hist; rw [req_hist hm]; exact h

theorem counted_server {allow : CDisk.Act → Prop} {cpus : Nat} {s s' : Server F} (hk : Ok s.disk) (h : Counted s.disk) (hs : Step allow cpus s s') : Counted s'.disk := by
  cases hs with
  | store a d ha hx => exact counted_step hk h (exec_step hx)
  | arrive query hu => exact h
  | req i r r' d hi hm =>
    cases hm with
    | inner _ _ j q x x' ht hm => exact counted_move h hm
    | _ => exact h

theorem Held.ok {s : Server F} (h : Held Good0 s) (hu : s.disk.up = true) : Ok s.disk := by
  obtain ⟨h0, A, hp, -⟩ := h
  have hk := hp.ok
  exact ⟨hk.tags, hk.lok, hk.ctag, hk.btag, hk.ix, hk.ix2, hk.proc, fun hd => (by rw [hu] at hd; cases hd), fun cl hcl => hk.cur cl (List.mem_append_left _ hcl), hk.ret⟩

theorem ok_server {allow : CDisk.Act → Prop} {cpus : Nat} {s s' : Server F} (hk : Ok s.disk) (h : Held Good0 s) (h' : Held Good0 s') (hs : Step allow cpus s s') : Ok s'.disk := by
  cases hs with
  | store a d ha hx => exact ok_step hk (exec_step hx)
  | arrive query hu => exact hk
  | req i r r' d hi hm =>
    refine h'.ok ?_
    have hu := h.up (List.mem_of_getElem? hi)
    cases hm with
    | inner _ _ j q x x' ht hm => exact (move_up hm).trans hu
    | _ => exact hu

omit [GoFloat F] in
theorem truthful_mono {h h' : List StoreOp} (x : List StoreOp) (e : h' = h ++ x) {a : Answer F} (ht : Truthful h a) : Truthful h' a := by
  subst e
  refine ⟨fun d fl hd => ?_, fun d fl hd => ?_, ?_, fun hp => ?_, fun t n hn => ?_⟩
  · obtain ⟨t, h1, h2⟩ := ht.posted d fl hd
    exact ⟨t, h1, Disk.posted_mono (fun _ h => List.mem_append_left _ h) h2⟩
  · obtain ⟨g, h1, h2⟩ := ht.field d fl hd
    exact ⟨g, List.mem_append_left _ h1, h2⟩
  · exact le_trans ht.size (by exact_mod_cast saveCount_le h x _)
  · exact le_trans (ht.len fun op ho => hp op (List.mem_append_left _ ho)) (saveLengthSum_le h x _ fun op ho => hp op (List.mem_append_right _ ho))
  · exact le_trans (ht.nft t n hn) (by exact_mod_cast termCount_le h x _ _)

/-- a goroutine that has its documents has each of them once. -/
def DoneWF : DSearch → Prop
  | .done _ docs => docs.WF
  | _ => True

/-- the invariant of C100. -/
structure Sound (s : Server F) : Prop where
  held : Held Good0 s
  ok : Ok s.disk
  counted : Counted s.disk
  wf : Threads (fun _ _ x => DoneWF x) s
  look : GoValues s.disk.hist → Threads (fun d q x => Hits d.hist q.terms q.fieldName x ∧ Numbers d.hist q.fieldName x) s
  col : GoValues s.disk.hist → ∀ r ∈ s.reqs, DReq.Collects (fun q st docs => Truthful s.disk.hist ⟨q, st, docs⟩) r

theorem sound_init : Sound ({} : Server F) :=
  ⟨⟨fun _ => rfl, [], good0_init, fun _ h => (by cases h)⟩, ok_run (as := []) rfl, counted_run (as := []) rfl, fun _ h => (by cases h), fun _ _ h => (by cases h), fun _ _ h => (by cases h)⟩

theorem Sound.sim {s : Server F} (h : Sound s) {r : DReq F} (hr : r ∈ s.reqs) {q : Query F} {x : DSearch} (hx : (q, .running x) ∈ r.threads) : Sim DLive.Good q.fieldName ⟨s.disk, x⟩ :=
  sim_mono (fun _ => good_of) (h.held.sim Good0.steady hr hx)

/-- what the search of one query has when it returns. -/
theorem Sound.done {s : Server F} (h : Sound s) (gv : GoValues s.disk.hist) {r : DReq F} (hr : r ∈ s.reqs) {q : Query F} {st : LStats} {docs : GoMap String Field}
    (hx : (q, .running (.done st docs)) ∈ r.threads) : Truthful s.disk.hist ⟨q, st, docs⟩ := by
  obtain ⟨hh, hn⟩ := h.look gv r hr q _ hx
  obtain ⟨-, A, hp, hread⟩ := h.sim hr hx
  refine ⟨hh, fun d fl he => ?_, hn.size, hn.len.len, hn.nft⟩
  obtain ⟨ids, out, h1, h2⟩ := hread d fl he
  exact ((hp.docs gv).ans _ h1 d fl (GoMap.get?_of_mem (hp.out.ans _ h1) h2)).2

theorem sound_step {allow : CDisk.Act → Prop} {cpus : Nat} {s s' : Server F} (h : Sound s) (hs : Step allow cpus s s') : Sound s' := by
  have le := hist_le hs
  have back : GoValues s'.disk.hist → GoValues s.disk.hist := fun gv op hop => gv op (le op hop)
  have weaken : Step (fun _ => True) cpus s s' := by
    cases hs with
    | store a d ha hx => exact .store s a d trivial hx
    | arrive query hu => exact .arrive s query hu
    | req i r r' d hi hm => exact .req s i r r' d hi hm
  have grow : ∀ a d, s.disk.exec a = some d → d.up = true → ∃ x, d.hist = s.disk.hist ++ x := fun a d hx hd => hist_grows (exec_step hx) hd
  have held := held_step Good0.steady (fun _ _ => trivial) h.held weaken
  refine ⟨held, ok_server h.ok h.held held hs, counted_server h.ok h.counted hs, ?_, fun gv => ?_, fun gv => ?_⟩
  · refine threads_step h.wf hs (fun _ _ => trivial) (fun _ _ _ _ _ _ _ h => h) fun d r q x x' hr hx hm h => ⟨?_, fun _ _ h => h⟩
    cases hm with
    | finish _ st fan hf => exact collect_wf _
    | _ => trivial
  · refine threads_step (h.look (back gv)) hs (fun _ _ => ⟨trivial, trivial⟩) (fun a d q x _ hx hd hh => ?_) fun d r q x x' hr hx hm hh => ?_
    · obtain ⟨y, e⟩ := grow a d hx hd
      rw [e]
      exact ⟨hh.1.mono y, hh.2.mono y⟩
    · have e : d.hist = s.disk.hist := hist_move hm
      refine ⟨⟨hits_move (h.sim hr hx) (back gv) hh.1 hm, nums_move (h.sim hr hx) h.counted (back gv) hh.2 hm⟩, fun q' y hy => ?_⟩
      rw [e]; exact hy
  · have hold := h.col (back gv)
    cases hs with
    | store a d ha hx =>
      intro r hr
      cases hd : d.up with
      | true =>
        obtain ⟨y, e⟩ := grow a d hx hd
        exact (hold r (by simpa [hd] using hr)).mono fun q st docs ht => truthful_mono y e ht
      | false => simp [hd] at hr
    | arrive query hu =>
      intro r hr
      rcases List.mem_append.1 hr with hr | hr
      · exact hold r hr
      · cases List.mem_singleton.1 hr
        exact DReq.collects_start _ query
    | req i r r' d hi hm =>
      have e : d.hist = s.disk.hist := req_hist hm
      have hmem := List.mem_of_getElem? hi
      intro r0 hr0
      show DReq.Collects (fun q st docs => Truthful d.hist ⟨q, st, docs⟩) r0
      rw [e]
      rcases LFan.mem_set' hr0 with rfl | hr0
      · exact DReq.collects_move (hold r hmem) hm fun q st docs hx => ⟨h.done (back gv) hmem hx, h.wf r hmem q _ hx⟩
      · exact hold r0 hr0

theorem sound_reach {allow : CDisk.Act → Prop} {cpus : Nat} {s : Server F} (h : Reaches (Step allow cpus) ({} : Server F) s) : Sound s := h.invariant sound_init fun _ _ => sound_step

end Server

/-- **C100 Every GET that a running server answers tells only of what was saved.** Any number of POST and GET handlers use the store at the same time, its writers run, and the process ends and starts again any
number of times. What `Search` returns for a request is merged from one answer for each of its queries, every document once, with the sum of its BM25 scores; and each answer is truthful: of documents that were
saved with a term of the query by a call that had begun by then, with a field that was saved, and with numbers that are not more than what the saves amount to. -/
theorem c100_server_search_sound {F : Type} [GoFloat F] {allow : CDisk.Act → Prop} {cpus : Nat} {s : Server F} (h : Reaches (Server.Step allow cpus) ({} : Server F) s) (gv : GoValues s.disk.hist)
    {r : DReq F} (hr : r ∈ s.reqs) {l : Scores F} (hl : r.result = some l) :
    ∃ answers : List (Answer F), (answers.map Answer.query).Perm (r.threads.map Prod.fst) ∧ (∀ a ∈ answers, Truthful s.disk.hist a) ∧ Merges answers l := by
  obtain ⟨as, h1, h2, h3, -⟩ := DReq.collects_result ((Server.sound_reach h).col gv r hr) hl
  exact ⟨as, h1, h2, h3⟩

/-- **C100, seen from a document.** A document in the answer to a GET was posted, by a call that had begun, with a term of one of the queries in its field. -/
theorem c100_document {F : Type} [GoFloat F] {allow : CDisk.Act → Prop} {cpus : Nat} {s : Server F} (h : Reaches (Server.Step allow cpus) ({} : Server F) s) (gv : GoValues s.disk.hist)
    {r : DReq F} (hr : r ∈ s.reqs) {l : Scores F} (hl : r.result = some l) {d : String} {x : F} (hd : (d, x) ∈ l) :
    ∃ q ∈ r.threads.map Prod.fst, (∃ t ∈ q.terms, Posted s.disk.hist q.fieldName t d) ∧ ∃ g, StoreOp.save d g ∈ s.disk.hist ∧ g.name = q.fieldName := by
  obtain ⟨as, h1, h2, h3⟩ := c100_server_search_sound h gv hr hl
  obtain ⟨hne, -⟩ := (h3.2 d x).1 hd
  obtain ⟨v, hv⟩ := List.exists_mem_of_ne_nil _ hne
  obtain ⟨a, ha, hs⟩ := List.mem_filterMap.1 hv
  obtain ⟨fl, hfl, -⟩ := Option.map_eq_some_iff.1 hs
  obtain ⟨g, g1, g2, -⟩ := (h2 a ha).field d fl hfl
  exact ⟨a.query, h1.mem_iff.1 (List.mem_map_of_mem ha), (h2 a ha).posted d fl hfl, g, g1, g2⟩

/-- **C100, over the reals.** The answer to a GET is sorted by non-increasing score. -/
theorem c100_sorted {allow : CDisk.Act → Prop} {cpus : Nat} {s : Server ℝ} (h : Reaches (Server.Step allow cpus) ({} : Server ℝ) s) (gv : GoValues s.disk.hist)
    {r : DReq ℝ} (hr : r ∈ s.reqs) {l : Scores ℝ} (hl : r.result = some l) : l.Pairwise fun a b => b.2 ≤ a.2 := by
  obtain ⟨-, -, -, -, order, h1⟩ := DReq.collects_result ((Server.sound_reach h).col gv r hr) hl
  have gt_iff : ∀ x y : ℝ, GoFloat.gt x y = true ↔ y < x := fun x y => by simp [GoFloat.gt]
  have gt_false : ∀ x y : ℝ, GoFloat.gt x y = false ↔ x ≤ y := fun x y => by simp [GoFloat.gt]
  have := h1.2 (fun x _ => (gt_false _ _).2 le_rfl)
    (fun x _ y _ z _ h h' => (gt_iff _ _).2 (((gt_iff _ _).1 h').trans ((gt_iff _ _).1 h)))
    (fun x _ y _ z _ h h' => (gt_false _ _).2 (((gt_false _ _).1 h).trans ((gt_false _ _).1 h')))
  exact this.imp fun h => (gt_false _ _).1 h

end Goir
