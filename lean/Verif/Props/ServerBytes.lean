import Verif.Lemmas.ServerBytes
import Verif.Props.DiskBytesCases
import Verif.Props.ServerFinds
/-!
# C119: the program of /repo/main.go on the bytes of its files
-/
namespace Goir
open GoMap Spec

/-- what a document's file holds is the same. -/
theorem BRel.loadDoc {root : Path} {D : String → Prop} {s : BDisk} {a : CDisk} (h : BRel root D s a) (hD : Ids D) {id : String} (hid : D id) : BDisk.loadDoc s.fs root id = a.load id := by
  have hr := (h.files.slot (.doc id) hid).cur
  have e0 : join (BDisk.docDir root) id = (Slot.doc id).dir root ++ [(Slot.doc id).name] := by
    unfold BDisk.docDir
    rw [join_plain (hD.plain id hid), join_plain (by decide), join_plain (by decide)]
    simp [Slot.dir, Slot.name]
  unfold BDisk.loadDoc FS.readFile CDisk.load
  rw [e0]
  have hA : slots a (.doc id) = a.fl.file id := rfl
  rw [hA] at hr
  match hcur : (a.fl.file id).cur, hnode : s.fs.get? ((Slot.doc id).dir root ++ [(Slot.doc id).name]), hr with
  | none, none, _ => rfl
  | some .torn, some (.file bs), hr =>
    have hr : Gzip.decompressData bs = none := hr
    simp only [BDisk.decodeFields, hr, Option.bind_none, Option.map_none]
  | some (.full b), some (.file bs), hr =>
    obtain ⟨raw, r1, r2⟩ := hr
    have r2 : FBB.deserializeFieldMap raw = deserializeFieldMap b := r2
    simp only [BDisk.decodeFields, r1, Option.bind_some, r2]

theorem MemEq.symm {m m' : CMem} (h : MemEq m m') : MemEq m' m :=
  ⟨h.1.symm, h.2.symm, fun k => (h.3 k).symm, fun k => (h.4 k).symm, h.5.symm, h.6.symm, h.7.symm, fun k => (h.8 k).symm, h.9.symm, h.10.symm⟩

/-- a step of GetFields that the store with objects can make. -/
theorem rexec_back {root : Path} {D : String → Prop} {s : BDisk} {a : CDisk} (h : BRel root D s a) (hD : Ids D) {f : String} {loc : RLoc} (hid : ∀ id todo out, loc = .load id todo out → D id) {a' : CDisk}
    {y : RLoc ⊕ GoMap String Field} (he : a.rexec f loc = some (a', y)) : ∃ s', s.rexec root f loc = some (s', some y) := by
  cases loc with
  | get todo out =>
    cases todo with
    | nil => cases he; exact ⟨_, rfl⟩
    | cons id todo =>
      simp only [CDisk.rexec] at he
      rw [h.cache] at he
      simp only [BDisk.rexec, CDisk.rexec]
      cases hg : (s.d.cache.get id).2 with
      | some r =>
        rw [show s.d.cache.get id = ((s.d.cache.get id).1, some r) from Prod.ext rfl hg] at he ⊢
        cases he; exact ⟨_, rfl⟩
      | none =>
        rw [show s.d.cache.get id = ((s.d.cache.get id).1, none) from Prod.ext rfl hg] at he ⊢
        cases he; exact ⟨_, rfl⟩
  | field id r todo out =>
    cases he
    exact ⟨_, by simp only [BDisk.rexec, CDisk.rexec, Option.map_some, h.mem.docCells]; rfl⟩
  | put id r todo out =>
    simp only [CDisk.rexec, Option.map_eq_some_iff] at he
    obtain ⟨c, hc, e⟩ := he
    cases e
    rw [h.cache] at hc
    exact ⟨{ s with d := { s.d with cache := c } }, by simp only [BDisk.rexec, CDisk.rexec, hc, Option.map_some]⟩
  | load id todo out =>
    simp only [BDisk.rexec, h.loadDoc hD (hid id todo out rfl)]
    simp only [CDisk.rexec] at he
    cases hl : a.load id with
    | none => rw [hl] at he; cases he
    | some o =>
      rw [hl] at he
      cases o with
      | none => cases he; exact ⟨_, rfl⟩
      | some fd => cases he; simp only [h.mem.next]; exact ⟨_, rfl⟩

namespace BServer
open CDisk
variable {F : Type} [GoFloat F]

/-- search number `i` makes a step. -/
def ReqStep (root : Path) (cpus i : Nat) (s s' : BServer F) : Prop := ∃ r r' d, s.reqs[i]? = some r ∧ BReq.Move root cpus s.disk r d (some r') ∧ s' = { disk := d, reqs := s.reqs.set i r' }

/-- what search number `i` has returned. -/
def resultOf (i : Nat) (s : BServer F) : Option (Scores F) := (s.reqs[i]?).bind (·.result)

section
variable {root : Path} {D : String → Prop} {z : Bytes → Bytes} {allow : Act → Prop} {cpus : Nat}

theorem move_back (hD : Ids D) {b : BServer F} {a : Server F} (h : SRel root D b a) (hi : SInv D a) {r : DReq F} (hr : r ∈ a.reqs) {q : Query F} {x : DSearch} (ht : (q, .running x) ∈ r.threads) {d' : CDisk} {y : DSearch}
    (hm : DLive.Move q.terms q.fieldName cpus ⟨a.disk, x⟩ ⟨d', y⟩) : ∃ d, BMove root q.terms q.fieldName cpus b.disk x d (some y) := by
  cases hm with
  | first _ q0 q1 hs he => exact ⟨_, .first _ _ _ (LSearch.step_eq h.disk.mem.symm he hs) he⟩
  | begin2 _ st fan hf => exact ⟨_, .begin2 _ st fan hf⟩
  | p2 _ st fan fan' hs => exact ⟨_, .p2 _ st fan fan' hs⟩
  | fetch _ _ st fan i ids loc loc' hg hs =>
    obtain ⟨s', e⟩ := rexec_back h.disk hD (hi.asks hr ht hg) hs
    exact ⟨_, .fetch _ _ st fan i ids loc loc' hg e⟩
  | fetched _ _ st fan i ids loc out rem hg hs hp =>
    obtain ⟨s', e⟩ := rexec_back h.disk hD (hi.asks hr ht hg) hs
    exact ⟨_, .fetched _ _ st fan i ids loc out rem hg e hp⟩
  | finish _ st fan hf => exact ⟨_, .finish _ st fan hf⟩

theorem reqMove_back (hD : Ids D) {b : BServer F} {a : Server F} (h : SRel root D b a) (hi : SInv D a) {r : DReq F} (hr : r ∈ a.reqs) {d' : CDisk} {r' : DReq F} (hm : DReq.Move cpus a.disk r d' r') :
    ∃ d, BReq.Move root cpus b.disk r d (some r') := by
  cases hm with
  | inner _ _ i q x x' ht hx =>
    obtain ⟨d, h1⟩ := move_back hD h hi hr (List.mem_of_getElem? ht) hx
    exact ⟨d, .inner _ _ _ i q x x' ht h1⟩
  | send _ i q st docs order ht ho hc => exact ⟨_, .send _ _ i q st docs order ht ho hc⟩
  | close _ h1 hc => exact ⟨_, .close _ _ h1 hc⟩
  | recv _ l q hq => exact ⟨_, .recv _ _ l q hq⟩
  | return_ _ order l h1 h2 ho hl => exact ⟨_, .return_ _ _ order l h1 h2 ho hl⟩

theorem reqStep_sim (hD : Ids D) {b b' : BServer F} {a : Server F} (h : SRel root D b a) (hi : SInv D a) {i : Nat} (hs : ReqStep root cpus i b b') : ∃ a', Server.ReqStep cpus i a a' ∧ SRel root D b' a' := by
  obtain ⟨r, r', d, hr, hm, rfl⟩ := hs
  have hr' : a.reqs[i]? = some r := by rw [h.reqs]; exact hr
  obtain ⟨d', h1, h2⟩ := reqMove_sim hD h hi (List.mem_of_getElem? hr') hm
  exact ⟨_, ⟨r, r', d', hr', h1, rfl⟩, h2, by simp only; rw [h.reqs]⟩

/-- no file of a document that a search reads makes it panic. -/
theorem no_panic (hD : Ids D) {b : BServer F} {a : Server F} (h : SRel root D b a) (hi : SInv D a) {r : DReq F} (hr : r ∈ b.reqs) (d : BDisk) : ¬ BReq.Move root cpus b.disk r d none := by
  intro hm
  obtain ⟨-, -, -, -, id, hl⟩ := reqMove_sim hD h hi (by rw [h.reqs]; exact hr) hm
  unfold CDisk.load at hl
  cases hc : (a.disk.fl.file id).cur with
  | none => rw [hc] at hl; cases hl
  | some c =>
    obtain ⟨buf, rfl, m, hm, -⟩ := hi.inv.docs.file id c hc
    rw [hc] at hl
    simp only [hm, Option.map_some] at hl
    cases hl

/-- a search that is called, and the rest of the process. -/
theorem call_sim {fs : FS} {b₂ b : BServer F} (hroot : EmptyRoot root fs) (hz : ∀ d, Gz.Written d (z d)) (hD : Ids D) (ht : Tame D allow) (ha : ∀ a, noOpen a = true → allow a)
    (h1 : Reaches (Step z root allow cpus) { disk := { fs := fs } } b₂) (hu : b₂.disk.d.up = true) {query : List (Query F)}
    (h2 : Reaches (UpStep z root allow cpus) { b₂ with reqs := b₂.reqs ++ [DReq.start query] } b) :
    ∃ a₂ a, Reaches (Server.Step allow cpus) ({} : Server F) a₂ ∧ SRel root D b₂ a₂ ∧ a₂.disk.up = true ∧ Reaches (Server.UpStep allow cpus) { a₂ with reqs := a₂.reqs ++ [DReq.start query] } a ∧ SRel root D b a ∧ SInv D a := by
  obtain ⟨a₂, k1, k2⟩ := reach_sim hD hz ht ha (a := {}) ⟨brel_init hroot, rfl⟩ (SInv.init D) h1
  have i2 := (SInv.init D).reach ht k1
  have hu' : a₂.disk.up = true := by rw [k2.disk.up]; exact hu
  obtain ⟨-, a, k3, k4⟩ := reach_up hD hz ht ha (b := { b₂ with reqs := b₂.reqs ++ [DReq.start query] }) (a := { a₂ with reqs := a₂.reqs ++ [DReq.start query] }) ⟨k2.disk, by simp only; rw [k2.reqs]⟩
    (i2.step ht (.arrive (cpus := cpus) a₂ query hu')) hu h2
  exact ⟨a₂, a, k1, k2, hu', k3, k4, (i2.step ht (.arrive (cpus := cpus) a₂ query hu')).reach ht (k3.invariant (P := fun x => Reaches (Server.Step allow cpus) _ x) (.refl _) fun a b ih hs => ih.tail hs.1)⟩

end
end BServer

/-- **C119.** The program of main.go on the bytes of its files, with any number of POST and GET handlers side by side, over any number of processes that may end after any byte, behaves as the program whose files are objects that a
crash leaves whole or torn: there is a run of that program with the same processes after which the store answers every question alike and every search is at the same place. -/
theorem c119_refines {F : Type} [GoFloat F] {root : Path} {fs : FS} {z : Bytes → Bytes} {D : String → Prop} {allow : CDisk.Act → Prop} {cpus : Nat} {b : BServer F} (hroot : EmptyRoot root fs) (hz : ∀ d, Gz.Written d (z d)) (hD : Ids D)
    (ht : BServer.Tame D allow) (ha : ∀ a, CDisk.noOpen a = true → allow a) (h : Reaches (BServer.Step z root allow cpus) { disk := { fs := fs } } b) :
    ∃ a : Server F, Reaches (Server.Step allow cpus) ({} : Server F) a ∧ BDisk.Alike b.disk a.disk ∧ a.reqs = b.reqs := by
  obtain ⟨a, h1, h2⟩ := BServer.reach_sim hD hz ht ha (a := {}) ⟨brel_init hroot, rfl⟩ (BServer.SInv.init D) h
  exact ⟨a, h1, h2.disk.alike, h2.reqs⟩

/-- **C119, no search ends the process**: reading the file of a document never panics, whenever earlier processes ended. -/
theorem c119_no_panic {F : Type} [GoFloat F] {root : Path} {fs : FS} {z : Bytes → Bytes} {D : String → Prop} {allow : CDisk.Act → Prop} {cpus : Nat} {b : BServer F} (hroot : EmptyRoot root fs) (hz : ∀ d, Gz.Written d (z d)) (hD : Ids D)
    (ht : BServer.Tame D allow) (ha : ∀ a, CDisk.noOpen a = true → allow a) (h : Reaches (BServer.Step z root allow cpus) { disk := { fs := fs } } b) {r : DReq F} (hr : r ∈ b.reqs) (d : BDisk) :
    ¬ BReq.Move root cpus b.disk r d none := by
  obtain ⟨a, h1, h2⟩ := BServer.reach_sim hD hz ht ha (a := {}) ⟨brel_init hroot, rfl⟩ (BServer.SInv.init D) h
  exact BServer.no_panic hD h2 ((BServer.SInv.init D).reach ht h1) hr d

/-- **C119, every answer is truthful** (C100 on bytes). A search is called with `query` while the server handles any other requests, and it returns `l` in the same process: `l` merges one answer per query that it was called with, and
every answer tells only of what the calls that have begun were given. -/
theorem c119_asked {F : Type} [GoFloat F] {root : Path} {fs : FS} {z : Bytes → Bytes} {D : String → Prop} {allow : CDisk.Act → Prop} {cpus : Nat} {b₂ b : BServer F} (hroot : EmptyRoot root fs) (hz : ∀ d, Gz.Written d (z d)) (hD : Ids D)
    (ht : BServer.Tame D allow) (ha : ∀ a, CDisk.noOpen a = true → allow a) (h1 : Reaches (BServer.Step z root allow cpus) { disk := { fs := fs } } b₂) (hu : b₂.disk.d.up = true) {query : List (Query F)}
    (h2 : Reaches (BServer.UpStep z root allow cpus) { b₂ with reqs := b₂.reqs ++ [DReq.start query] } b) {r : DReq F} (hr : b.reqs[b₂.reqs.length]? = some r) {l : Scores F} (hl : r.result = some l) :
    ∃ answers : List (Answer F), (answers.map Answer.query).Perm query ∧ (∀ a ∈ answers, Truthful b.disk.d.hist a) ∧ Merges answers l := by
  obtain ⟨a₂, a, k1, k2, hu', k3, k4, hi⟩ := BServer.call_sim hroot hz hD ht ha h1 hu h2
  have e : a.disk.hist = b.disk.d.hist := by simp only [CDisk.hist, k4.disk.earlier, k4.disk.begun]
  rw [← e]
  exact c100_asked k1 hu' k3 hi.gv (by rw [k4.reqs, k2.reqs]; exact hr) hl

/-- **C119, a search finds what is stored** (C102 on bytes). At a moment when no process ran, the bytes of the file of document `d` held the field `old`. Since then nobody saved `d`, but any number of clients saved and read other documents,
any number of searches ran, and the process ended, after any byte, and started any number of times. When the search is called, `d` is listed for the term in the field, and no call that saves this field is under way. Then every query of the
field with the term gives `d` with the field `old`, and so `d` is in the answer. -/
theorem c119_finds {F : Type} [GoFloat F] {root : Path} {fs : FS} {z : Bytes → Bytes} {D : String → Prop} {allow allow' : CDisk.Act → Prop} {cpus : Nat} {b₁ b₂ b : BServer F} {d f t : String} {m : GoMap String Field} {old : Field}
    (hroot : EmptyRoot root fs) (hz : ∀ d, Gz.Written d (z d)) (hD : Ids D) (ht : BServer.Tame D allow) (ha : ∀ a, CDisk.noOpen a = true → allow a) (ht' : BServer.Tame D allow') (ha' : ∀ a, CDisk.noOpen a = true → allow' a)
    (spares : ∀ a, allow' a → Server.Spares d a) (hd : D d)
    (h1 : Reaches (BServer.Step z root allow cpus) { disk := { fs := fs } } b₁) (down : b₁.disk.d.up = false) (hfile : BDisk.loadDoc b₁.disk.fs root d = some (some m)) (stored : m.get? f = some old)
    (h2 : Reaches (BServer.Step z root allow' cpus) b₁ b₂) (hu : b₂.disk.d.up = true) (listed : GoSet.contains (b₂.disk.d.getDocuments f t).1 d = true)
    (quiet : ∀ cl ∈ b₂.disk.d.clients, ∀ op loc, cl.cur = some (.write op loc) → op.field.name ≠ f) {query : List (Query F)}
    (h3 : Reaches (BServer.UpStep z root allow' cpus) { b₂ with reqs := b₂.reqs ++ [DReq.start query] } b) {r : DReq F} (hr : b.reqs[b₂.reqs.length]? = some r) {l : Scores F} (hl : r.result = some l) :
    ∃ answers : List (Answer F), (answers.map Answer.query).Perm query ∧ Merges answers l ∧ ∀ a ∈ answers, a.query.fieldName = f → t ∈ a.query.terms → a.docs.get? d = some old := by
  obtain ⟨a₁, k1, r1⟩ := BServer.reach_sim hD hz ht ha (a := {}) ⟨brel_init hroot, rfl⟩ (BServer.SInv.init D) h1
  have i1 := (BServer.SInv.init D).reach ht k1
  obtain ⟨a₂, k2, r2⟩ := BServer.reach_sim hD hz ht' ha' r1 i1 h2
  have i2 := i1.reach ht' k2
  have hu' : a₂.disk.up = true := by rw [r2.disk.up]; exact hu
  obtain ⟨-, a, k3, r3⟩ := BServer.reach_up hD hz ht' ha' (b := { b₂ with reqs := b₂.reqs ++ [DReq.start query] }) (a := { a₂ with reqs := a₂.reqs ++ [DReq.start query] }) ⟨r2.disk, by simp only; rw [r2.reqs]⟩
    (i2.step ht' (.arrive (cpus := cpus) a₂ query hu')) hu h3
  refine c102_server_search_finds k1 (by rw [r1.disk.up]; exact down) i1.gv (m := m) (by rw [← r1.disk.loadDoc hD hd, hfile]; rfl) stored (Server.reaches_mono (fun x y hs => hs.mono spares) k2) hu'
    (by rw [r2.disk.alike.documents]; exact listed) (by rw [r2.disk.clients]; exact quiet) (Server.reaches_mono (fun x y hs => ⟨hs.1.mono spares, hs.2⟩) k3) (by rw [r3.reqs, r2.reqs]; exact hr) hl

namespace Server
open CDisk
variable {F : Type} [GoFloat F]

theorem finite_coarse {cpus : Nat} (hc : 0 < cpus) {run : Nat → Server F} (h0 : Lively (run 0)) (hr : ∀ n, Reaches (UpStep RoomyAct cpus) (run n) (run (n + 1))) {i : Nat} {qs : List (Query F)} (hq : queries i (run 0) = some qs) :
    ∃ N, ∀ n, N ≤ n → ¬ ReqStep cpus i (run n) (run (n + 1)) := by
  have many : ∀ {s s' : Server F}, Lively s → queries i s = some qs → Reaches (UpStep RoomyAct cpus) s s' → (Lively s' ∧ queries i s' = some qs) ∧ crank i s' ≤ crank i s ∧
      ∀ j, Relation.TransGen Live.Less (trank i j s') (trank i j s) ∨ trank i j s' = trank i j s := by
    intro s s' h hq hs
    refine hs.invariant (P := fun x => (Lively x ∧ queries i x = some qs) ∧ crank i x ≤ crank i s ∧ ∀ j, Relation.TransGen Live.Less (trank i j x) (trank i j s) ∨ trank i j x = trank i j s)
      ⟨⟨h, hq⟩, le_rfl, fun _ => .inr rfl⟩ ?_
    rintro x y ⟨⟨p1, p2⟩, p3, p4⟩ hxy
    refine ⟨⟨lively_server hc p1 hxy.1, queries_step p2 hxy.2 hxy.1⟩, ?_, fun j => ?_⟩
    · rcases crank_step p1 p2 hxy.2 hxy.1 with e | e <;> omega
    · rcases trank_step p1 p2 hxy.2 hxy.1 j with e | e
      · rcases p4 j with e' | e'
        · exact .inl (.head e e')
        · exact .inl (.single (e' ▸ e))
      · rw [e]; exact p4 j
  have inv : ∀ n, Lively (run n) ∧ queries i (run n) = some qs := by
    intro n
    induction n with
    | zero => exact ⟨h0, hq⟩
    | succ n ih => exact (many ih.1 ih.2 (hr n)).1
  obtain ⟨Nc, hNc⟩ := eventually_const (lt := (· < ·)) Nat.lt_wfRel.wf (f := fun n => crank i (run n)) fun n => Nat.lt_or_eq_of_le (many (inv n).1 (inv n).2 (hr n)).2.1
  have ht : ∀ m, ∃ N, ∀ j, j < m → ∀ n, N ≤ n → trank i j (run (n + 1)) = trank i j (run n) := by
    intro m
    induction m with
    | zero => exact ⟨0, fun j hj => (by omega)⟩
    | succ m ih =>
      obtain ⟨N1, h1⟩ := ih
      obtain ⟨N2, h2⟩ := eventually_const Live.less_wf.transGen (f := fun n => trank i m (run n)) fun n => (many (inv n).1 (inv n).2 (hr n)).2.2 m
      refine ⟨max N1 N2, fun j hj n hn => ?_⟩
      by_cases hjm : j = m
      · subst hjm
        exact (h2 (n + 1) (by omega)).trans (h2 n (by omega)).symm
      · exact h1 j (by omega) n (by omega)
  obtain ⟨Nt, hNt⟩ := ht qs.length
  refine ⟨max Nc Nt, fun n hn => ?_⟩
  rintro ⟨r, r', d, hi, hm, e⟩
  have hqr : r.query = qs := by
    have := (inv n).2
    unfold queries at this
    rw [hi] at this
    exact Option.some.inj this
  have hd := move_drop (inv n).1 hi hm
  rw [← e, hqr] at hd
  rcases hd with ⟨-, j, hj, hlt⟩ | hlt
  · rw [hNt j hj n (by omega)] at hlt
    exact Live.less_wf.irrefl.irrefl _ hlt
  · have := hNc n (by omega)
    have := hNc (n + 1) (by omega)
    omega

end Server

/-- **C119, every search is answered** (C101 on bytes). Stores are opened with room for at least one document in the cache. Whatever the other handlers and the writers are doing, a search that has not returned can make a step; by itself it
returns; and in no run in which the process does not end does it make infinitely many steps. -/
theorem c119_ends {F : Type} [GoFloat F] {root : Path} {fs : FS} {z : Bytes → Bytes} {D : String → Prop} {allow : CDisk.Act → Prop} {cpus : Nat} (hc : 0 < cpus) {b : BServer F} (hroot : EmptyRoot root fs) (hz : ∀ d, Gz.Written d (z d))
    (hD : Ids D) (ht : BServer.Tame D allow) (ha : ∀ a, CDisk.noOpen a = true → allow a) (room : ∀ a, allow a → Server.RoomyAct a) (h : Reaches (BServer.Step z root allow cpus) { disk := { fs := fs } } b)
    {i : Nat} {r : DReq F} (hr : b.reqs[i]? = some r) :
    (r.result = none → ∃ b', BServer.ReqStep root cpus i b b') ∧ (∃ b' l, Reaches (BServer.ReqStep root cpus i) b b' ∧ BServer.resultOf i b' = some l) ∧
    ∀ run : Nat → BServer F, run 0 = b → (∀ n, BServer.UpStep z root allow cpus (run n) (run (n + 1))) → ∃ N, ∀ n, N ≤ n → ¬ BServer.ReqStep root cpus i (run n) (run (n + 1)) := by
  obtain ⟨a, k1, r1⟩ := BServer.reach_sim hD hz ht ha (a := {}) ⟨brel_init hroot, rfl⟩ (BServer.SInv.init D) h
  have i1 := (BServer.SInv.init D).reach ht k1
  have hl := Server.lively_reach hc (Server.reaches_mono (fun x y hs => hs.mono room) k1)
  have hra : a.reqs[i]? = some r := by rw [r1.reqs]; exact hr
  have hu : b.disk.d.up = true := by rw [← r1.disk.up]; exact i1.sound.held.up (List.mem_of_getElem? hra)
  have prog : ∀ {b : BServer F} {a : Server F} {r : DReq F}, BServer.SRel root D b a → BServer.SInv D a → Server.Lively a → b.reqs[i]? = some r → r.result = none → ∃ b', BServer.ReqStep root cpus i b b' := by
    intro b a r h1 h2 h3 hr hn
    have hra : a.reqs[i]? = some r := by rw [h1.reqs]; exact hr
    obtain ⟨d, r', hm⟩ := Server.progress (cpus := cpus) h3 h2.gv (List.mem_of_getElem? hra) hn
    obtain ⟨d', hm'⟩ := BServer.reqMove_back hD h1 h2 (List.mem_of_getElem? hra) hm
    exact ⟨_, r, r', d', hr, hm', rfl⟩
  -- the run that follows
  have next : ∀ {b b' : BServer F} {a : Server F}, BServer.SRel root D b a → BServer.SInv D a → b.disk.d.up = true → BServer.UpStep z root allow cpus b b' →
      ∃ a', BServer.SRel root D b' a' ∧ BServer.SInv D a' ∧ Reaches (Server.UpStep allow cpus) a a' ∧ (BServer.ReqStep root cpus i b b' → Server.ReqStep cpus i a a') := by
    intro b b' a h1 h2 hu hs
    by_cases hq : BServer.ReqStep root cpus i b b'
    · obtain ⟨a', e1, e2⟩ := BServer.reqStep_sim hD h1 h2 hq
      have st : Server.UpStep allow cpus a a' := by
        obtain ⟨r, r', d, e3, e4, rfl⟩ := e1
        exact ⟨.req a i r r' d e3 e4, by rw [e2.disk.up]; exact hs.2⟩
      exact ⟨a', e2, h2.step ht st.1, .single st, fun _ => e1⟩
    · obtain ⟨a', e1, e2, e3⟩ := BServer.step_sim hD hz ht ha h1 h2 hs.1
      exact ⟨a', e2, h2.reach ht e1, e3 hu hs.2, fun h => absurd h hq⟩
  have fin : ∀ run : Nat → BServer F, run 0 = b → (∀ n, BServer.UpStep z root allow cpus (run n) (run (n + 1))) → ∃ N, ∀ n, N ≤ n → ¬ BServer.ReqStep root cpus i (run n) (run (n + 1)) := by
    intro run h0 hs
    let T := fun n => { a : Server F // BServer.SRel root D (run n) a ∧ BServer.SInv D a }
    have up : ∀ n, (run n).disk.d.up = true := by
      intro n
      cases n with
      | zero => rw [h0]; exact hu
      | succ n => exact (hs n).2
    have nx : ∀ n (x : T n), ∃ y : T (n + 1), Reaches (Server.UpStep allow cpus) x.1 y.1 ∧ (BServer.ReqStep root cpus i (run n) (run (n + 1)) → Server.ReqStep cpus i x.1 y.1) := by
      intro n x
      obtain ⟨a', e1, e2, e3, e4⟩ := next x.2.1 x.2.2 (up n) (hs n)
      exact ⟨⟨a', e1, e2⟩, e3, e4⟩
    choose g hg using nx
    let seq : ∀ n, T n := fun n => Nat.rec (⟨a, by rw [h0]; exact r1, i1⟩ : T 0) (fun n x => g n x) n
    have hseq : ∀ n, Reaches (Server.UpStep allow cpus) (seq n).1 (seq (n + 1)).1 ∧ (BServer.ReqStep root cpus i (run n) (run (n + 1)) → Server.ReqStep cpus i (seq n).1 (seq (n + 1)).1) := fun n => hg n (seq n)
    obtain ⟨N, hN⟩ := Server.finite_coarse hc (run := fun n => (seq n).1) hl (fun n => Server.reaches_mono (fun x y hs => ⟨hs.1.mono room, hs.2⟩) (hseq n).1) (i := i) (qs := r.query)
      (by show Server.queries i a = _; unfold Server.queries; rw [hra]; rfl)
    exact ⟨N, fun n hn hq => hN n hn ((hseq n).2 hq)⟩
  refine ⟨prog r1 i1 hl hr, ?_, fin⟩
  -- by itself
  refine Classical.byContradiction fun hno => ?_
  have inv : ∀ x, Reaches (BServer.ReqStep root cpus i) b x → x.disk.d.up = true ∧ ∃ a', BServer.SRel root D x a' ∧ BServer.SInv D a' ∧ Server.Lively a' ∧ ∃ r, x.reqs[i]? = some r := fun x hx =>
    hx.invariant (P := fun x => x.disk.d.up = true ∧ ∃ a', BServer.SRel root D x a' ∧ BServer.SInv D a' ∧ Server.Lively a' ∧ ∃ r, x.reqs[i]? = some r) ⟨hu, a, r1, i1, hl, r, hr⟩ fun x y hp hs => by
      obtain ⟨-, a', e1, e2, e3, -⟩ := hp
      obtain ⟨a'', e4, e5⟩ := BServer.reqStep_sim hD e1 e2 hs
      have up' := Server.reqStep_up e3 e4
      refine ⟨by rw [← e5.disk.up]; exact up'.2, a'', e5, e2.step (allow := allow) (cpus := cpus) ht ?_, Server.lively_server hc e3 up'.1, ?_⟩
      · obtain ⟨r, r', d, e6, e7, rfl⟩ := e4
        exact .req a' i r r' d e6 e7
      · obtain ⟨r, r', d, e6, e7, rfl⟩ := hs
        exact ⟨r', by simp [List.getElem?_set, (List.getElem?_eq_some_iff.1 e6).1]⟩
  have nxt : ∀ t : { t // Reaches (BServer.ReqStep root cpus i) b t }, ∃ t' : { t // Reaches (BServer.ReqStep root cpus i) b t }, BServer.ReqStep root cpus i t.1 t'.1 := by
    rintro ⟨t, ht⟩
    obtain ⟨-, a', e1, e2, e3, r, hr⟩ := inv t ht
    have hn : r.result = none := by
      cases hl : r.result with
      | none => rfl
      | some l => exact absurd ⟨t, l, ht, by unfold BServer.resultOf; rw [hr]; exact hl⟩ hno
    obtain ⟨t', hs⟩ := prog e1 e2 e3 hr hn
    exact ⟨⟨t', ht.tail hs⟩, hs⟩
  choose f hf using nxt
  let run : Nat → { t // Reaches (BServer.ReqStep root cpus i) b t } := fun n => Nat.rec ⟨b, .refl _⟩ (fun _ t => f t) n
  have hrun : ∀ n, BServer.ReqStep root cpus i (run n).1 (run (n + 1)).1 := fun n => hf (run n)
  obtain ⟨N, hN⟩ := fin (fun n => (run n).1) rfl fun n => ⟨by obtain ⟨r, r', d, e6, e7, e8⟩ := hrun n; rw [e8]; exact .req _ i r r' d e6 e7, (inv _ (run (n + 1)).2).1⟩
  exact hN N le_rfl (hrun N)

namespace Http
open Json

/-- the ids of the documents that the accepted requests carry. -/
def Sent (bodies : List (List UInt8)) (d : String) : Prop := ∃ body ∈ bodies, ∃ s doc, Decodes body s ∧ Carries s doc ∧ doc.id = d ∧ d ≠ ""

/-- the processes that are started serve the POST requests with these bodies, any number of times, in any order and in any distribution over clients that run side by side: all that their clients do is what the handler does. -/
def Posts (env : TextEnv) (bodies : List (List UInt8)) (a : CDisk.Act) : Prop :=
  ∀ n progs, a = .openRest n progs → ∀ p ∈ progs, ∀ o ∈ p, ∃ op ∈ (bodies.map shouldBindJSON).flatMap (callsOf env), o = .write op

theorem posts_noOpen (env : TextEnv) (bodies : List (List UInt8)) (a : CDisk.Act) (h : CDisk.noOpen a = true) : Posts env bodies a := by rintro n progs rfl; cases h

theorem Posts.serves {env : TextEnv} {bodies : List (List UInt8)} {a : CDisk.Act} (h : Posts env bodies a) : Serves env bodies a := by
  intro n progs e op hop
  obtain ⟨p, hp, ho⟩ := List.mem_flatMap.1 hop
  obtain ⟨op', h1, h2⟩ := h n progs e p hp _ (CDisk.mem_writes ho)
  cases h2
  exact h1

theorem posts_tame (env : TextEnv) (bodies : List (List UInt8)) : BServer.Tame (Sent bodies) (Posts env bodies) := by
  intro n progs h p hp o ho
  obtain ⟨op, hop, rfl⟩ := h n progs rfl p hp o ho
  have wf := (c68_http_finite env (bodies.map shouldBindJSON)).1 op hop
  obtain ⟨b, hb, hob⟩ := List.mem_flatMap.1 hop
  obtain ⟨body, hbody, rfl⟩ := List.mem_map.1 hb
  have key : Sent bodies op.doc ∧ FieldName op.field.name := by
    cases e : shouldBindJSON body with
    | none => rw [e] at hob; cases hob
    | some doc =>
      rw [e] at hob
      simp only [callsOf] at hob
      split at hob
      · cases hob
      · rename_i hid
        simp only [fieldsOf, List.map_cons, List.map_nil, List.mem_cons, List.not_mem_nil, or_false] at hob
        have sent : Sent bodies doc.id := ⟨body, hbody, _, doc, Collection.decodes_chars _, carries_bind (Collection.decodes_chars _) e hid, rfl, hid⟩
        have f1 : FieldName "id" := ⟨by decide, by decide⟩
        have f2 : FieldName "title" := ⟨by decide, by decide⟩
        have f3 : FieldName "text" := ⟨by decide, by decide⟩
        rcases hob with rfl | rfl | rfl
        · exact ⟨sent, f1⟩
        · exact ⟨sent, f2⟩
        · exact ⟨sent, f3⟩
  refine ⟨⟨key.2, fun _ => key.1, wf⟩, fun op' e => ?_⟩
  cases e
  exact key.1

/-- **C119, GET /nir** (C116 on bytes). The server handles POST requests, side by side and over any number of processes that may end after any byte; GET /nir arrives at any point, while they and other searches are under way, and its search
returns. For every query string: the bytes answered are as `LiveAnswer` says for the documents that the client wants, whatever the numbers are and however they are printed. -/
theorem _root_.Goir.c119_live {F : Type} [GoFloat F] (env : TextEnv) {pr : Printer F} (hp : pr.Ok) (bodies : List (List UInt8)) {root : Path} {fs : FS} {z : Bytes → Bytes} {cpus : Nat} {b₂ b : BServer F} (hroot : EmptyRoot root fs)
    (hz : ∀ d, Gz.Written d (z d)) (hD : Ids (Sent bodies)) (h1 : Reaches (BServer.Step z root (Posts env bodies) cpus) { disk := { fs := fs } } b₂) (hu : b₂.disk.d.up = true)
    {raw bs : List UInt8} {q : String} (ha : Asks raw bs) (hq : Decodes bs q.toList) {terms : List String} (ht : Text.preprocessing env (queryText raw) = some terms)
    (h2 : Reaches (BServer.UpStep z root (Posts env bodies) cpus) { b₂ with reqs := b₂.reqs ++ [DReq.start (queries terms)] } b)
    {r : DReq F} (hr : b.reqs[b₂.reqs.length]? = some r) {l : Scores F} (hl : r.result = some l) (duration : String) :
    LiveAnswer (Wanted env bodies q) ((respond l).map (reply pr duration)) := by
  obtain ⟨a₂, a, k1, k2, hu', k3, k4, -⟩ := BServer.call_sim hroot hz hD (posts_tame env bodies) (posts_noOpen env bodies) h1 hu h2
  exact c116_live env hp bodies (Server.reaches_mono (fun x y hs => hs.mono fun _ => Posts.serves) k1) hu' ha hq ht (Server.reaches_mono (fun x y hs => ⟨hs.1.mono fun _ => Posts.serves, hs.2⟩) k3)
    (by rw [k4.reqs, k2.reqs]; exact hr) hl duration

end Http
end Goir
