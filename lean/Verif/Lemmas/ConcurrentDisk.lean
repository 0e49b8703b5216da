import Verif.Model.ConcurrentDisk
import Verif.Props.Concurrent
import Verif.Props.DiskLive
/-!
# Lemmas about several clients on one Disk store
-/
namespace Goir
open GoMap Spec

theorem Ref.tag_of_map {K V : Type} [DecidableEq K] (m : GoMap K V) (k : K) (r : Ref K) (h : GoMap.get? (m.map fun e => (e.1, (⟨e.1, 0⟩ : Ref K)) : GoMap K (Ref K)) k = some r) : r.tag = k := by
  induction m with
  | nil => cases h
  | cons e m ih =>
    obtain ⟨k', v⟩ := e
    simp only [List.map_cons, GoMap.get?_cons] at h
    split at h
    · rename_i e; cases h; exact e
    · exact ih h

theorem Ref.tag_of_map' {V : Type} (f : String) (m : GoMap String V) (k : String) (r : Ref (String × String))
    (h : GoMap.get? (m.map fun e => (e.1, (⟨(f, e.1), 0⟩ : Ref (String × String))) : GoMap String (Ref (String × String))) k = some r) : r.tag = (f, k) := by
  induction m with
  | nil => cases h
  | cons e m ih =>
    obtain ⟨k', v⟩ := e
    simp only [List.map_cons, GoMap.get?_cons] at h
    split at h
    · rename_i e; cases h; rw [e]
    · exact ih h

namespace CDisk
open Flusher

theorem step_buf {B : Type} {ser : String → B → Option FB.Buf} {x x' : Flusher B} (h : x.step ser = some x') (k : String) (v : B) (hv : x'.buf.get? k = some v) : x.buf.get? k = some v := by
  unfold Flusher.step at h
  match hp : x.pc with
  | .idle => rw [hp] at h; cases h
  | .flushing [] => rw [hp] at h; cases h; exact hv
  | .flushing (j :: rest) =>
    rw [hp] at h
    simp only at h
    split at h
    · cases h
    · split at h
      · cases h
      · cases h; exact hv
  | .saving j rest b pc =>
    rw [hp] at h
    cases pc with
    | done =>
      cases h
      simp only [GoMap.get?_del] at hv
      split at hv
      · cases hv
      · exact hv
    | _ => cases h; exact hv

/-- the actions, one by one, with their effects. -/
inductive Step (s : CDisk) : Act → CDisk → Prop
  | beginWrite {i k : Nat} {cl : DClient} {op : StoreOp} {rest : List DOp} (hu : s.up = true) (hi : s.clients[i]? = some cl) (hc : cl.cur = none) (ht : cl.todo = .write op :: rest) :
      Step s (.client i k) { s with clients := s.clients.set i { todo := rest, cur := some (.write op (start op)) }, begun := s.begun ++ [op] }
  | beginRead {i k : Nat} {cl : DClient} {ids : List String} {name : String} {rest : List DOp} (hu : s.up = true) (hi : s.clients[i]? = some cl) (hc : cl.cur = none) (ht : cl.todo = .getFields ids name :: rest) :
      Step s (.client i k) { s with clients := s.clients.set i { todo := rest, cur := some (.read ids name (.get ids [])) } }
  | acc {i k : Nat} {cl : DClient} {op : StoreOp} {l : CMem.Loc} {m : CMem} {o : Option CMem.Loc} {loc' : WLoc} (hu : s.up = true) (hi : s.clients[i]? = some cl) (hc : cl.cur = some (.write op (.acc l)))
      (he : CMem.exec s.mem op k l = some (m, o)) (hn : cont l o = some loc') :
      Step s (.client i k) { s with mem := m, clients := s.clients.set i { cl with cur := some (.write op loc') } }
  | accReturn {i k : Nat} {cl : DClient} {op : StoreOp} {l : CMem.Loc} {m : CMem} {o : Option CMem.Loc} (hu : s.up = true) (hi : s.clients[i]? = some cl) (hc : cl.cur = some (.write op (.acc l)))
      (he : CMem.exec s.mem op k l = some (m, o)) (hn : cont l o = none) :
      Step s (.client i k) { s with mem := m, clients := s.clients.set i { cl with cur := none }, returned := s.returned ++ [op] }
  | msgLen {i k : Nat} {cl : DClient} {op : StoreOp} (hu : s.up = true) (hi : s.clients[i]? = some cl) (hc : cl.cur = some (.write op .msgLen)) :
      Step s (.client i k) { s with clients := s.clients.set i { cl with cur := some (.write op (.msgSize (s.mem.fieldLength.getD op.field.name 0))) } }
  | msgSize {i k : Nat} {cl : DClient} {op : StoreOp} {len : Int} (hu : s.up = true) (hi : s.clients[i]? = some cl) (hc : cl.cur = some (.write op (.msgSize len))) :
      Step s (.client i k) { s with clients := s.clients.set i { cl with cur := some (.write op (.sendM (s.mem.fieldSize.getD op.field.name 0) len)) } }
  | sendI {i k : Nat} {cl : DClient} {op : StoreOp} {r : Ref String} {key : String} {ts : List String} {ix : IxState} (hu : s.up = true) (hi : s.clients[i]? = some cl) (hc : cl.cur = some (.write op (.sendI r key ts)))
      (he : s.ix.exec (.post op.field.name key op.doc) = some ix) :
      Step s (.client i k) { s with ix := ix, clients := s.clients.set i { cl with cur := some (.write op (.acc (.post r ts))) } }
  | msgN {i k : Nat} {cl : DClient} {op : StoreOp} {r : Ref String} {key : String} {ts : List String} (hu : s.up = true) (hi : s.clients[i]? = some cl) (hc : cl.cur = some (.write op (.msgN r key ts))) :
      Step s (.client i k) { s with clients := s.clients.set i { cl with cur := some (.write op (.sendN r key ((s.mem.nftCells r).getD key 0) ts)) } }
  | docHit {i k : Nat} {cl : DClient} {op : StoreOp} {r : Ref String} (hu : s.up = true) (hi : s.clients[i]? = some cl) (hc : cl.cur = some (.write op .docGet)) (hr : s.cache.val op.doc = some r) :
      Step s (.client i k) { s with cache := (s.cache.get op.doc).1, clients := s.clients.set i { cl with cur := some (.write op (.docSet r)) } }
  | docMiss {i k : Nat} {cl : DClient} {op : StoreOp} (hu : s.up = true) (hi : s.clients[i]? = some cl) (hc : cl.cur = some (.write op .docGet)) (hr : s.cache.val op.doc = none) :
      Step s (.client i k) { s with cache := (s.cache.get op.doc).1, mem := { s.mem with docCells := Ref.upd s.mem.docCells ⟨op.doc, s.mem.next⟩ [], next := s.mem.next + 1 }, clients := s.clients.set i { cl with cur := some (.write op (.docSet ⟨op.doc, s.mem.next⟩)) } }
  | docSet {i k : Nat} {cl : DClient} {op : StoreOp} {r : Ref String} (hu : s.up = true) (hi : s.clients[i]? = some cl) (hc : cl.cur = some (.write op (.docSet r))) :
      Step s (.client i k) { s with mem := { s.mem with docCells := Ref.upd s.mem.docCells r ((s.mem.docCells r).set op.field.name op.field) }, clients := s.clients.set i { cl with cur := some (.write op (.docPut r)) } }
  | docPut {i k : Nat} {cl : DClient} {op : StoreOp} {r : Ref String} {c : LRU (Ref String)} (hu : s.up = true) (hi : s.clients[i]? = some cl) (hc : cl.cur = some (.write op (.docPut r))) (he : s.cache.put op.doc r = some c) :
      Step s (.client i k) { s with cache := c, clients := s.clients.set i { cl with cur := some (.write op (.sendD r)) } }
  | readEnd {i k : Nat} {cl : DClient} {ids : List String} {name : String} {out : GoMap String Field} (hu : s.up = true) (hi : s.clients[i]? = some cl) (hc : cl.cur = some (.read ids name (.get [] out))) :
      Step s (.client i k) { s with clients := s.clients.set i { cl with cur := none }, answers := s.answers ++ [(ids, name, out)] }
  | readHit {i k : Nat} {cl : DClient} {ids : List String} {name id : String} {todo : List String} {out : GoMap String Field} {r : Ref String} (hu : s.up = true) (hi : s.clients[i]? = some cl) (hc : cl.cur = some (.read ids name (.get (id :: todo) out))) (hr : s.cache.val id = some r) :
      Step s (.client i k) { s with cache := (s.cache.get id).1, clients := s.clients.set i { cl with cur := some (.read ids name (.field id r todo out)) } }
  | readMiss {i k : Nat} {cl : DClient} {ids : List String} {name id : String} {todo : List String} {out : GoMap String Field} (hu : s.up = true) (hi : s.clients[i]? = some cl) (hc : cl.cur = some (.read ids name (.get (id :: todo) out))) (hr : s.cache.val id = none) :
      Step s (.client i k) { s with cache := (s.cache.get id).1, clients := s.clients.set i { cl with cur := some (.read ids name (.load id todo out)) } }
  | readField {i k : Nat} {cl : DClient} {ids : List String} {name id : String} {todo : List String} {out : GoMap String Field} {r : Ref String} (hu : s.up = true) (hi : s.clients[i]? = some cl) (hc : cl.cur = some (.read ids name (.field id r todo out))) :
      Step s (.client i k) { s with clients := s.clients.set i { cl with cur := some (.read ids name (.get todo (found out id ((s.mem.docCells r).get? name)))) } }
  | readAbsent {i k : Nat} {cl : DClient} {ids : List String} {name id : String} {todo : List String} {out : GoMap String Field} (hu : s.up = true) (hi : s.clients[i]? = some cl) (hc : cl.cur = some (.read ids name (.load id todo out))) (hl : s.fl.cur id = none) :
      Step s (.client i k) { s with clients := s.clients.set i { cl with cur := some (.read ids name (.get todo out)) } }
  | readLoad {i k : Nat} {cl : DClient} {ids : List String} {name id : String} {todo : List String} {out : GoMap String Field} {b : FB.Buf} {fd : GoMap String Field} (hu : s.up = true) (hi : s.clients[i]? = some cl) (hc : cl.cur = some (.read ids name (.load id todo out)))
      (hl : s.fl.cur id = some (.full b)) (hb : deserializeFieldMap b = some fd) :
      Step s (.client i k) { s with mem := { s.mem with docCells := Ref.upd s.mem.docCells ⟨id, s.mem.next⟩ fd, next := s.mem.next + 1 }, clients := s.clients.set i { cl with cur := some (.read ids name (.put id ⟨id, s.mem.next⟩ todo (found out id (fd.get? name)))) } }
  | readPut {i k : Nat} {cl : DClient} {ids : List String} {name id : String} {todo : List String} {out : GoMap String Field} {r : Ref String} {c : LRU (Ref String)} (hu : s.up = true) (hi : s.clients[i]? = some cl) (hc : cl.cur = some (.read ids name (.put id r todo out))) (he : s.cache.put id r = some c) :
      Step s (.client i k) { s with cache := c, clients := s.clients.set i { cl with cur := some (.read ids name (.get todo out)) } }
  | recvM {i : Nat} {cl : DClient} {op : StoreOp} {size len : Int} {mx : Flusher (Int × Int)} (hi : s.clients[i]? = some cl) (hc : cl.cur = some (.write op (.sendM size len))) (he : (s.mx.recv op.field.name fun _ => (size, len)) = some mx) :
      Step s (.recvM i) { s with mx := mx, clients := s.clients.set i { cl with cur := some (.write op (.acc .idxLook)) } }
  | recvN {i : Nat} {cl : DClient} {op : StoreOp} {r : Ref String} {key : String} {n : Int} {ts : List String} {nf : Flusher (GoMap String Int)} (hi : s.clients[i]? = some cl) (hc : cl.cur = some (.write op (.sendN r key n ts))) (he : s.nf.recv op.field.name (CtState.putN key n) = some nf) :
      Step s (.recvN i) { s with nf := nf, clients := s.clients.set i { cl with cur := some (.write op (.acc (.term r ts))) } }
  | recvD {i : Nat} {cl : DClient} {op : StoreOp} {r : Ref String} {fl : Flusher (Ref String)} (hi : s.clients[i]? = some cl) (hc : cl.cur = some (.write op (.sendD r))) (he : (s.fl.recv op.doc fun _ => r) = some fl) :
      Step s (.recvD i) { s with fl := fl, returned := s.returned ++ [op], clients := s.clients.set i { cl with cur := none } }
  | ix {a : IxState.Act} {ix : IxState} (hb : Disk.ixBackground a = true) (hu : s.up = true ∨ s.ix.proc = .opening) (he : s.ix.exec a = some ix) (hp : ix.proc ≠ .down) : Step s (.ix a) { s with ix := ix }
  | ixDown {a : IxState.Act} {ix : IxState} (hb : Disk.ixBackground a = true) (hu : s.up = true ∨ s.ix.proc = .opening) (he : s.ix.exec a = some ix) (hp : ix.proc = .down) : Step s (.ix a) (s.stop ix)
  | tickM {order : List String} {mx : Flusher (Int × Int)} (hu : s.up = true) (he : s.mx.tick order = some mx) : Step s (.tickM order) { s with mx := mx }
  | stepM {mx : Flusher (Int × Int)} (he : s.mx.step CtState.serM = some mx) : Step s .stepM { s with mx := mx }
  | tickN {order : List String} {nf : Flusher (GoMap String Int)} (hu : s.up = true) (he : s.nf.tick order = some nf) : Step s (.tickN order) { s with nf := nf }
  | stepN {nf : Flusher (GoMap String Int)} (he : s.nf.step CtState.serN = some nf) : Step s .stepN { s with nf := nf }
  | tickD {order : List String} {fl : Flusher (Ref String)} (hu : s.up = true) (he : s.fl.tick order = some fl) : Step s (.tickD order) { s with fl := fl }
  | stepD {fl : Flusher (Ref String)} (he : (s.fl.step fun _ r => serializeFieldMap (s.mem.docCells r)) = some fl) : Step s .stepD { s with fl := fl }
  | crash {ix : IxState} (he : s.ix.exec .crash = some ix) : Step s .crash (s.stop ix)
  | open_ {ix : IxState} (he : s.ix.exec .open_ = some ix) : Step s .open_ { s with ix := ix }
  | openRest {n : Int} {progs : List (List DOp)} {size length : GoMap String Int} {nft : GoMap String (GoMap String Int)} (hp : s.ix.proc = .up) (hu : s.up = false)
      (hm : CtState.loadM s.mx.files = some (size, length)) (hn : CtState.loadN s.nf.files = some nft) :
      Step s (.openRest n progs) { s with up := true, mem := CMem.loaded s.ix.mem size length nft, cache := LRU.new n, clients := progs.map fun p => { todo := p } }

theorem modify_eq_set {α : Type} {l : List α} {i : Nat} {a : α} (f : α → α) (h : l[i]? = some a) : l.modify i f = l.set i (f a) := by
  obtain ⟨hi, rfl⟩ := List.getElem?_eq_some_iff.1 h
  rw [List.modify_eq_set_getElem?]
  simp [hi]

theorem curOf_some {s : CDisk} {i : Nat} {c : DCur} (h : s.curOf i = some c) : ∃ cl, s.clients[i]? = some cl ∧ cl.cur = some c :=
  Option.bind_eq_some_iff.1 h

theorem exec_step {s s' : CDisk} {a : Act} (h : s.exec a = some s') : Step s a s' := by
  cases a with
  | client i k =>
    simp only [exec] at h
    split at h
    · rename_i hu
      unfold client at h
      split at h
      · cases h
      · rename_i cl hi
        split at h
        · rename_i hc
          split at h
          · cases h
          · rename_i op rest ht; cases h; exact .beginWrite hu hi hc ht
          · rename_i ids name rest ht; cases h; exact .beginRead hu hi hc ht
        · rename_i op loc hc
          cases loc with
          | acc l =>
            simp only [wexec] at h
            cases he : CMem.exec s.mem op k l with
            | none => rw [he] at h; cases h
            | some x =>
              obtain ⟨m, o⟩ := x
              rw [he] at h
              simp only [Option.map_some] at h
              cases hn : cont l o with
              | none => rw [hn] at h; cases h; exact .accReturn hu hi hc he hn
              | some loc' => rw [hn] at h; cases h; exact .acc hu hi hc he hn
          | msgLen => cases h; exact .msgLen hu hi hc
          | msgSize len => cases h; exact .msgSize hu hi hc
          | sendM => cases h
          | sendI r key ts =>
            simp only [wexec] at h
            cases he : s.ix.exec (.post op.field.name key op.doc) with
            | none => rw [he] at h; cases h
            | some ix => rw [he] at h; cases h; exact .sendI hu hi hc he
          | msgN r key ts => cases h; exact .msgN hu hi hc
          | sendN => cases h
          | docGet =>
            simp only [wexec] at h
            cases hg : s.cache.get op.doc with
            | mk c x =>
              have e1 : c = (s.cache.get op.doc).1 := by rw [hg]
              have e2 : s.cache.val op.doc = x := by simp [LRU.val, hg]
              rw [hg] at h
              cases x with
              | none => cases h; rw [e1]; exact .docMiss hu hi hc e2
              | some r => cases h; rw [e1]; exact .docHit hu hi hc e2
          | docSet r => cases h; exact .docSet hu hi hc
          | docPut r =>
            simp only [wexec] at h
            cases he : s.cache.put op.doc r with
            | none => rw [he] at h; cases h
            | some c => rw [he] at h; cases h; exact .docPut hu hi hc he
          | sendD => cases h
        · rename_i ids name loc hc
          cases loc with
          | get todo out =>
            cases todo with
            | nil => cases h; exact .readEnd hu hi hc
            | cons id todo =>
              simp only [rexec] at h
              cases hg : s.cache.get id with
              | mk c x =>
                have e1 : c = (s.cache.get id).1 := by rw [hg]
                have e2 : s.cache.val id = x := by simp [LRU.val, hg]
                rw [hg] at h
                cases x with
                | none => cases h; rw [e1]; exact .readMiss hu hi hc e2
                | some r => cases h; rw [e1]; exact .readHit hu hi hc e2
          | field id r todo out => cases h; exact .readField hu hi hc
          | load id todo out =>
            simp only [rexec, load] at h
            cases hl : (s.fl.file id).cur with
            | none => rw [hl] at h; cases h; exact .readAbsent hu hi hc hl
            | some c =>
              cases c with
              | torn => rw [hl] at h; cases h
              | full b =>
                rw [hl] at h
                simp only at h
                cases hb : deserializeFieldMap b with
                | none => rw [hb] at h; cases h
                | some fd => rw [hb] at h; cases h; exact .readLoad hu hi hc hl hb
          | put id r todo out =>
            simp only [rexec] at h
            cases he : s.cache.put id r with
            | none => rw [he] at h; cases h
            | some c => rw [he] at h; cases h; exact .readPut hu hi hc he
    · cases h
  | recvM i =>
    simp only [exec] at h
    split at h
    · rename_i op size len hc
      obtain ⟨cl, hi, hc⟩ := curOf_some hc
      obtain ⟨mx, he, rfl⟩ := Option.map_eq_some_iff.1 h
      simp only [handoff, modify_eq_set _ hi]
      exact .recvM hi hc he
    · cases h
  | recvN i =>
    simp only [exec] at h
    split at h
    · rename_i op r key n ts hc
      obtain ⟨cl, hi, hc⟩ := curOf_some hc
      obtain ⟨nf, he, rfl⟩ := Option.map_eq_some_iff.1 h
      simp only [handoff, modify_eq_set _ hi]
      exact .recvN hi hc he
    · cases h
  | recvD i =>
    simp only [exec] at h
    split at h
    · rename_i op r hc
      obtain ⟨cl, hi, hc⟩ := curOf_some hc
      obtain ⟨fl, he, rfl⟩ := Option.map_eq_some_iff.1 h
      simp only [handoff, modify_eq_set _ hi]
      exact .recvD hi hc he
    · cases h
  | ix a =>
    simp only [exec] at h
    split at h
    · rename_i hg
      obtain ⟨ix, he, h2⟩ := Option.map_eq_some_iff.1 h
      split at h2
      · rename_i hp; cases h2; exact .ixDown hg.1 hg.2 he hp
      · rename_i hp; cases h2; exact .ix hg.1 hg.2 he hp
    · cases h
  | tickM order =>
    simp only [exec] at h
    split at h
    · rename_i hu; obtain ⟨mx, he, rfl⟩ := Option.map_eq_some_iff.1 h; exact .tickM hu he
    · cases h
  | stepM => obtain ⟨mx, he, rfl⟩ := Option.map_eq_some_iff.1 h; exact .stepM he
  | tickN order =>
    simp only [exec] at h
    split at h
    · rename_i hu; obtain ⟨mx, he, rfl⟩ := Option.map_eq_some_iff.1 h; exact .tickN hu he
    · cases h
  | stepN => obtain ⟨mx, he, rfl⟩ := Option.map_eq_some_iff.1 h; exact .stepN he
  | tickD order =>
    simp only [exec] at h
    split at h
    · rename_i hu; obtain ⟨mx, he, rfl⟩ := Option.map_eq_some_iff.1 h; exact .tickD hu he
    · cases h
  | stepD => obtain ⟨mx, he, rfl⟩ := Option.map_eq_some_iff.1 h; exact .stepD he
  | crash => obtain ⟨ix, he, rfl⟩ := Option.map_eq_some_iff.1 h; exact .crash he
  | open_ => obtain ⟨ix, he, rfl⟩ := Option.map_eq_some_iff.1 h; exact .open_ he
  | openRest n progs =>
    simp only [exec] at h
    split at h
    · rename_i hg
      split at h
      · rename_i size length nft hm hn
        cases h; exact .openRest hg.1 hg.2 hm hn
      · cases h
    · cases h

theorem run_append (s : CDisk) (as bs : List Act) : s.run (as ++ bs) = (s.run as).bind fun s => s.run bs := by
  unfold run; rw [List.foldlM_append]; rfl

theorem run_cons {s s' : CDisk} {a : Act} {as : List Act} : s.run (a :: as) = some s' ↔ ∃ t, s.exec a = some t ∧ t.run as = some s' := by
  unfold run; rw [List.foldlM_cons]; cases s.exec a <;> simp

theorem run_snoc {s s' : CDisk} {as : List Act} {a : Act} : s.run (as ++ [a]) = some s' ↔ ∃ t, s.run as = some t ∧ t.exec a = some s' := by
  rw [run_append]
  constructor
  · intro h
    obtain ⟨t, h1, h2⟩ := Option.bind_eq_some_iff.1 h
    obtain ⟨u, h3, h4⟩ := run_cons.1 h2
    cases h4; exact ⟨t, h1, h3⟩
  · rintro ⟨t, h1, h2⟩
    rw [h1]; exact run_cons.2 ⟨s', h2, rfl⟩

theorem run_inv {P : CDisk → Prop} (hs : ∀ s a s', P s → Step s a s' → P s') {s s' : CDisk} {as : List Act} (h0 : P s) (h : s.run as = some s') : P s' := by
  induction as generalizing s with
  | nil => cases h; exact h0
  | cons a as ih =>
    obtain ⟨t, h1, h2⟩ := run_cons.1 h
    exact ih (hs _ _ _ h0 (exec_step h1)) h2

/-- the calls of this and of earlier processes. -/
def hist (s : CDisk) : List StoreOp := s.earlier ++ s.begun

theorem hist_mono {s s' : CDisk} {a : Act} (h : Step s a s') : ∀ op ∈ s.hist, op ∈ s'.hist := by
  cases h with
  | beginWrite => intro op ho; simp only [hist, List.mem_append] at ho ⊢; rcases ho with h | h <;> simp [h]
  | ixDown => intro op ho; simpa [hist, stop] using ho
  | crash => intro op ho; simpa [hist, stop] using ho
  | _ => intro op ho; exact ho

/-- the accesses that a Disk store makes. -/
def diskLoc (op : StoreOp) : CMem.Loc → Prop
  | .docLook | .docSet _ | .docNew => False
  | .sizeRead | .sizeWrite _ | .lenRead | .lenWrite _ => op.isSave = true
  | _ => True

/-- what is always true of a client inside a write. -/
def WLocOk (op : StoreOp) : WLoc → Prop
  | .acc l => CMem.LocOk op l ∧ diskLoc op l
  | .msgLen => op.isSave = true
  | .msgSize _ => op.isSave = true
  | .sendM .. => op.isSave = true
  | .sendI r key ts => r.tag = op.field.name ∧ (key :: ts) ⊆ op.field.tf.keys ∧ (op.field.tf.WF → (key :: ts).Nodup)
  | .msgN r key ts => op.isSave = true ∧ r.tag = op.field.name ∧ (key :: ts) ⊆ op.field.tf.keys ∧ (op.field.tf.WF → (key :: ts).Nodup)
  | .sendN r key _ ts => op.isSave = true ∧ r.tag = op.field.name ∧ (key :: ts) ⊆ op.field.tf.keys ∧ (op.field.tf.WF → (key :: ts).Nodup)
  | .docGet => op.isSave = true
  | .docSet r => op.isSave = true ∧ r.tag = op.doc
  | .docPut r => op.isSave = true ∧ r.tag = op.doc
  | .sendD r => op.isSave = true ∧ r.tag = op.doc

/-- what is always true of a client inside GetFields. -/
def RLocOk (ids : List String) : RLoc → Prop
  | .get todo _ => todo ⊆ ids
  | .field id r todo _ => r.tag = id ∧ id ∈ ids ∧ todo ⊆ ids
  | .load id todo _ => id ∈ ids ∧ todo ⊆ ids
  | .put id r todo _ => r.tag = id ∧ id ∈ ids ∧ todo ⊆ ids

/-- what is always true of a client inside a call. -/
def CurOk (begun : List StoreOp) : DCur → Prop
  | .write op loc => op ∈ begun ∧ WLocOk op loc
  | .read ids _ loc => RLocOk ids loc

theorem CurOk.mono {b b' : List StoreOp} (hb : ∀ op ∈ b, op ∈ b') : {c : DCur} → CurOk b c → CurOk b' c
  | .write _ _, h => ⟨hb _ h.1, h.2⟩
  | .read .., h => h

/-- the store is down or being opened: there is nothing but files. -/
structure Off (s : CDisk) : Prop where
  mem : s.mem = {}
  cache : s.cache = LRU.new 0
  clients : s.clients = []
  begun : s.begun = []
  returned : s.returned = []
  answers : s.answers = []
  mx : s.mx.buf = [] ∧ s.mx.pc = .idle
  nf : s.nf.buf = [] ∧ s.nf.pc = .idle
  fl : s.fl.buf = [] ∧ s.fl.pc = .idle

/-- the references, the clients and the recorded calls fit together. -/
structure Ok (s : CDisk) : Prop where
  tags : s.mem.Tags
  lok : s.cache.Ok
  ctag : ∀ d r, s.cache.val d = some r → r.tag = d
  btag : ∀ d r, s.fl.buf.get? d = some r → r.tag = d
  ix : IxState.Inv s.ix
  ix2 : IxState.Inv2 s.ix
  proc : s.up = true → s.ix.proc = .up
  off : s.up = false → Off s
  cur : ∀ cl ∈ s.clients, ∀ c, cl.cur = some c → CurOk s.begun c
  ret : ∀ op ∈ s.returned, op ∈ s.begun

theorem tags_empty : CMem.Tags {} := ⟨fun _ _ h => (by cases h), fun _ _ h => (by cases h), fun _ _ _ h => (by cases h), fun _ _ h => (by cases h)⟩

theorem ok_init : Ok {} :=
  ⟨tags_empty, LRU.ok_new 0, fun d r h => (by rw [show LRU.val _ _ = none from LRU.val_new 0 d] at h; cases h), fun _ _ h => (by cases h), IxState.init_inv, IxState.init_inv2,
    fun e => (by cases e), fun _ => ⟨rfl, rfl, rfl, rfl, rfl, rfl, ⟨rfl, rfl⟩, ⟨rfl, rfl⟩, ⟨rfl, rfl⟩⟩, fun _ h => (by cases h), fun _ h => (by cases h)⟩

theorem off_stop (s : CDisk) (ix : IxState) : Off (s.stop ix) := by constructor <;> simp [stop, Flusher.killed]

theorem ok_stop {s : CDisk} (h : Ok s) {a : IxState.Act} {ix : IxState} (he : s.ix.exec a = some ix) : Ok (s.stop ix) :=
  ⟨tags_empty, LRU.ok_new 0, fun d r h => (by rw [show (s.stop ix).cache.val d = none from LRU.val_new 0 d] at h; cases h), fun _ _ h => (by cases h),
    IxState.exec_inv h.ix he, IxState.exec_inv2 h.ix h.ix2 he, fun e => (by simp [stop] at e), fun _ => off_stop s ix, fun _ ho => (by cases ho), fun _ ho => (by cases ho)⟩

theorem step_pc {B : Type} {ser : String → B → Option FB.Buf} {x x' : Flusher B} (h : x.step ser = some x') : x.pc ≠ .idle := by
  intro e; unfold Flusher.step at h; rw [e] at h; cases h

theorem ix_post_up {s s' : IxState} {f t d : String} (h : s.exec (.post f t d) = some s') : s.proc = .up ∧ s'.proc = .up := by
  simp only [IxState.exec] at h; split at h
  · rename_i hg; cases h; exact ⟨hg.1, hg.1⟩
  · cases h

theorem ok_of {s s' : CDisk} (h : Ok s) (hu : s'.up = true) (tags : s'.mem.Tags) (lok : s'.cache.Ok) (ctag : ∀ d r, s'.cache.val d = some r → r.tag = d ∨ s.cache.val d = some r)
    (btag : ∀ d r, s'.fl.buf.get? d = some r → r.tag = d ∨ s.fl.buf.get? d = some r) (ix : IxState.Inv s'.ix) (ix2 : IxState.Inv2 s'.ix) (proc : s'.ix.proc = .up)
    (hb : ∀ op ∈ s.begun, op ∈ s'.begun) (hc : ∀ cl ∈ s'.clients, cl ∈ s.clients ∨ ∀ c, cl.cur = some c → CurOk s'.begun c)
    (hr : ∀ op ∈ s'.returned, op ∈ s.returned ∨ op ∈ s'.begun) : Ok s' where
  tags := tags
  lok := lok
  ctag d r hd := (ctag d r hd).elim id (h.ctag d r)
  btag d r hd := (btag d r hd).elim id (h.btag d r)
  ix := ix
  ix2 := ix2
  proc _ := proc
  off e := by rw [hu] at e; cases e
  cur cl hcl c e := (hc cl hcl).elim (fun h' => (h.cur cl h' c e).mono hb) fun h' => h' c e
  ret op ho := (hr op ho).elim (fun h' => hb op (h.ret op h')) id

theorem mem_set {l : List DClient} {i : Nat} {cl : DClient} {P : DClient → Prop} (h : P cl) : ∀ x ∈ l.set i cl, x ∈ l ∨ P x := by
  intro x hx
  rcases List.mem_or_eq_of_mem_set hx with hx | rfl
  · exact .inl hx
  · exact .inr h

theorem loaded_tags (index : GoMap String Postings) (size length : GoMap String Int) (nft : GoMap String (GoMap String Int)) : (CMem.loaded index size length nft).Tags := by
  refine ⟨fun _ _ h => (by cases h), ?_, ?_, ?_⟩
  · intro f r h
    have := Ref.tag_of_map index f r h
    exact this
  · intro r t sr h
    simp only [CMem.loaded] at h
    split at h
    · have := Ref.tag_of_map' r.tag ((index.get? r.tag).getD []) t sr h
      exact this
    · cases h
  · intro f r h
    exact Ref.tag_of_map nft f r h

/-- every access keeps the locations in order. -/
theorem wlocOk_acc {m m' : CMem} {op : StoreOp} {k : Nat} {l : CMem.Loc} {o : Option CMem.Loc} {loc' : WLoc} (ht : m.Tags) (hl : WLocOk op (.acc l))
    (he : CMem.exec m op k l = some (m', o)) (hn : cont l o = some loc') : WLocOk op loc' := by
  have hk := (CMem.exec_ok ht hl.1 he).2
  have hd := hl.2
  cases Conc.exec_eff he with
  | docFound => exact hd.elim
  | docMissing => exact hd.elim
  | docSet => exact hd.elim
  | docNew => exact hd.elim
  | sizeRead => cases hn; exact ⟨hk _ rfl, hd⟩
  | sizeWrite => cases hn; exact ⟨hk _ rfl, hd⟩
  | lenRead => cases hn; exact ⟨hk _ rfl, hd⟩
  | lenWrite => cases hn; exact hd
  | idxFound => cases hn; exact ⟨hk _ rfl, trivial⟩
  | idxMissing => cases hn; exact ⟨hk _ rfl, trivial⟩
  | idxNew => cases hn; exact ⟨hk _ rfl, trivial⟩
  | postEnd r =>
    cases op with
    | save => cases hn; exact ⟨hk _ rfl, trivial⟩
    | updateIndex => cases hn
  | postFound => cases hn; exact ⟨hk _ rfl, trivial⟩
  | postMissing => cases hn; exact ⟨hk _ rfl, trivial⟩
  | postNew => cases hn; exact hl.1
  | postAdd => cases hn; exact ⟨hl.1.1, hl.1.2.2⟩
  | nftFound => cases hn; exact ⟨hk _ rfl, trivial⟩
  | nftMissing => cases hn; exact ⟨hk _ rfl, trivial⟩
  | termEnd => cases hn; exact ⟨hk _ rfl, trivial⟩
  | termRead => cases hn; exact ⟨hk _ rfl, trivial⟩
  | termWrite => cases hn; exact hl.1
  | nftStore => cases hn; exact hl.1.1

theorem ok_step {s s' : CDisk} {a : Act} (h : Ok s) (hs : Step s a s') : Ok s' := by
  have isUp : ∀ {i : Nat} {cl : DClient}, s.clients[i]? = some cl → s.up = true := by
    intro i cl hi
    cases hu : s.up with
    | true => rfl
    | false => rw [(h.off hu).clients] at hi; cases hi
  have old : ∀ {i : Nat} {cl : DClient} {c : DCur}, s.clients[i]? = some cl → cl.cur = some c → CurOk s.begun c :=
    fun hi hc => h.cur _ (List.mem_of_getElem? hi) _ hc
  have same : ∀ op, op ∈ s.begun → op ∈ s.begun := fun _ => id
  have sameC : ∀ d r, s.cache.val d = some r → r.tag = d ∨ s.cache.val d = some r := fun _ _ => .inr
  have sameB : ∀ d r, s.fl.buf.get? d = some r → r.tag = d ∨ s.fl.buf.get? d = some r := fun _ _ => .inr
  have sameR : ∀ op, op ∈ s.returned → op ∈ s.returned ∨ op ∈ s.begun := fun _ => .inl
  have addR : ∀ {op₀ : StoreOp}, op₀ ∈ s.begun → ∀ op, op ∈ s.returned ++ [op₀] → op ∈ s.returned ∨ op ∈ s.begun := by
    intro op₀ h0 op ho
    rcases List.mem_append.1 ho with ho | ho
    · exact .inl ho
    · rw [List.mem_singleton.1 ho]; exact .inr h0
  have newCur : ∀ {cl' : DClient} {b : List StoreOp} {c : DCur} {i : Nat}, cl'.cur = some c → CurOk b c →
      ∀ cl ∈ s.clients.set i cl', cl ∈ s.clients ∨ ∀ c, cl.cur = some c → CurOk b c :=
    fun e hk => mem_set (P := fun cl => ∀ c, cl.cur = some c → CurOk _ c) fun c' e' => by rw [e] at e'; cases e'; exact hk
  have noCur : ∀ {cl' : DClient} {b : List StoreOp} {i : Nat}, cl'.cur = none → ∀ cl ∈ s.clients.set i cl', cl ∈ s.clients ∨ ∀ c, cl.cur = some c → CurOk b c :=
    fun e => mem_set (P := fun cl => ∀ c, cl.cur = some c → CurOk _ c) fun c' e' => by rw [e] at e'; cases e'
  have keepC : ∀ cl ∈ s.clients, cl ∈ s.clients ∨ ∀ c, cl.cur = some c → CurOk s.begun c := fun _ => .inl
  have tagsD : ∀ {dc : Ref String → GoMap String Field} {n : Nat}, CMem.Tags { s.mem with docCells := dc, next := n } := ⟨h.tags.doc, h.tags.idx, h.tags.set, h.tags.nft⟩
  have tagsD' : ∀ {dc : Ref String → GoMap String Field}, CMem.Tags { s.mem with docCells := dc } := ⟨h.tags.doc, h.tags.idx, h.tags.set, h.tags.nft⟩
  have getC : ∀ {k : String} (d : String) (r : Ref String), (s.cache.get k).1.val d = some r → r.tag = d ∨ s.cache.val d = some r := by
    intro k d r hd; rw [(LRU.get_spec h.lok k).2.1] at hd; exact .inr hd
  have putC : ∀ {k : String} {v : Ref String} {c : LRU (Ref String)}, s.cache.put k v = some c → v.tag = k →
      c.Ok ∧ ∀ d r, c.val d = some r → r.tag = d ∨ s.cache.val d = some r := by
    intro k v c hp hv
    obtain ⟨ok, -, hk, ho⟩ := LRU.put_spec h.lok hp
    refine ⟨ok, fun d r hd => ?_⟩
    by_cases e : d = k
    · subst e; rw [hk] at hd; cases hd; exact .inl hv
    · rcases ho with ho | ⟨-, -, x, w, -, -, hx, ho⟩
      · rw [ho d e] at hd; exact .inr hd
      · by_cases e' : d = x
        · subst e'; rw [hx] at hd; cases hd
        · rw [ho d e e'] at hd; exact .inr hd
  cases hs with
  | @beginWrite i k cl op rest hu hi hc ht =>
    have hb : ∀ op', op' ∈ s.begun → op' ∈ s.begun ++ [op] := fun _ => List.mem_append_left _
    refine ok_of h hu h.tags h.lok sameC sameB h.ix h.ix2 (h.proc hu) hb (newCur rfl ⟨by simp, ?_⟩) fun op ho => .inl ho
    cases op <;> exact ⟨trivial, by simp [diskLoc, StoreOp.isSave]⟩
  | beginRead hu hi hc ht => exact ok_of h hu h.tags h.lok sameC sameB h.ix h.ix2 (h.proc hu) same (newCur rfl (List.Subset.refl _)) sameR
  | acc hu hi hc he hn =>
    have := old hi hc
    exact ok_of h hu (CMem.exec_ok h.tags this.2.1 he).1 h.lok sameC sameB h.ix h.ix2 (h.proc hu) same (newCur rfl ⟨this.1, wlocOk_acc h.tags this.2 he hn⟩) sameR
  | accReturn hu hi hc he hn =>
    have := old hi hc
    exact ok_of h hu (CMem.exec_ok h.tags this.2.1 he).1 h.lok sameC sameB h.ix h.ix2 (h.proc hu) same (noCur rfl) (addR this.1)
  | msgLen hu hi hc => exact ok_of h hu h.tags h.lok sameC sameB h.ix h.ix2 (h.proc hu) same (newCur rfl ⟨(old hi hc).1, (old hi hc).2⟩) sameR
  | msgSize hu hi hc => exact ok_of h hu h.tags h.lok sameC sameB h.ix h.ix2 (h.proc hu) same (newCur rfl ⟨(old hi hc).1, (old hi hc).2⟩) sameR
  | sendI hu hi hc he =>
    have := old hi hc
    exact ok_of h hu h.tags h.lok sameC sameB (IxState.exec_inv h.ix he) (IxState.exec_inv2 h.ix h.ix2 he) (ix_post_up he).2 same
      (newCur rfl ⟨this.1, ⟨this.2.1, fun x hx => this.2.2.1 (List.mem_cons_of_mem _ hx), fun wf => (List.nodup_cons.1 (this.2.2.2 wf)).2⟩, trivial⟩) sameR
  | msgN hu hi hc => exact ok_of h hu h.tags h.lok sameC sameB h.ix h.ix2 (h.proc hu) same (newCur rfl ⟨(old hi hc).1, (old hi hc).2⟩) sameR
  | docHit hu hi hc hr =>
    have := old hi hc
    exact ok_of h hu h.tags (LRU.get_spec h.lok _).1 getC sameB h.ix h.ix2 (h.proc hu) same (newCur rfl ⟨this.1, this.2, h.ctag _ _ hr⟩) sameR
  | docMiss hu hi hc hr =>
    have := old hi hc
    exact ok_of h hu tagsD (LRU.get_spec h.lok _).1 getC sameB h.ix h.ix2 (h.proc hu) same (newCur rfl ⟨this.1, this.2, rfl⟩) sameR
  | docSet hu hi hc => exact ok_of h hu tagsD' h.lok sameC sameB h.ix h.ix2 (h.proc hu) same (newCur rfl ⟨(old hi hc).1, (old hi hc).2⟩) sameR
  | docPut hu hi hc he =>
    have := old hi hc
    exact ok_of h hu h.tags (putC he this.2.2).1 (putC he this.2.2).2 sameB h.ix h.ix2 (h.proc hu) same (newCur rfl this) sameR
  | readEnd hu hi hc => exact ok_of h hu h.tags h.lok sameC sameB h.ix h.ix2 (h.proc hu) same (noCur rfl) sameR
  | readHit hu hi hc hr =>
    have : (_ : List String) ⊆ _ := old hi hc
    exact ok_of h hu h.tags (LRU.get_spec h.lok _).1 getC sameB h.ix h.ix2 (h.proc hu) same
      (newCur rfl ⟨h.ctag _ _ hr, this List.mem_cons_self, fun x hx => this (List.mem_cons_of_mem _ hx)⟩) sameR
  | readMiss hu hi hc hr =>
    have : (_ : List String) ⊆ _ := old hi hc
    exact ok_of h hu h.tags (LRU.get_spec h.lok _).1 getC sameB h.ix h.ix2 (h.proc hu) same
      (newCur rfl ⟨this List.mem_cons_self, fun x hx => this (List.mem_cons_of_mem _ hx)⟩) sameR
  | readField hu hi hc => exact ok_of h hu h.tags h.lok sameC sameB h.ix h.ix2 (h.proc hu) same (newCur (c := .read _ _ (.get _ _)) rfl (old hi hc).2.2) sameR
  | readAbsent hu hi hc hl => exact ok_of h hu h.tags h.lok sameC sameB h.ix h.ix2 (h.proc hu) same (newCur (c := .read _ _ (.get _ _)) rfl (old hi hc).2) sameR
  | readLoad hu hi hc hl hb =>
    have := old hi hc
    exact ok_of h hu tagsD h.lok sameC sameB h.ix h.ix2 (h.proc hu) same (newCur rfl ⟨rfl, this.1, this.2⟩) sameR
  | readPut hu hi hc he =>
    have := old hi hc
    exact ok_of h hu h.tags (putC he this.1).1 (putC he this.1).2 sameB h.ix h.ix2 (h.proc hu) same (newCur (c := .read _ _ (.get _ _)) rfl this.2.2) sameR
  | recvM hi hc he =>
    have hu := isUp hi
    exact ok_of h hu h.tags h.lok sameC sameB h.ix h.ix2 (h.proc hu) same (newCur rfl ⟨(old hi hc).1, trivial, trivial⟩) sameR
  | recvN hi hc he =>
    have hu := isUp hi
    have := old hi hc
    exact ok_of h hu h.tags h.lok sameC sameB h.ix h.ix2 (h.proc hu) same
      (newCur rfl ⟨this.1, ⟨this.2.1, this.2.2.1, fun x hx => this.2.2.2.1 (List.mem_cons_of_mem _ hx), fun wf => (List.nodup_cons.1 (this.2.2.2.2 wf)).2⟩, trivial⟩) sameR
  | recvD hi hc he =>
    have hu := isUp hi
    have := old hi hc
    refine ok_of h hu h.tags h.lok sameC ?_ h.ix h.ix2 (h.proc hu) same (noCur rfl) (addR this.1)
    obtain ⟨-, rfl⟩ := Flusher.recv_some he
    intro d r hd
    simp only [GoMap.get?_set] at hd
    split at hd
    · rename_i e; cases hd; exact .inl (e ▸ this.2.2)
    · exact .inr hd
  | @ix a ix hb hu he hp =>
    refine ⟨h.tags, h.lok, h.ctag, h.btag, IxState.exec_inv h.ix he, IxState.exec_inv2 h.ix h.ix2 he, fun e => ?_, ?_, h.cur, h.ret⟩
    · exact ((Disk.ix_background (h.proc e) hb he).resolve_left hp).1
    · intro e
      have := h.off e
      exact ⟨this.mem, this.cache, this.clients, this.begun, this.returned, this.answers, this.mx, this.nf, this.fl⟩
  | ixDown hb hu he hp => exact ok_stop h he
  | tickM hu he => exact ok_of h hu h.tags h.lok sameC sameB h.ix h.ix2 (h.proc hu) same keepC sameR
  | tickN hu he => exact ok_of h hu h.tags h.lok sameC sameB h.ix h.ix2 (h.proc hu) same keepC sameR
  | tickD hu he =>
    obtain ⟨-, -, rfl⟩ := Flusher.tick_some he
    exact ok_of h hu h.tags h.lok sameC sameB h.ix h.ix2 (h.proc hu) same keepC sameR
  | stepM he =>
    have hu : s.up = true := by
      cases hu : s.up with
      | true => rfl
      | false => exact absurd (h.off hu).mx.2 (step_pc he)
    exact ok_of h hu h.tags h.lok sameC sameB h.ix h.ix2 (h.proc hu) same keepC sameR
  | stepN he =>
    have hu : s.up = true := by
      cases hu : s.up with
      | true => rfl
      | false => exact absurd (h.off hu).nf.2 (step_pc he)
    exact ok_of h hu h.tags h.lok sameC sameB h.ix h.ix2 (h.proc hu) same keepC sameR
  | stepD he =>
    have hu : s.up = true := by
      cases hu : s.up with
      | true => rfl
      | false => exact absurd (h.off hu).fl.2 (step_pc he)
    refine ok_of h hu h.tags h.lok sameC ?_ h.ix h.ix2 (h.proc hu) same keepC sameR
    intro d r hd
    exact .inr (step_buf he d r hd)
  | crash he => exact ok_stop h he
  | open_ he =>
    have hp : s.ix.proc = .down := by
      simp only [IxState.exec] at he; split at he
      · assumption
      · cases he
    have hu : s.up = false := by
      cases hu : s.up with
      | false => rfl
      | true => rw [h.proc hu] at hp; cases hp
    have := h.off hu
    refine ⟨h.tags, h.lok, h.ctag, h.btag, IxState.exec_inv h.ix he, IxState.exec_inv2 h.ix h.ix2 he, fun e => ?_, fun _ => ⟨this.mem, this.cache, this.clients, this.begun, this.returned, this.answers, this.mx, this.nf, this.fl⟩, h.cur, h.ret⟩
    rw [show CDisk.up _ = s.up from rfl, hu] at e; cases e
  | openRest hp hu hm hn =>
    refine ok_of h rfl (loaded_tags _ _ _ _) (LRU.ok_new _) ?_ sameB h.ix h.ix2 hp same ?_ sameR
    · intro d r hd; rw [show LRU.val _ _ = none from LRU.val_new _ d] at hd; cases hd
    · intro cl hcl
      obtain ⟨p, -, rfl⟩ := List.mem_map.1 hcl
      exact .inr fun c e => by cases e

theorem ok_run {as : List Act} {s : CDisk} (h : run {} as = some s) : Ok s := run_inv (fun _ _ _ => ok_step) ok_init h

/-! ### where postings and fields come from -/

theorem set_exec {m m' : CMem} {op : StoreOp} {k : Nat} {l : CMem.Loc} {o : Option CMem.Loc} (hl : CMem.LocOk op l) (he : CMem.exec m op k l = some (m', o)) (sr : Ref (String × String)) (d : String)
    (hd : GoSet.contains (m'.setCells sr) d = true) : GoSet.contains (m.setCells sr) d = true ∨ (op.doc = d ∧ op.field.name = sr.tag.1 ∧ sr.tag.2 ∈ op.field.tf.keys) := by
  cases Conc.exec_eff he with
  | postNew r key ts =>
    simp only [Ref.upd] at hd
    split at hd
    · rename_i e
      simp only [GoSet.new, GoSet.contains_add, GoSet.contains_nil, Bool.or_false, decide_eq_true_eq] at hd
      right; rw [e]; exact ⟨hd, rfl, hl.2.1 List.mem_cons_self⟩
    · exact .inl hd
  | postAdd r key sr' ts =>
    simp only [Ref.upd] at hd
    split at hd
    · rename_i e
      simp only [GoSet.contains_add, Bool.or_eq_true, decide_eq_true_eq] at hd
      rcases hd with hd | hd
      · right; rw [e, hl.2.1]; exact ⟨hd, rfl, hl.2.2.1 List.mem_cons_self⟩
      · left; rw [e]; exact hd
    · exact .inl hd
  | _ => exact .inl hd

theorem doc_exec {m m' : CMem} {op : StoreOp} {k : Nat} {l : CMem.Loc} {o : Option CMem.Loc} (hl : diskLoc op l) (he : CMem.exec m op k l = some (m', o)) : m'.docCells = m.docCells := by
  cases Conc.exec_eff he with
  | docSet => exact hl.elim
  | docNew => exact hl.elim
  | _ => rfl

/-- every posting was in a call. -/
structure PostOk (s : CDisk) : Prop where
  set : ∀ sr d, GoSet.contains (s.mem.setCells sr) d = true → Posted s.hist sr.tag.1 sr.tag.2 d
  ix : ∀ f t d, (f, t, d) ∈ s.ix.hist → Posted s.hist f t d

theorem postOk_init : PostOk {} := ⟨fun _ _ h => (by cases h), fun _ _ _ h => (by cases h)⟩

theorem ixBackground_hist {s s' : IxState} {a : IxState.Act} (hb : Disk.ixBackground a = true) (h : s.exec a = some s') : ∀ x ∈ s'.hist, x ∈ s.hist := by
  intro x hx
  rcases IxState.hist_exec h x hx with h | rfl
  · exact h
  · cases hb

theorem mem_hist {s : IxState} (h : IxState.Inv s) {f t d : String} (hm : has2 s.mem f t d) : (f, t, d) ∈ s.hist := by
  cases hp : s.proc with
  | up =>
    rcases (h.up hp f t d).1 hm with h' | h' | h'
    · exact h.histS f t d h'
    · exact h.histB f t d h'
    · exact h.histC _ h'
  | opening => rw [(h.opening hp).mem] at hm; obtain ⟨p, e, _⟩ := hm; cases e
  | down => rw [(h.down hp).mem] at hm; obtain ⟨p, e, _⟩ := hm; cases e

theorem loaded_set {index : GoMap String Postings} {size length : GoMap String Int} {nft : GoMap String (GoMap String Int)} {sr : Ref (String × String)} {d : String}
    (h : GoSet.contains ((CMem.loaded index size length nft).setCells sr) d = true) : has2 index sr.tag.1 sr.tag.2 d := by
  simp only [CMem.loaded] at h
  split at h
  · cases hf : index.get? sr.tag.1 with
    | none => rw [hf] at h; cases h
    | some p =>
      refine ⟨p, hf, ?_⟩
      rw [hf] at h
      simp only [Option.getD_some] at h
      unfold hasPosting
      cases ht : p.get? sr.tag.2 with
      | none => rw [ht] at h; cases h
      | some set => rw [ht] at h; exact h
  · cases h

theorem postOk_step {s s' : CDisk} {a : Act} (hk : Ok s) (h : PostOk s) (hs : Step s a s') : PostOk s' := by
  have up := fun {f t d} (hp : Posted s.hist f t d) => Disk.posted_mono (hist_mono hs) hp
  have keep : ∀ {m : CMem}, m.setCells = s.mem.setCells → ∀ sr d, GoSet.contains (m.setCells sr) d = true → Posted s'.hist sr.tag.1 sr.tag.2 d :=
    fun e sr d hd => up (h.set sr d (e ▸ hd))
  have keepI : ∀ {ix : IxState}, (∀ x ∈ ix.hist, x ∈ s.ix.hist) → ∀ f t d, (f, t, d) ∈ ix.hist → Posted s'.hist f t d := fun e f t d hd => up (h.ix f t d (e _ hd))
  have old : ∀ {i : Nat} {cl : DClient} {c : DCur}, s.clients[i]? = some cl → cl.cur = some c → CurOk s.begun c :=
    fun hi hc => hk.cur _ (List.mem_of_getElem? hi) _ hc
  have acc : ∀ {i k : Nat} {cl : DClient} {op : StoreOp} {l : CMem.Loc} {m : CMem} {o : Option CMem.Loc}, s.clients[i]? = some cl → cl.cur = some (.write op (.acc l)) → CMem.exec s.mem op k l = some (m, o) →
      ∀ sr d, GoSet.contains (m.setCells sr) d = true → Posted s'.hist sr.tag.1 sr.tag.2 d := by
    intro i k cl op l m o hi hc he sr d hd
    have hc := old hi hc
    rcases set_exec hc.2.1 he sr d hd with hd | hd
    · exact up (h.set sr d hd)
    · exact up ⟨op, List.mem_append_right _ hc.1, hd⟩
  cases hs with
  | acc hu hi hc he hn => exact ⟨acc hi hc he, keepI fun _ => id⟩
  | accReturn hu hi hc he hn => exact ⟨acc hi hc he, keepI fun _ => id⟩
  | sendI hu hi hc he =>
    have hc := old hi hc
    refine ⟨keep rfl, fun f t d hd => ?_⟩
    rcases IxState.hist_exec he _ hd with hd | hd
    · exact up (h.ix f t d hd)
    · cases hd; exact up ⟨_, List.mem_append_right _ hc.1, rfl, rfl, hc.2.2.1 List.mem_cons_self⟩
  | ix hb hu he hp => exact ⟨keep rfl, keepI (ixBackground_hist hb he)⟩
  | ixDown hb hu he hp => exact ⟨fun _ _ hd => (by cases hd), keepI (ixBackground_hist hb he)⟩
  | crash he =>
    refine ⟨fun _ _ hd => (by cases hd), keepI fun x hx => ?_⟩
    rcases IxState.hist_exec he x hx with h | h
    · exact h
    · cases h
  | open_ he =>
    refine ⟨keep rfl, keepI fun x hx => ?_⟩
    rcases IxState.hist_exec he x hx with h | h
    · exact h
    · cases h
  | openRest hp hu hm hn => exact ⟨fun sr d hd => up (h.ix _ _ _ (mem_hist hk.ix (loaded_set hd))), keepI fun _ => id⟩
  | _ => exact ⟨keep rfl, keepI fun _ => id⟩

theorem postOk_run {as : List Act} {s : CDisk} (h : run {} as = some s) : PostOk s :=
  (run_inv (P := fun s => Ok s ∧ PostOk s) (fun _ _ _ hp hs => ⟨ok_step hp.1 hs, postOk_step hp.1 hp.2 hs⟩) ⟨ok_init, postOk_init⟩ h).2

/-- field `f` under the name `name` of document `d` comes from a call, up to the 32 bits of the file format. -/
def SavedAs (h : List StoreOp) (d name : String) (f : Field) : Prop := ∃ g, StoreOp.save d g ∈ h ∧ g.name = name ∧ (f = g ∨ f = cutField g)

theorem SavedAs.mono {h h' : List StoreOp} (hh : ∀ op ∈ h, op ∈ h') {d name : String} {f : Field} (hs : SavedAs h d name f) : SavedAs h' d name f := by
  obtain ⟨g, h1, h2⟩ := hs; exact ⟨g, hh _ h1, h2⟩

/-- everything in a map of fields of document `d` comes from a call. -/
structure DocOk (h : List StoreOp) (d : String) (m : GoMap String Field) : Prop where
  wf : m.WF
  src : ∀ name f, m.get? name = some f → f.tf.WF ∧ SavedAs h d name f

theorem DocOk.mono {h h' : List StoreOp} (hh : ∀ op ∈ h, op ∈ h') {d : String} {m : GoMap String Field} (hs : DocOk h d m) : DocOk h' d m :=
  ⟨hs.wf, fun name f hf => ⟨(hs.src name f hf).1, (hs.src name f hf).2.mono hh⟩⟩

theorem docOk_nil (h : List StoreOp) (d : String) : DocOk h d [] := ⟨by simp, fun _ _ e => by cases e⟩

theorem DocOk.set {h : List StoreOp} {d : String} {m : GoMap String Field} (hm : DocOk h d m) {f : Field} (hf : StoreOp.save d f ∈ h) (wf : f.tf.WF) : DocOk h d (m.set f.name f) := by
  refine ⟨hm.wf.set _ _, fun name g hg => ?_⟩
  rw [GoMap.get?_set] at hg
  split at hg
  · rename_i e; cases hg; exact ⟨wf, f, hf, e, .inl rfl⟩
  · exact hm.src name g hg

theorem DocOk.ser {h : List StoreOp} {d : String} {m : GoMap String Field} (hm : DocOk h d m) :
    ∃ b, serializeFieldMap m = some b ∧ deserializeFieldMap b = some (DcState.cutMap m) ∧ DocOk h d (DcState.cutMap m) := by
  obtain ⟨b, h1, h2⟩ := DcState.ser_spec hm.wf fun k f hf => (hm.src k f hf).1
  refine ⟨b, h1, h2, DcState.cutMap_wf hm.wf, fun name f hf => ?_⟩
  rw [DcState.get?_cutMap] at hf
  obtain ⟨g, hg, rfl⟩ := Option.map_eq_some_iff.1 hf
  obtain ⟨wf, g', h3, h4, h5⟩ := hm.src name g hg
  refine ⟨DcState.cutField_wf wf, g', h3, h4, .inr ?_⟩
  rcases h5 with rfl | rfl
  · rfl
  · exact DcState.cutField_idem _

/-- a file holds fields that come from calls. -/
def BufOk (h : List StoreOp) (d : String) (b : FB.Buf) : Prop := ∃ m, deserializeFieldMap b = some m ∧ DocOk h d m

/-- what GetFields has found so far. -/
def outOf : RLoc → GoMap String Field
  | .get _ out | .field _ _ _ out | .load _ _ out | .put _ _ _ out => out

/-- everything found for these ids comes from calls. -/
def OutOk (h : List StoreOp) (ids : List String) (name : String) (out : GoMap String Field) : Prop := ∀ d f, out.get? d = some f → d ∈ ids ∧ SavedAs h d name f

theorem OutOk.mono {h h' : List StoreOp} (hh : ∀ op ∈ h, op ∈ h') {ids : List String} {name : String} {out : GoMap String Field} (ho : OutOk h ids name out) : OutOk h' ids name out :=
  fun d f hf => ⟨(ho d f hf).1, (ho d f hf).2.mono hh⟩

theorem OutOk.found {h : List StoreOp} {ids : List String} {name : String} {out : GoMap String Field} (ho : OutOk h ids name out) {id : String} (hid : id ∈ ids) {m : GoMap String Field}
    (hm : DocOk h id m) : OutOk h ids name (found out id (m.get? name)) := by
  intro d f hf
  cases e : GoMap.get? m name with
  | none => rw [e] at hf; exact ho d f hf
  | some g =>
    rw [e] at hf
    simp only [CDisk.found, GoMap.get?_set] at hf
    split at hf
    · rename_i e'; subst e'; cases hf; exact ⟨hid, (hm.src name _ e).2⟩
    · exact ho d f hf

/-- every field anywhere comes from a call. -/
structure DocsOk (s : CDisk) : Prop where
  cell : ∀ r, DocOk s.hist r.tag (s.mem.docCells r)
  fin : FInvR (fun k _ b => BufOk s.hist k b) s.fl
  file : ∀ d c, s.fl.cur d = some c → ∃ b, c = .full b ∧ BufOk s.hist d b
  out : ∀ cl ∈ s.clients, ∀ ids name loc, cl.cur = some (.read ids name loc) → OutOk s.hist ids name (outOf loc)
  ans : ∀ x ∈ s.answers, OutOk s.hist x.1 x.2.1 x.2.2

theorem docsOk_init : DocsOk {} := ⟨fun _ => docOk_nil _ _, finv_init, fun _ _ h => (by cases h), fun _ h => (by cases h), fun _ h => by cases h⟩

theorem BufOk.mono {h h' : List StoreOp} (hh : ∀ op ∈ h, op ∈ h') {d : String} {b : FB.Buf} (hs : BufOk h d b) : BufOk h' d b := by
  obtain ⟨m, h1, h2⟩ := hs; exact ⟨m, h1, h2.mono hh⟩

theorem docsOk_stop {s : CDisk} (h : DocsOk s) (ix : IxState) : DocsOk (s.stop ix) := by
  have hh : ∀ op ∈ s.hist, op ∈ (s.stop ix).hist := fun op ho => by simpa [hist, stop] using ho
  refine ⟨fun _ => docOk_nil _ _, (finv_killed h.fin).mono fun k v b _ hb => hb.mono hh, fun d c hc => ?_, fun _ h => (by cases h), fun _ h => (by cases h)⟩
  obtain ⟨b, h1, h2⟩ := h.file d c hc
  exact ⟨b, h1, h2.mono hh⟩

theorem docsOk_step {s s' : CDisk} {a : Act} (hk : Ok s) (h : DocsOk s) (hs : Step s a s') (gv : GoValues s'.hist) : DocsOk s' := by
  have hh := hist_mono hs
  have fin' : FInvR (fun k _ b => BufOk s'.hist k b) s.fl := h.fin.mono fun k v b _ hb => hb.mono hh
  have file' : ∀ d c, s.fl.cur d = some c → ∃ b, c = .full b ∧ BufOk s'.hist d b := fun d c hc => let ⟨b, h1, h2⟩ := h.file d c hc; ⟨b, h1, h2.mono hh⟩
  have cell' : ∀ r, DocOk s'.hist r.tag (s.mem.docCells r) := fun r => (h.cell r).mono hh
  have out' : ∀ cl ∈ s.clients, ∀ ids name loc, cl.cur = some (.read ids name loc) → OutOk s'.hist ids name (outOf loc) := fun cl hcl ids name loc e => (h.out cl hcl ids name loc e).mono hh
  have ans' : ∀ x ∈ s.answers, OutOk s'.hist x.1 x.2.1 x.2.2 := fun x hx => (h.ans x hx).mono hh
  have old : ∀ {i : Nat} {cl : DClient} {c : DCur}, s.clients[i]? = some cl → cl.cur = some c → CurOk s.begun c :=
    fun hi hc => hk.cur _ (List.mem_of_getElem? hi) _ hc
  have oldOut : ∀ {i : Nat} {cl : DClient} {ids : List String} {name : String} {loc : RLoc}, s.clients[i]? = some cl → cl.cur = some (.read ids name loc) → OutOk s'.hist ids name (outOf loc) :=
    fun hi hc => out' _ (List.mem_of_getElem? hi) _ _ _ hc
  -- the client is in a write, between calls, or at this place of a read
  have outW : ∀ {cl' : DClient} {i : Nat}, (∀ ids name loc, cl'.cur ≠ some (.read ids name loc)) →
      ∀ cl ∈ s.clients.set i cl', ∀ ids name loc, cl.cur = some (.read ids name loc) → OutOk s'.hist ids name (outOf loc) := by
    intro cl' i hn cl hcl ids name loc e
    rcases List.mem_or_eq_of_mem_set hcl with hcl | rfl
    · exact out' cl hcl ids name loc e
    · exact absurd e (hn _ _ _)
  have outR : ∀ {cl' : DClient} {i : Nat} {ids : List String} {name : String} {loc : RLoc}, cl'.cur = some (.read ids name loc) → OutOk s'.hist ids name (outOf loc) →
      ∀ cl ∈ s.clients.set i cl', ∀ ids name loc, cl.cur = some (.read ids name loc) → OutOk s'.hist ids name (outOf loc) := by
    intro cl' i ids name loc hr ho cl hcl ids' name' loc' e
    rcases List.mem_or_eq_of_mem_set hcl with hcl | rfl
    · exact out' cl hcl _ _ _ e
    · rw [hr] at e; cases e; exact ho
  have upd : ∀ {r : Ref String} {m : GoMap String Field}, DocOk s'.hist r.tag m → ∀ x, DocOk s'.hist x.tag (Ref.upd s.mem.docCells r m x) := by
    intro r m hm x
    simp only [Ref.upd]
    split
    · rename_i e; rw [e]; exact hm
    · exact cell' x
  cases hs with
  | beginWrite hu hi hc ht => exact ⟨cell', fin', file', outW (fun _ _ _ e => by cases e), ans'⟩
  | beginRead hu hi hc ht => exact ⟨cell', fin', file', outR rfl (fun d f hf => by cases hf), ans'⟩
  | acc hu hi hc he hn =>
    have e := doc_exec (old hi hc).2.2 he
    exact ⟨fun r => e ▸ cell' r, fin', file', outW (fun _ _ _ e => by cases e), ans'⟩
  | accReturn hu hi hc he hn =>
    have e := doc_exec (old hi hc).2.2 he
    exact ⟨fun r => e ▸ cell' r, fin', file', outW (fun _ _ _ e => by cases e), ans'⟩
  | msgLen hu hi hc => exact ⟨cell', fin', file', outW (fun _ _ _ e => by cases e), ans'⟩
  | msgSize hu hi hc => exact ⟨cell', fin', file', outW (fun _ _ _ e => by cases e), ans'⟩
  | sendI hu hi hc he => exact ⟨cell', fin', file', outW (fun _ _ _ e => by cases e), ans'⟩
  | msgN hu hi hc => exact ⟨cell', fin', file', outW (fun _ _ _ e => by cases e), ans'⟩
  | docHit hu hi hc hr => exact ⟨cell', fin', file', outW (fun _ _ _ e => by cases e), ans'⟩
  | docMiss hu hi hc hr => exact ⟨upd (docOk_nil _ _), fin', file', outW (fun _ _ _ e => by cases e), ans'⟩
  | @docSet i k cl op r hu hi hc =>
    have hc := old hi hc
    refine ⟨upd ?_, fin', file', outW (fun _ _ _ e => by cases e), ans'⟩
    have hm : op ∈ s.hist := List.mem_append_right _ hc.1
    obtain ⟨h1, h2⟩ := hc.2
    cases op with
    | save d f => exact (cell' r).set (h2 ▸ hh _ hm) (gv _ (hh _ hm))
    | updateIndex d f => cases h1
  | docPut hu hi hc he => exact ⟨cell', fin', file', outW (fun _ _ _ e => by cases e), ans'⟩
  | readEnd hu hi hc =>
    refine ⟨cell', fin', file', outW (fun _ _ _ e => by cases e), fun x hx => ?_⟩
    rcases List.mem_append.1 hx with hx | hx
    · exact ans' x hx
    · rw [List.mem_singleton.1 hx]; exact oldOut hi hc
  | readHit hu hi hc hr =>
    have ho := oldOut hi hc
    exact ⟨cell', fin', file', outR rfl ho, ans'⟩
  | readMiss hu hi hc hr =>
    have ho := oldOut hi hc
    exact ⟨cell', fin', file', outR rfl ho, ans'⟩
  | readField hu hi hc =>
    have hc' := old hi hc
    exact ⟨cell', fin', file', outR rfl (OutOk.found (oldOut hi hc) hc'.2.1 (hc'.1 ▸ cell' _)), ans'⟩
  | readAbsent hu hi hc hl =>
    have ho := oldOut hi hc
    exact ⟨cell', fin', file', outR rfl ho, ans'⟩
  | @readLoad i k cl ids name id todo out b fd hu hi hc hl hb =>
    have hc' := old hi hc
    have hd : DocOk s.hist id fd := by
      obtain ⟨b', e, m, h1, h2⟩ := h.file _ _ hl
      cases e; rw [hb] at h1; cases h1; exact h2
    exact ⟨upd (hd.mono hh), fin', file', outR rfl (OutOk.found (oldOut hi hc) hc'.1 (hd.mono hh)), ans'⟩
  | readPut hu hi hc he =>
    have ho := oldOut hi hc
    exact ⟨cell', fin', file', outR rfl ho, ans'⟩
  | recvM hi hc he => exact ⟨cell', fin', file', outW (fun _ _ _ e => by cases e), ans'⟩
  | recvN hi hc he => exact ⟨cell', fin', file', outW (fun _ _ _ e => by cases e), ans'⟩
  | recvD hi hc he =>
    have e := (Flusher.recv_some he).2
    exact ⟨cell', finv_recv fin' he, by rw [e]; exact file', outW (fun _ _ _ e => by cases e), ans'⟩
  | ix hb hu he hp => exact ⟨cell', fin', file', out', ans'⟩
  | ixDown hb hu he hp => exact docsOk_stop h _
  | tickM hu he => exact ⟨cell', fin', file', out', ans'⟩
  | stepM he => exact ⟨cell', fin', file', out', ans'⟩
  | tickN hu he => exact ⟨cell', fin', file', out', ans'⟩
  | stepN he => exact ⟨cell', fin', file', out', ans'⟩
  | tickD hu he =>
    have e := (Flusher.tick_some he).2.2
    exact ⟨cell', finv_tick fin' he, by rw [e]; exact file', out', ans'⟩
  | stepD he =>
    obtain ⟨h1, h2⟩ := step_spec_rel fin' (fun k r b hr hb => by
      obtain ⟨b', e1, e2, e3⟩ := (cell' r).ser
      rw [e1] at hb; cases hb
      exact ⟨_, e2, hk.btag k r hr ▸ e3⟩) he
    refine ⟨cell', h1, fun d c hc => ?_, out', ans'⟩
    cases h2 with
    | same hb hcur => rw [show Flusher.cur _ d = s.fl.cur d from hcur d] at hc; exact file' d c hc
    | away k v hv hb hkn hcur hp =>
      by_cases e : d = k
      · subst e; rw [show Flusher.cur _ d = none from hkn] at hc; cases hc
      · rw [show Flusher.cur _ d = s.fl.cur d from hcur d e] at hc; exact file' d c hc
    | install k v b hv hs hb hki hcur =>
      by_cases e : d = k
      · subst e; rw [show Flusher.cur _ d = _ from hki] at hc; cases hc; exact ⟨b, rfl, hs⟩
      · rw [show Flusher.cur _ d = s.fl.cur d from hcur d e] at hc; exact file' d c hc
    | forget k v b hv hs hki hb hcur => rw [show Flusher.cur _ d = s.fl.cur d from hcur d] at hc; exact file' d c hc
  | crash he => exact docsOk_stop h _
  | open_ he => exact ⟨cell', fin', file', out', ans'⟩
  | openRest hp hu hm hn =>
    refine ⟨fun _ => docOk_nil _ _, fin', file', ?_, ans'⟩
    intro cl hcl
    obtain ⟨p, -, rfl⟩ := List.mem_map.1 hcl
    intro ids name loc e; cases e

theorem docsOk_run {as : List Act} {s : CDisk} (h : run {} as = some s) (gv : GoValues s.hist) : DocsOk s := by
  refine (run_inv (P := fun s => Ok s ∧ (GoValues s.hist → DocsOk s)) ?_ ⟨ok_init, fun _ => docsOk_init⟩ h).2 gv
  intro s a s' hp hs
  exact ⟨ok_step hp.1 hs, fun gv => docsOk_step hp.1 (hp.2 fun op ho => gv op (hist_mono hs op ho)) hs gv⟩

end CDisk
end Goir
