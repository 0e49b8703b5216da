import Verif.Model.Faults
import Verif.Props.DiskBytes
/-!
# A store with failing file operations follows one without

A failed merge is a merge that is not scheduled any more; a document that could not be read is a document that was not asked for.
-/
namespace Goir
open GoMap

namespace BDisk
open CDisk

/-! ### fewer questions -/

/-- the documents that a GetFields has not done with. -/
def rem : RLoc → List String
  | .get t _ => t
  | .field id _ t _ => id :: t
  | .load id t _ => id :: t
  | .put id _ t _ => id :: t

/-- the same place in GetFields, with fewer documents left. -/
inductive TrimR : RLoc → RLoc → Prop
  | get {t t' : List String} {out : GoMap String Field} (h : t'.Sublist t) : TrimR (.get t out) (.get t' out)
  | field {id : String} {r : Ref String} {t t' : List String} {out : GoMap String Field} (h : t'.Sublist t) : TrimR (.field id r t out) (.field id r t' out)
  | load {id : String} {t t' : List String} {out : GoMap String Field} (h : t'.Sublist t) : TrimR (.load id t out) (.load id t' out)
  | skip {id : String} {t t' : List String} {out : GoMap String Field} (h : t'.Sublist t) : TrimR (.load id t out) (.get t' out)
  | put {id : String} {r : Ref String} {t t' : List String} {out : GoMap String Field} (h : t'.Sublist t) : TrimR (.put id r t out) (.put id r t' out)

/-- the same call, with fewer documents; it is done with those in `g`. -/
inductive TrimC (g : List String) : Option DCur → Option DCur → Prop
  | none : TrimC g none none
  | write {op : StoreOp} {l : WLoc} : TrimC g (some (.write op l)) (some (.write op l))
  | read {ids : List String} {name : String} {l l' : RLoc} (hl : TrimR l l') : TrimC g (some (.read ids name l)) (some (.read (g ++ rem l') name l'))

/-- the same call to be made, with fewer documents. -/
inductive TrimO : DOp → DOp → Prop
  | write {op : StoreOp} : TrimO (.write op) (.write op)
  | read {ids ids' : List String} {name : String} (h : ids'.Sublist ids) : TrimO (.getFields ids name) (.getFields ids' name)

/-- the same client, asking for fewer documents. -/
structure Trim (g : List String) (c c' : DClient) : Prop where
  todo : List.Forall₂ TrimO c.todo c'.todo
  cur : TrimC g c.cur c'.cur

/-- the same clients. -/
structure TrimCs (g : Nat → List String) (cs cs' : List DClient) : Prop where
  length : cs'.length = cs.length
  each : ∀ i c c', cs[i]? = some c → cs'[i]? = some c' → Trim (g i) c c'

/-- the same answers, to shorter questions. -/
def TrimA : List (List String × String × GoMap String Field) → List (List String × String × GoMap String Field) → Prop :=
  List.Forall₂ fun a b => b.1.Sublist a.1 ∧ b.2 = a.2

/-- what is known of a state in which the calls are done with the documents in `g`. -/
structure FInv (g : Nat → List String) (d : CDisk) : Prop where
  cache : LRU.Ok d.cache
  proc : d.up = true → d.ix.proc ≠ .down
  sub : ∀ (i : Nat) (cl : DClient) ids name l, d.clients[i]? = some cl → cl.cur = some (.read ids name l) → (g i ++ rem l).Sublist ids

/-- the shorter questions of the state before, from those of the state after a step of client `i`. -/
theorem pull {g : Nat → List String} {gi : List String} {cs cls1 : List DClient} {i : Nat} {cl X : DClient} (hi : cs[i]? = some cl) (h : TrimCs (Function.update g i gi) (cs.set i X) cls1) :
    ∃ y, Trim gi X y ∧ ∀ cl', Trim (g i) cl cl' → TrimCs g cs (cls1.set i cl') ∧ (cls1.set i cl')[i]? = some cl' ∧ (cls1.set i cl').set i y = cls1 := by
  obtain ⟨hlt, -⟩ := List.getElem?_eq_some_iff.1 hi
  have hlen : cls1.length = cs.length := by rw [h.length, List.length_set]
  have hl1 : i < cls1.length := by omega
  have hy : cls1[i]? = some cls1[i] := by simp [hl1]
  have hxy := h.each i X _ (by simp [hlt]) hy
  rw [Function.update_self] at hxy
  refine ⟨_, hxy, fun cl' hc => ⟨⟨by rw [List.length_set, hlen], ?_⟩, by simp [hl1], by rw [List.set_set, List.set_getElem_self]⟩⟩
  intro j c c' hj hj'
  by_cases e : i = j
  · subst e
    rw [List.getElem?_set_self hl1] at hj'
    rw [hi] at hj
    cases hj; cases hj'
    exact hc
  · rw [List.getElem?_set_ne e] at hj'
    have := h.each j c c' (by rw [List.getElem?_set_ne e]; exact hj) hj'
    rwa [Function.update_of_ne (Ne.symm e)] at this

theorem FInv.set {g : Nat → List String} {gi : List String} {d d' : CDisk} {i : Nat} {X : DClient} (h : FInv g d) (hc : LRU.Ok d'.cache) (he : d'.clients = d.clients.set i X) (hu : d'.up = d.up) (hp : d'.ix.proc = d.ix.proc)
    (hs : ∀ ids name l, X.cur = some (.read ids name l) → (gi ++ rem l).Sublist ids) : FInv (Function.update g i gi) d' := by
  refine ⟨hc, fun hx => by rw [hp]; exact h.proc (by rw [← hu]; exact hx), fun j cl ids name l hj hcur => ?_⟩
  rw [he] at hj
  by_cases e : i = j
  · subst e
    rw [List.getElem?_set] at hj
    split at hj
    · split at hj
      · cases hj; rw [Function.update_self]; exact hs ids name l hcur
      · cases hj
    · exact absurd rfl ‹_›
  · rw [List.getElem?_set_ne e] at hj
    rw [Function.update_of_ne (Ne.symm e)]
    exact h.sub j cl ids name l hj hcur

/-! ### the state that follows -/

/-- other clients and answers, and another place in the merge. -/
def patchC (d : CDisk) (cls : List DClient) (ans : List (List String × String × GoMap String Field)) (m : MergePc) : CDisk :=
  { d with clients := cls, answers := ans, ix := { d.ix with merger := m } }

def patch (s : BDisk) (cls : List DClient) (ans : List (List String × String × GoMap String Field)) (m : MergePc) (sv : Option (SaveCall × SavePc)) : BDisk :=
  { s with d := patchC s.d cls ans m, saveI := sv }

/-- the merge is at the same place, or it has failed here and stands still there; `R`: some rename has failed. -/
def At (R : Prop) (s : BDisk) (m : MergePc) (sv : Option (SaveCall × SavePc)) : Prop :=
  (m = s.d.ix.merger ∧ sv = s.saveI) ∨ (s.d.ix.merger = .dead ∧ s.d.ix.proc = .up ∧ (R ∨ ∀ c, sv ≠ some (c, .moved)))

theorem patch_kill (s : BDisk) (cls : List DClient) (ans : List (List String × String × GoMap String Field)) (m : MergePc) (sv : Option (SaveCall × SavePc)) : (patch s cls ans m sv).kill = s.kill := rfl

theorem kill_patch (s : BDisk) : patch s.kill [] [] .idle none = s.kill := rfl

/-- this client is not about to read a file. -/
def NoLoad (c : Option DCur) : Prop := ∀ ids name id todo out, c ≠ some (.read ids name (.load id todo out))

theorem post_patch {ix ix' : IxState} {f t d : String} (m : MergePc) (h : ix.exec (.post f t d) = some ix') :
    ({ ix with merger := m } : IxState).exec (.post f t d) = some { ix' with merger := m } ∧ ix'.merger = ix.merger ∧ ix'.proc = ix.proc := by
  simp only [IxState.exec] at h ⊢
  split at h
  · rename_i hg
    cases h
    exact ⟨by rw [if_pos hg], rfl, rfl⟩
  · cases h

/-- what a step of a client comes to. -/
def Follows (g : Nat → List String) (d d1 : CDisk) (i : Nat) (acts : List DClient → Prop) (f : CDisk → Option CDisk) : Prop :=
  (d1.ix.merger = d.ix.merger ∧ d1.ix.proc = d.ix.proc) ∧ ∃ gi, FInv (Function.update g i gi) d1 ∧ ∀ cls1, TrimCs (Function.update g i gi) d1.clients cls1 → ∃ cls, TrimCs g d.clients cls ∧
    ∀ ans m, TrimA d.answers ans → ∃ ans1, TrimA d1.answers ans1 ∧ ((acts cls ∧ f (patchC d cls ans m) = some (patchC d1 cls1 ans1 m)) ∨ patchC d cls ans m = patchC d1 cls1 ans1 m)

theorem trimC_write {g : List String} {op : StoreOp} {l : WLoc} {c : Option DCur} (h : TrimC g (some (.write op l)) c) : c = some (.write op l) := by cases h; rfl
theorem trimC_none {g : List String} {c : Option DCur} (h : TrimC g none c) : c = none := by cases h; rfl

/-- a step of a write. -/
theorem write_follows {g : Nat → List String} {d d1 : CDisk} {i : Nat} {cl : DClient} {op : StoreOp} {l : WLoc} {c1 : Option DCur} {f : CDisk → Option CDisk} (hI : FInv g d)
    (hi : d.clients[i]? = some cl) (hc : cl.cur = some (.write op l)) (hc1 : ∀ ids name l, c1 ≠ some (.read ids name l)) (hm : d1.ix.merger = d.ix.merger ∧ d1.ix.proc = d.ix.proc) (hk : LRU.Ok d1.cache)
    (he : d1.clients = d.clients.set i { cl with cur := c1 }) (hup : d1.up = d.up) (ha : d1.answers = d.answers)
    (hf : ∀ (cls : List DClient) (y : DClient) ans m, cls[i]? = some y → y.cur = some (.write op l) → f (patchC d cls ans m) = some (patchC d1 (cls.set i { y with cur := c1 }) ans m)) :
    Follows g d d1 i (fun cls => ∀ cl, cls[i]? = some cl → NoLoad cl.cur) f := by
  refine ⟨hm, [], hI.set hk he hup hm.2 (fun ids name l e => absurd e (hc1 _ _ _)), fun cls1 h => ?_⟩
  rw [he] at h
  obtain ⟨y, ⟨h1, h2⟩, h3⟩ := pull hi h
  obtain ⟨k1, k2, k3⟩ := h3 { y with cur := some (.write op l) } ⟨h1, by rw [hc]; exact .write⟩
  refine ⟨_, k1, fun ans m hans => ⟨ans, by rw [ha]; exact hans, .inl ⟨fun cl' e => ?_, ?_⟩⟩⟩
  · rw [k2] at e; cases e; intro _ _ _ _ _ e; cases e
  · rw [hf _ _ ans m k2 rfl]
    have e : y.cur = c1 := by
      have h2 : TrimC [] c1 y.cur := h2
      match c1, hc1, h2 with
      | none, _, h2 => exact trimC_none h2
      | some (.write _ _), _, h2 => exact trimC_write h2
      | some (.read a b c), hc1, _ => exact absurd rfl (hc1 a b c)
    have e' : ({ { y with cur := some (.write op l) } with cur := c1 } : DClient) = y := by cases y; cases e; rfl
    rw [e', k3]

/-- the steps of the clients, but for reading files. -/
theorem client_patch {g : Nat → List String} {d d1 : CDisk} {i k : Nat} (hI : FInv g d) (h : Step d (.client i k) d1) (hl : ∀ cl, d.clients[i]? = some cl → NoLoad cl.cur) :
    Follows g d d1 i (fun cls => ∀ cl, cls[i]? = some cl → NoLoad cl.cur) (fun t => t.exec (.client i k)) := by
  cases h with
  | @beginWrite _ _ cl op rest hu hi ht hx =>
    refine ⟨⟨rfl, rfl⟩, [], hI.set hI.cache rfl rfl rfl (fun _ _ _ e => by cases e), fun cls1 h => ?_⟩
    obtain ⟨⟨yt, yc⟩, ⟨h1, h2⟩, h3⟩ := pull hi h
    cases h2
    obtain ⟨k1, k2, k3⟩ := h3 ⟨.write op :: yt, none⟩ ⟨by rw [hx]; exact .cons .write h1, by rw [ht]; exact .none⟩
    refine ⟨_, k1, fun ans m ha => ⟨ans, ha, .inl ⟨fun cl' e => ?_, ?_⟩⟩⟩
    · rw [k2] at e; cases e; intro _ _ _ _ _ e; cases e
    · show (patchC d _ ans m).exec _ = _
      rw [step_exec (Step.beginWrite (s := patchC d _ ans m) hu k2 rfl rfl)]
      simp only [patchC, k3]
  | @beginRead _ _ cl ids name rest hu hi ht hx =>
    refine ⟨⟨rfl, rfl⟩, [], hI.set hI.cache rfl rfl rfl (fun _ _ _ e => by cases e; exact List.Sublist.refl _), fun cls1 h => ?_⟩
    obtain ⟨⟨yt, yc⟩, ⟨h1, h2⟩, h3⟩ := pull hi h
    cases h2 with
    | @read _ _ _ l' hl =>
    cases hl with
    | @get _ t' _ hs =>
    obtain ⟨k1, k2, k3⟩ := h3 ⟨.getFields t' name :: yt, none⟩ ⟨by rw [hx]; exact .cons (.read hs) h1, by rw [ht]; exact .none⟩
    refine ⟨_, k1, fun ans m ha => ⟨ans, ha, .inl ⟨fun cl' e => ?_, ?_⟩⟩⟩
    · rw [k2] at e; cases e; intro _ _ _ _ _ e; cases e
    · show (patchC d _ ans m).exec _ = _
      rw [step_exec (Step.beginRead (s := patchC d _ ans m) hu k2 rfl rfl)]
      simp only [patchC]
      have : (⟨yt, some (.read t' name (.get t' []))⟩ : DClient) = ⟨yt, some (.read ([] ++ rem (.get t' [])) name (.get t' []))⟩ := rfl
      rw [this, k3]
  | @acc _ _ cl op l m o loc' hu hi hc he hn =>
    exact write_follows hI hi hc (fun _ _ _ e => by cases e) ⟨rfl, rfl⟩ hI.cache rfl rfl rfl fun cls y ans m h1 h2 => step_exec (Step.acc (s := patchC d cls ans m) hu h1 h2 he hn)
  | @accReturn _ _ cl op l m o hu hi hc he hn =>
    exact write_follows hI hi hc (fun _ _ _ e => by cases e) ⟨rfl, rfl⟩ hI.cache rfl rfl rfl fun cls y ans m h1 h2 => step_exec (Step.accReturn (s := patchC d cls ans m) hu h1 h2 he hn)
  | @msgLen _ _ cl op hu hi hc =>
    exact write_follows hI hi hc (fun _ _ _ e => by cases e) ⟨rfl, rfl⟩ hI.cache rfl rfl rfl fun cls y ans m h1 h2 => step_exec (Step.msgLen (s := patchC d cls ans m) hu h1 h2)
  | @msgSize _ _ cl op len hu hi hc =>
    exact write_follows hI hi hc (fun _ _ _ e => by cases e) ⟨rfl, rfl⟩ hI.cache rfl rfl rfl fun cls y ans m h1 h2 => step_exec (Step.msgSize (s := patchC d cls ans m) hu h1 h2)
  | @sendI _ _ cl op r key ts ix hu hi hc he =>
    exact write_follows hI hi hc (fun _ _ _ e => by cases e) (post_patch .idle he).2 hI.cache rfl rfl rfl fun cls y ans m h1 h2 => step_exec (Step.sendI (s := patchC d cls ans m) hu h1 h2 (post_patch m he).1)
  | @msgN _ _ cl op r key ts hu hi hc =>
    exact write_follows hI hi hc (fun _ _ _ e => by cases e) ⟨rfl, rfl⟩ hI.cache rfl rfl rfl fun cls y ans m h1 h2 => step_exec (Step.msgN (s := patchC d cls ans m) hu h1 h2)
  | @docHit _ _ cl op r hu hi hc hr =>
    exact write_follows hI hi hc (fun _ _ _ e => by cases e) ⟨rfl, rfl⟩ (LRU.get_spec hI.cache _).1 rfl rfl rfl fun cls y ans m h1 h2 => step_exec (Step.docHit (s := patchC d cls ans m) hu h1 h2 hr)
  | @docMiss _ _ cl op hu hi hc hr =>
    exact write_follows hI hi hc (fun _ _ _ e => by cases e) ⟨rfl, rfl⟩ (LRU.get_spec hI.cache _).1 rfl rfl rfl fun cls y ans m h1 h2 => step_exec (Step.docMiss (s := patchC d cls ans m) hu h1 h2 hr)
  | @docSet _ _ cl op r hu hi hc =>
    exact write_follows hI hi hc (fun _ _ _ e => by cases e) ⟨rfl, rfl⟩ hI.cache rfl rfl rfl fun cls y ans m h1 h2 => step_exec (Step.docSet (s := patchC d cls ans m) hu h1 h2)
  | @docPut _ _ cl op r c hu hi hc he =>
    exact write_follows hI hi hc (fun _ _ _ e => by cases e) ⟨rfl, rfl⟩ (LRU.put_spec hI.cache he).1 rfl rfl rfl fun cls y ans m h1 h2 => step_exec (Step.docPut (s := patchC d cls ans m) hu h1 h2 he)
  | @readEnd _ _ cl ids name out hu hi hc =>
    refine ⟨⟨rfl, rfl⟩, [], hI.set hI.cache rfl rfl rfl (fun _ _ _ e => by cases e), fun cls1 h => ?_⟩
    obtain ⟨⟨yt, yc⟩, ⟨h1, h2⟩, h3⟩ := pull hi h
    cases h2
    obtain ⟨k1, k2, k3⟩ := h3 ⟨yt, some (.read (g i ++ []) name (.get [] out))⟩ ⟨h1, by rw [hc]; exact .read (.get (List.Sublist.refl _))⟩
    refine ⟨_, k1, fun ans m ha => ⟨ans ++ [(g i ++ [], name, out)], ?_, .inl ⟨fun cl' e => ?_, ?_⟩⟩⟩
    · exact List.rel_append ha (.cons ⟨hI.sub i cl ids name _ hi hc, rfl⟩ .nil)
    · rw [k2] at e; cases e; intro _ _ _ _ _ e; cases e
    · show (patchC d _ ans m).exec _ = _
      rw [step_exec (Step.readEnd (s := patchC d _ ans m) hu k2 rfl)]
      simp only [patchC]
      rw [k3]
  | @readHit _ _ cl ids name id todo out r hu hi hc hr =>
    refine ⟨⟨rfl, rfl⟩, g i, hI.set (LRU.get_spec hI.cache _).1 rfl rfl rfl (fun _ _ _ e => by cases e; have := hI.sub i cl _ _ _ hi hc; exact this), fun cls1 h => ?_⟩
    obtain ⟨⟨yt, yc⟩, ⟨h1, h2⟩, h3⟩ := pull hi h
    cases h2 with
    | @read _ _ _ l' hl =>
    cases hl with
    | @field _ _ _ t' _ hs =>
    obtain ⟨k1, k2, k3⟩ := h3 ⟨yt, some (.read (g i ++ rem (.get (id :: t') out)) name (.get (id :: t') out))⟩ ⟨h1, by rw [hc]; exact .read (.get (hs.cons_cons _))⟩
    refine ⟨_, k1, fun ans m ha => ⟨ans, ha, .inl ⟨fun cl' e => ?_, ?_⟩⟩⟩
    · rw [k2] at e; cases e; intro _ _ _ _ _ e; cases e
    · show (patchC d _ ans m).exec _ = _
      rw [step_exec (Step.readHit (s := patchC d _ ans m) hu k2 rfl hr)]
      simp only [patchC, List.set_set]
      rw [List.set_set] at k3
      rw [show (g i ++ rem (.get (id :: t') out)) = g i ++ rem (.field id r t' out) from rfl, k3]
  | @readMiss _ _ cl ids name id todo out hu hi hc hr =>
    refine ⟨⟨rfl, rfl⟩, g i, hI.set (LRU.get_spec hI.cache _).1 rfl rfl rfl (fun _ _ _ e => by cases e; have := hI.sub i cl _ _ _ hi hc; exact this), fun cls1 h => ?_⟩
    obtain ⟨⟨yt, yc⟩, ⟨h1, h2⟩, h3⟩ := pull hi h
    cases h2 with
    | @read _ _ _ l' hl =>
    cases hl with
    | @load _ _ t' _ hs =>
      obtain ⟨k1, k2, k3⟩ := h3 ⟨yt, some (.read (g i ++ rem (.get (id :: t') out)) name (.get (id :: t') out))⟩ ⟨h1, by rw [hc]; exact .read (.get (hs.cons_cons _))⟩
      refine ⟨_, k1, fun ans m ha => ⟨ans, ha, .inl ⟨fun cl' e => ?_, ?_⟩⟩⟩
      · rw [k2] at e; cases e; intro _ _ _ _ _ e; cases e
      · show (patchC d _ ans m).exec _ = _
        rw [step_exec (Step.readMiss (s := patchC d _ ans m) hu k2 rfl hr)]
        simp only [patchC, List.set_set]
        rw [List.set_set] at k3
        rw [show (g i ++ rem (.get (id :: t') out)) = g i ++ rem (.load id t' out) from rfl, k3]
    | @skip _ _ t' _ hs =>
      obtain ⟨k1, k2, k3⟩ := h3 ⟨yt, some (.read (g i ++ rem (.get t' out)) name (.get t' out))⟩ ⟨h1, by rw [hc]; exact .read (.get (hs.cons _))⟩
      refine ⟨_, k1, fun ans m ha => ⟨ans, ha, .inr ?_⟩⟩
      have e : (d.cache.get id).1 = d.cache := by
        have := (LRU.val_none hI.cache id).1 hr
        simp only [LRU.get, this]
      have e2 := k3
      rw [List.set_set] at e2
      simp only [patchC, e, e2]
  | @readField _ _ cl ids name id todo out r hu hi hc =>
    refine ⟨⟨rfl, rfl⟩, g i ++ [id], hI.set hI.cache rfl rfl rfl (fun _ _ _ e => by cases e; simpa [rem] using hI.sub i cl _ _ _ hi hc), fun cls1 h => ?_⟩
    obtain ⟨⟨yt, yc⟩, ⟨h1, h2⟩, h3⟩ := pull hi h
    cases h2 with
    | @read _ _ _ l' hl =>
    cases hl with
    | @get _ t' _ hs =>
    obtain ⟨k1, k2, k3⟩ := h3 ⟨yt, some (.read (g i ++ rem (.field id r t' out)) name (.field id r t' out))⟩ ⟨h1, by rw [hc]; exact .read (.field hs)⟩
    refine ⟨_, k1, fun ans m ha => ⟨ans, ha, .inl ⟨fun cl' e => ?_, ?_⟩⟩⟩
    · rw [k2] at e; cases e; intro _ _ _ _ _ e; cases e
    · show (patchC d _ ans m).exec _ = _
      rw [step_exec (Step.readField (s := patchC d _ ans m) hu k2 rfl)]
      simp only [patchC, List.set_set]
      rw [List.set_set] at k3
      have : g i ++ rem (.field id r t' out) = g i ++ [id] ++ rem (.get t' (found out id ((d.mem.docCells r).get? name))) := by simp [rem]
      rw [this, k3]
  | @readAbsent _ _ cl ids name id todo out hu hi hc hx => exact absurd hc (hl cl hi _ _ _ _ _)
  | @readLoad _ _ cl ids name id todo out b fd hu hi hc hx hb => exact absurd hc (hl cl hi _ _ _ _ _)
  | @readPut _ _ cl ids name id todo out r c hu hi hc he =>
    refine ⟨⟨rfl, rfl⟩, g i ++ [id], hI.set (LRU.put_spec hI.cache he).1 rfl rfl rfl (fun _ _ _ e => by cases e; simpa [rem] using hI.sub i cl _ _ _ hi hc), fun cls1 h => ?_⟩
    obtain ⟨⟨yt, yc⟩, ⟨h1, h2⟩, h3⟩ := pull hi h
    cases h2 with
    | @read _ _ _ l' hl =>
    cases hl with
    | @get _ t' _ hs =>
    obtain ⟨k1, k2, k3⟩ := h3 ⟨yt, some (.read (g i ++ rem (.put id r t' out)) name (.put id r t' out))⟩ ⟨h1, by rw [hc]; exact .read (.put hs)⟩
    refine ⟨_, k1, fun ans m ha => ⟨ans, ha, .inl ⟨fun cl' e => ?_, ?_⟩⟩⟩
    · rw [k2] at e; cases e; intro _ _ _ _ _ e; cases e
    · show (patchC d _ ans m).exec _ = _
      rw [step_exec (Step.readPut (s := patchC d _ ans m) hu k2 rfl he)]
      simp only [patchC, List.set_set]
      rw [List.set_set] at k3
      have : g i ++ rem (.put id r t' out) = g i ++ [id] ++ rem (.get t' out) := by simp [rem]
      rw [this, k3]

/-- the messages. -/
theorem recv_patch {g : Nat → List String} {d d1 : CDisk} {i : Nat} {a : Act} (ha : a = .recvM i ∨ a = .recvN i ∨ a = .recvD i) (hI : FInv g d) (h : Step d a d1) :
    Follows g d d1 i (fun cls => ∀ cl, cls[i]? = some cl → NoLoad cl.cur) (fun t => t.exec a) := by
  rcases ha with rfl | rfl | rfl
  · cases h with
    | @recvM _ cl op size len mx hi hc he =>
      exact write_follows hI hi hc (fun _ _ _ e => by cases e) ⟨rfl, rfl⟩ hI.cache rfl rfl rfl fun cls y ans m h1 h2 => step_exec (Step.recvM (s := patchC d cls ans m) h1 h2 he)
  · cases h with
    | @recvN _ cl op r key n ts nf hi hc he =>
      exact write_follows hI hi hc (fun _ _ _ e => by cases e) ⟨rfl, rfl⟩ hI.cache rfl rfl rfl fun cls y ans m h1 h2 => step_exec (Step.recvN (s := patchC d cls ans m) h1 h2 he)
  · cases h with
    | @recvD _ cl op r fl hi hc he =>
      exact write_follows hI hi hc (fun _ _ _ e => by cases e) ⟨rfl, rfl⟩ hI.cache rfl rfl rfl fun cls y ans m h1 h2 => step_exec (Step.recvD (s := patchC d cls ans m) h1 h2 he)

/-! ### the steps that concern no client -/

/-- a step of the background. -/
def Plain (R : Prop) (s s1 : BDisk) (f : BDisk → Option BDisk) : Prop :=
  (∃ x : BDisk, s1 = x.kill ∧ ∀ cls ans m sv, At R s m sv → f (patch s cls ans m sv) = some s1) ∨
  ((s1.d.clients = s.d.clients ∧ s1.d.up = s.d.up ∧ (s.d.ix.proc ≠ .down → s1.d.ix.proc ≠ .down)) ∧ s1.d.cache = s.d.cache ∧ s1.d.answers = s.d.answers ∧ ∀ cls ans m sv, At R s m sv → ∃ m1 sv1, f (patch s cls ans m sv) = some (patch s1 cls ans m1 sv1) ∧ At R s1 m1 sv1)

theorem plain_same {R : Prop} {s s1 : BDisk} {f : BDisk → Option BDisk} (hc : s1.d.clients = s.d.clients) (hu : s1.d.up = s.d.up) (hk : s1.d.cache = s.d.cache) (ha : s1.d.answers = s.d.answers)
    (hm : s1.d.ix.merger = s.d.ix.merger) (hp : s1.d.ix.proc = s.d.ix.proc) (hs : s1.saveI = s.saveI) (hf : ∀ cls ans m sv, f (patch s cls ans m sv) = some (patch s1 cls ans m sv)) : Plain R s s1 f :=
  .inr ⟨⟨hc, hu, fun h => by rw [hp]; exact h⟩, hk, ha, fun cls ans m sv h => ⟨m, sv, hf cls ans m sv, by unfold At at h ⊢; rwa [hm, hp, hs]⟩⟩

variable {z : Bytes → Bytes} {root : Path}

theorem stepM_plain {R : Prop} {s s1 : BDisk} (h : s.exec z root .stepM = some s1) : Plain R s s1 (fun t => t.exec z root .stepM) := by
  simp only [exec] at h
  cases hf : flush z (join root) (fun _ => "metrics") (fun f v => FBB.serializeFieldSizeLength f (toInt32 v.1) (toInt32 v.2)) s.fs s.d.mx s.saveM with
  | none => rw [hf] at h; cases h
  | some r =>
    rw [hf] at h
    obtain ⟨fs, _ | ⟨mx, sv⟩⟩ := r
    · cases h
      refine .inl ⟨_, rfl, fun cls ans m sv _ => ?_⟩
      simp only [exec, patch, patchC, hf]
      rfl
    · cases h
      refine plain_same rfl rfl rfl rfl rfl rfl rfl fun cls ans m sv => ?_
      simp only [exec, patch, patchC, hf]
      rfl

theorem stepN_plain {R : Prop} {s s1 : BDisk} (h : s.exec z root .stepN = some s1) : Plain R s s1 (fun t => t.exec z root .stepN) := by
  simp only [exec] at h
  cases hf : flush z (join root) (fun _ => "nfterm") (fun _ v => FBB.serializeNumberFieldTerm v) s.fs s.d.nf s.saveN with
  | none => rw [hf] at h; cases h
  | some r =>
    rw [hf] at h
    obtain ⟨fs, _ | ⟨mx, sv⟩⟩ := r
    · cases h
      refine .inl ⟨_, rfl, fun cls ans m sv _ => ?_⟩
      simp only [exec, patch, patchC, hf]
      rfl
    · cases h
      refine plain_same rfl rfl rfl rfl rfl rfl rfl fun cls ans m sv => ?_
      simp only [exec, patch, patchC, hf]
      rfl

theorem stepD_plain {R : Prop} {s s1 : BDisk} (h : s.exec z root .stepD = some s1) : Plain R s s1 (fun t => t.exec z root .stepD) := by
  simp only [exec] at h
  cases hf : flush z (fun _ => docDir root) id (fun _ r => FBB.serializeFieldMap (s.d.mem.docCells r)) s.fs s.d.fl s.saveD with
  | none => rw [hf] at h; cases h
  | some r =>
    rw [hf] at h
    obtain ⟨fs, _ | ⟨mx, sv⟩⟩ := r
    · cases h
      refine .inl ⟨_, rfl, fun cls ans m sv _ => ?_⟩
      simp only [exec, patch, patchC, hf]
      rfl
    · cases h
      refine plain_same rfl rfl rfl rfl rfl rfl rfl fun cls ans m sv => ?_
      simp only [exec, patch, patchC, hf]
      rfl

theorem tick_plain {R : Prop} {s s1 : BDisk} {order : List String} {a : Act} (ha : a = .tickM order ∨ a = .tickN order ∨ a = .tickD order) (h : s.exec z root a = some s1) : Plain R s s1 (fun t => t.exec z root a) := by
  rcases ha with rfl | rfl | rfl
  all_goals
    simp only [exec] at h
    obtain ⟨d1, hd, rfl⟩ := Option.map_eq_some_iff.1 h
    cases exec_step hd
    refine plain_same rfl rfl rfl rfl rfl rfl rfl fun cls ans m sv => ?_
    simp only [exec, patch, patchC, CDisk.exec, *]
    rfl

theorem create_plain {R : Prop} {s s1 : BDisk} {name : String} (h : s.create z root name = some s1) : Plain R s s1 (fun t => t.create z root name) := by
  unfold create at h
  split at h
  · rename_i f p rest e1 e2
    split at h
    · rename_i e3
      cases h
      exact .inl ⟨s, rfl, fun cls ans m sv _ => by simp only [create, patch, patchC, e1, e2, e3]; rfl⟩
    · rename_i raw e3
      split at h
      · rename_i e4
        cases h
        exact .inl ⟨s, rfl, fun cls ans m sv _ => by simp only [create, patch, patchC, e1, e2, e3, e4]; rfl⟩
      · rename_i fs e4
        split at h
        · rename_i e5
          split at h
          · rename_i e6
            cases h
            exact .inl ⟨{ s with fs := fs }, rfl, fun cls ans m sv _ => by simp only [create, patch, patchC, e1, e2, e3, e4, e6]; rw [if_pos e5]; rfl⟩
          · rename_i fs' e6
            cases h
            exact plain_same rfl rfl rfl rfl rfl rfl rfl fun cls ans m sv => by simp only [create, patch, patchC, e1, e2, e3, e4, e6]; rw [if_pos e5]
        · cases h
  · cases h

theorem write_plain {R : Prop} {s s1 : BDisk} (h : s.write root = some s1) : Plain R s s1 (fun t => t.write root) := by
  unfold write at h
  split at h
  · rename_i f p rest name bs n e1 e2
    split at h
    · rename_i e3
      cases h
      exact plain_same rfl rfl rfl rfl rfl rfl rfl fun cls ans m sv => by simp only [write, patch, patchC, e1, e2]; rw [if_pos e3]
    · rename_i e3
      cases h
      exact plain_same rfl rfl rfl rfl rfl rfl rfl fun cls ans m sv => by simp only [write, patch, patchC, e1, e2]; rw [if_neg e3]
  · cases h

/-- only other clients and answers. -/
def cpatch (s : BDisk) (cls : List DClient) (ans : List (List String × String × GoMap String Field)) : BDisk := { s with d := { s.d with clients := cls, answers := ans } }

theorem patch_self (s : BDisk) (cls : List DClient) (ans : List (List String × String × GoMap String Field)) : patch s cls ans s.d.ix.merger s.saveI = cpatch s cls ans := rfl

/-- the outcome of a step of the merge. -/
def MOut (s s1 : BDisk) (f : BDisk → Option BDisk) : Prop :=
  (∃ x : BDisk, s1 = x.kill ∧ ∀ cls ans, f (cpatch s cls ans) = some s1) ∨
  ((s1.d.clients = s.d.clients ∧ s1.d.up = s.d.up ∧ (s.d.ix.proc ≠ .down → s1.d.ix.proc ≠ .down)) ∧ s1.d.cache = s.d.cache ∧ s1.d.answers = s.d.answers ∧ ∀ cls ans, f (cpatch s cls ans) = some (cpatch s1 cls ans))

theorem MOut.plain {R : Prop} {s s1 : BDisk} {f : BDisk → Option BDisk} (hd : s.d.ix.merger ≠ .dead) (h : MOut s s1 f) : Plain R s s1 f := by
  have key : ∀ {m sv}, At R s m sv → m = s.d.ix.merger ∧ sv = s.saveI := fun h => h.resolve_right fun h => hd h.1
  rcases h with ⟨x, e, h⟩ | ⟨e1, e2, e3, h⟩
  · exact .inl ⟨x, e, fun cls ans m sv ha => by obtain ⟨rfl, rfl⟩ := key ha; exact h cls ans⟩
  · exact .inr ⟨e1, e2, e3, fun cls ans m sv ha => by obtain ⟨rfl, rfl⟩ := key ha; exact ⟨_, _, h cls ans, .inl ⟨rfl, rfl⟩⟩⟩

theorem loadError_out {s x : BDisk} {f : BDisk → Option BDisk} (hx : x.d = s.d) (hf : ∀ cls ans, f (cpatch s cls ans) = some (cpatch x cls ans).loadError) : MOut s x.loadError f := by
  by_cases hp : x.d.ix.proc = .opening
  · have e : ∀ cls ans, (cpatch x cls ans).loadError = x.kill := fun cls ans => by
      unfold loadError
      rw [if_pos (by exact hp)]; rfl
    have e' : x.loadError = x.kill := by unfold loadError; rw [if_pos hp]
    exact .inl ⟨x, e', fun cls ans => by rw [hf, e, e']⟩
  · have e : ∀ cls ans, (cpatch x cls ans).loadError = cpatch x.loadError cls ans := fun cls ans => by
      unfold loadError
      rw [if_neg hp, if_neg (by exact hp)]; rfl
    refine .inr ⟨⟨?_, ?_, ?_⟩, ?_, ?_, fun cls ans => by rw [hf, e]⟩ <;> (unfold loadError; rw [if_neg hp, ← hx]) <;> exact id

theorem merge_out {s s1 : BDisk} (h : s.mergeStep z root = some s1) : s.d.ix.merger ≠ .dead ∧ MOut s s1 (fun t => t.mergeStep z root) := by
  have hd : s.d.ix.merger ≠ .dead := by
    intro e
    unfold mergeStep at h
    rw [e] at h
    cases h
  refine ⟨hd, ?_⟩
  unfold mergeStep at h
  split at h
  · rename_i acc e1
    split at h
    · rename_i e2
      cases h
      exact .inr ⟨⟨rfl, rfl, (fun _ e => by cases e)⟩, rfl, rfl, fun cls ans => by simp only [mergeStep, cpatch, e1]; exact if_pos e2⟩
    · rename_i e2
      cases h
      exact .inr ⟨⟨rfl, rfl, id⟩, rfl, rfl, fun cls ans => by simp only [mergeStep, cpatch, e1]; exact if_neg e2⟩
  · rename_i f rest acc e1
    split at h
    · rename_i e2
      cases h
      exact .inl ⟨s, rfl, fun cls ans => by simp only [mergeStep, cpatch, e1, e2]; rfl⟩
    · rename_i fs e2
      split at h
      · rename_i e3
        cases h
        exact .inl ⟨{ s with fs := fs }, rfl, fun cls ans => by simp only [mergeStep, cpatch, e1, e2, e3]; rfl⟩
      · rename_i e3
        cases h
        exact loadError_out rfl fun cls ans => by simp only [mergeStep, cpatch, e1, e2, e3]
      · rename_i td e3
        cases h
        exact .inr ⟨⟨rfl, rfl, id⟩, rfl, rfl, fun cls ans => by simp only [mergeStep, cpatch, e1, e2, e3]; rfl⟩
  · rename_i f rest seen n ns td acc e1
    split at h
    · rename_i e2
      cases h
      exact loadError_out rfl fun cls ans => by simp only [mergeStep, cpatch, e1, e2]
    · rename_i buf e2
      split at h
      · rename_i e3
        cases h
        exact .inl ⟨s, rfl, fun cls ans => by simp only [mergeStep, cpatch, e1, e2, e3]; rfl⟩
      · rename_i p e3
        cases h
        exact .inr ⟨⟨rfl, rfl, id⟩, rfl, rfl, fun cls ans => by simp only [mergeStep, cpatch, e1, e2, e3]; rfl⟩
  · rename_i f rest seen td acc e1 e0
    split at h
    · rename_i e2
      cases h
      exact .inl ⟨s, rfl, fun cls ans => by simp only [mergeStep, cpatch, e1, e0, e2]; rfl⟩
    · rename_i raw e2
      split at h
      · rename_i e3
        cases h
        exact .inl ⟨s, rfl, fun cls ans => by simp only [mergeStep, cpatch, e1, e0, e2, e3]; rfl⟩
      · rename_i fs e3
        cases h
        exact .inr ⟨⟨rfl, rfl, id⟩, rfl, rfl, fun cls ans => by simp only [mergeStep, cpatch, e1, e0, e2, e3]⟩
  · rename_i f rest seen td acc c e1 e0
    cases h
    exact .inr ⟨⟨rfl, rfl, id⟩, rfl, rfl, fun cls ans => by simp only [mergeStep, cpatch, e1, e0]; rfl⟩
  · rename_i f rest seen td acc c pc hnd e1 e0
    have red : ∀ cls ans, (cpatch s cls ans).mergeStep z root = match c.step (s.fs, pc) with
        | none => none
        | some (fs, .failed) => some { cpatch s cls ans with fs := fs }.loadError
        | some (fs, pc) => some { cpatch s cls ans with fs := fs, saveI := some (c, pc) } := by
      intro cls ans
      simp only [mergeStep, cpatch, e1, e0]
      cases pc <;> first | rfl | exact absurd rfl hnd
    split at h
    · cases h
    · rename_i fs e2
      cases h
      exact loadError_out rfl fun cls ans => by rw [red, e2]; rfl
    · rename_i fs pc' hnf e2
      cases h
      refine .inr ⟨⟨rfl, rfl, id⟩, rfl, rfl, fun cls ans => ?_⟩
      show (cpatch s cls ans).mergeStep z root = _
      rw [red, e2]
      cases pc' <;> first | rfl | exact absurd rfl hnf
  · rename_i f rest acc e1
    cases h
    exact .inr ⟨⟨rfl, rfl, id⟩, rfl, rfl, fun cls ans => by simp only [mergeStep, cpatch, e1]; rfl⟩
  · rename_i f rest n ns acc e1
    split at h
    · rename_i e2
      cases h
      exact loadError_out rfl fun cls ans => by simp only [mergeStep, cpatch, e1, e2]
    · rename_i fs e2
      cases h
      exact .inr ⟨⟨rfl, rfl, id⟩, rfl, rfl, fun cls ans => by simp only [mergeStep, cpatch, e1, e2]; rfl⟩
  · cases h

theorem ixQuiet_patch {ix ix' : IxState} {a : IxState.Act} (ha : a = .recv ∨ (∃ o, a = .tick o) ∨ a = .flushed) (m : MergePc) (h : ix.exec a = some ix') :
    ({ ix with merger := m } : IxState).exec a = some { ix' with merger := m } ∧ ix'.merger = ix.merger ∧ ix'.proc = ix.proc := by
  rcases ha with rfl | ⟨o, rfl⟩ | rfl
  · simp only [IxState.exec] at h ⊢
    split at h
    · rename_i e1 e2 e3
      cases h
      exact ⟨by simp only [e1, e2], rfl, rfl⟩
    · cases h
  · simp only [IxState.exec] at h ⊢
    split at h
    · rename_i e
      cases h
      exact ⟨by rw [if_pos e], rfl, rfl⟩
    · cases h
  · simp only [IxState.exec] at h ⊢
    split at h
    · rename_i e
      cases h
      exact ⟨rfl, rfl, rfl⟩
    · cases h

theorem quiet_plain {R : Prop} {g : Nat → List String} {s s1 : BDisk} {a : IxState.Act} (hI : FInv g s.d) (ha : a = .recv ∨ (∃ o, a = .tick o) ∨ a = .flushed)
    (h : ((s.d.exec (.ix a)).map fun d => { s with d := d }) = some s1) : Plain R s s1 (fun t => (t.d.exec (.ix a)).map fun d => { t with d := d }) := by
  obtain ⟨d1, hd, rfl⟩ := Option.map_eq_some_iff.1 h
  cases exec_step hd with
  | @ix _ ix hb hu he hp =>
    obtain ⟨-, h2, h3⟩ := ixQuiet_patch ha .idle he
    refine plain_same rfl rfl rfl rfl h2 h3 rfl fun cls ans m sv => ?_
    have := step_exec (Step.ix (s := patchC s.d cls ans m) hb hu (ixQuiet_patch ha m he).1 hp)
    show ((patchC s.d cls ans m).exec (.ix a)).map _ = _
    rw [this]
    rfl
  | @ixDown _ ix hb hu he hp =>
    obtain ⟨-, -, h3⟩ := ixQuiet_patch ha .idle he
    rw [h3] at hp
    rcases hu with hu | hu
    · exact absurd hp (hI.proc hu)
    · rw [hu] at hp; cases hp

/-- the index writer and the merge. -/
theorem ix_plain {R : Prop} {g : Nat → List String} {s s1 : BDisk} {a : IxState.Act} (hI : FInv g s.d) (h : s.exec z root (.ix a) = some s1) : Plain R s s1 (fun t => t.exec z root (.ix a)) := by
  have hg : s.d.up = true ∨ s.d.ix.proc = .opening := by
    by_contra hn
    simp only [exec] at h
    rw [if_neg hn] at h
    cases h
  have red : ∀ t : BDisk, t.d.up = s.d.up → t.d.ix.proc = s.d.ix.proc → t.exec z root (.ix a) = t.ixExec z root a := by
    intro t h1 h2
    simp only [exec]
    rw [h1, h2, if_pos hg]
  rw [red s rfl rfl] at h
  have lift : ∀ {f : BDisk → Option BDisk}, (∀ t, t.ixExec z root a = f t) → Plain R s s1 f → Plain R s s1 (fun t => t.exec z root (.ix a)) := by
    intro f hf hp
    have e : ∀ cls ans m sv, (patch s cls ans m sv).exec z root (.ix a) = f (patch s cls ans m sv) := fun cls ans m sv => (red (patch s cls ans m sv) rfl rfl).trans (hf _)
    unfold Plain at hp ⊢
    simp only [e]
    exact hp
  cases a with
  | create name => exact lift (fun _ => rfl) (create_plain h)
  | write => exact lift (fun _ => rfl) (write_plain h)
  | merge => obtain ⟨h1, h2⟩ := merge_out h; exact lift (fun _ => rfl) (h2.plain h1)
  | recv => exact lift (fun _ => rfl) (quiet_plain hI (.inl rfl) h)
  | tick o => exact lift (fun _ => rfl) (quiet_plain hI (.inr (.inl ⟨o, rfl⟩)) h)
  | flushed => exact lift (fun _ => rfl) (quiet_plain hI (.inr (.inr rfl)) h)
  | startMerge =>
    have h : (if s.d.ix.proc = .up ∧ s.d.ix.merger = .idle then some (s.setMerger (.atField (s.fs.listDirectories root) [])) else none) = some s1 := h
    split at h
    · rename_i e
      cases h
      refine lift (fun _ => rfl) (MOut.plain (by rw [e.2]; intro e; cases e) (.inr ⟨⟨rfl, rfl, id⟩, rfl, rfl, fun cls ans => ?_⟩))
      exact if_pos e
    · cases h
  | touch => cases h
  | post => cases h
  | mkdir => cases h
  | crash => cases h
  | open_ => cases h

theorem crash_plain {R : Prop} {s s1 : BDisk} (h : s.exec z root .crash = some s1) : Plain R s s1 (fun t => t.exec z root .crash) := by
  simp only [exec] at h
  split at h
  · cases h
  · rename_i hd
    cases h
    exact .inl ⟨s, rfl, fun cls ans m sv _ => if_neg hd⟩

theorem open_plain {R : Prop} {s s1 : BDisk} (h : s.exec z root .open_ = some s1) : Plain R s s1 (fun t => t.exec z root .open_) := by
  simp only [exec] at h
  split at h
  · rename_i hd
    cases h
    refine .inr ⟨⟨rfl, rfl, (fun _ e => by cases e)⟩, rfl, rfl, fun cls ans m sv ha => ?_⟩
    obtain ⟨rfl, rfl⟩ := ha.resolve_right fun h => by have := h.2.1; rw [hd] at this; cases this
    exact ⟨_, _, if_pos hd, .inl ⟨rfl, rfl⟩⟩
  · cases h

/-! ### all steps -/

/-- the programs of `bs` are those of `as`, asking for fewer documents. -/
def Opened (as : List FAct) (bs : List Act) : Prop := ∀ n progs, Act.openRest n progs ∈ bs → ∃ p0, FAct.ok (.openRest n p0) ∈ as ∧ List.Forall₂ (List.Forall₂ TrimO) p0 progs

/-- whatever happens between `s` and `s1` with errors happens without, between states that are alike. -/
def Sim (z : Bytes → Bytes) (root : Path) (R : Prop) (as : List FAct) (g : Nat → List String) (s : BDisk) (g1 : Nat → List String) (s1 : BDisk) : Prop :=
  ∀ cls1, TrimCs g1 s1.d.clients cls1 → ∃ cls, TrimCs g s.d.clients cls ∧ ∀ ans m sv, TrimA s.d.answers ans → At R s m sv →
    ∃ bs ans1 m1 sv1, (patch s cls ans m sv).run z root bs = some (patch s1 cls1 ans1 m1 sv1) ∧ TrimA s1.d.answers ans1 ∧ At R s1 m1 sv1 ∧ Opened as bs

theorem Sim.trans {R : Prop} {as as' : List FAct} {g g1 g2 : Nat → List String} {s s1 s2 : BDisk} (h : Sim z root R as g s g1 s1) (h' : Sim z root R as' g1 s1 g2 s2) : Sim z root R (as ++ as') g s g2 s2 := by
  intro cls2 h2
  obtain ⟨cls1, h1, k1⟩ := h' cls2 h2
  obtain ⟨cls, h0, k0⟩ := h cls1 h1
  refine ⟨cls, h0, fun ans m sv ha hm => ?_⟩
  obtain ⟨bs, ans1, m1, sv1, r1, r2, r3, r4⟩ := k0 ans m sv ha hm
  obtain ⟨bs', ans2, m2, sv2, q1, q2, q3, q4⟩ := k1 ans1 m1 sv1 r2 r3
  refine ⟨bs ++ bs', ans2, m2, sv2, brun_append.2 ⟨_, r1, q1⟩, q2, q3, fun n progs hm => ?_⟩
  rcases List.mem_append.1 hm with hm | hm
  · obtain ⟨p, hp, hq⟩ := r4 n progs hm
    exact ⟨p, List.mem_append_left _ hp, hq⟩
  · obtain ⟨p, hp, hq⟩ := q4 n progs hm
    exact ⟨p, List.mem_append_right _ hp, hq⟩

/-- clients that ask for what is left. -/
def canon (g : Nat → List String) (cs : List DClient) : List DClient :=
  cs.mapIdx fun i c => { c with cur := match c.cur with
    | some (.read _ name l) => some (.read (g i ++ rem l) name l)
    | x => x }

theorem TrimR.refl (l : RLoc) : TrimR l l := by
  cases l <;> constructor <;> exact List.Sublist.refl _

theorem TrimO.refl (o : DOp) : TrimO o o := by
  cases o
  · exact .write
  · exact .read (List.Sublist.refl _)

theorem canon_trim (g : Nat → List String) (cs : List DClient) : TrimCs g cs (canon g cs) := by
  refine ⟨by simp [canon], fun i c c' h h' => ?_⟩
  simp only [canon, List.getElem?_mapIdx, h, Option.map_some] at h'
  cases h'
  refine ⟨List.forall₂_same.2 fun o _ => .refl o, ?_⟩
  obtain ⟨todo, cur⟩ := c
  rcases cur with _ | ⟨op, l⟩ | ⟨ids, name, l⟩
  · exact .none
  · exact .write
  · exact .read (.refl l)

theorem opened_nil (as : List FAct) : Opened as [] := fun _ _ h => by cases h
theorem opened_one {as : List FAct} {a : Act} (h : ∀ n progs, a ≠ .openRest n progs) : Opened as [a] := fun n progs hm => absurd (List.mem_singleton.1 hm).symm (h n progs)

theorem kill_inv (x : BDisk) (g : Nat → List String) : FInv g x.kill.d :=
  ⟨LRU.ok_new 0, (fun h => by cases h), (fun i cl ids name l h => by simp [kill, CDisk.stop] at h)⟩

theorem trimCs_nil {g : Nat → List String} {cls : List DClient} (h : TrimCs g [] cls) : cls = [] := List.eq_nil_of_length_eq_zero (by rw [h.length]; rfl)

/-- the process ends in one step. -/
theorem killed_sim {R : Prop} {as : List FAct} {g g1 : Nat → List String} {s x : BDisk} {a : Act} (hn : ∀ n progs, a ≠ .openRest n progs)
    (hf : ∀ ans m sv, At R s m sv → (patch s (canon g s.d.clients) ans m sv).exec z root a = some x.kill) : Sim z root R as g s g1 x.kill := by
  intro cls1 h1
  have : cls1 = [] := trimCs_nil h1
  subst this
  exact ⟨_, canon_trim g _, fun ans m sv _ hm => ⟨[a], [], .idle, none, brun_one.2 (hf ans m sv hm), .nil, .inl ⟨rfl, rfl⟩, opened_one hn⟩⟩

theorem Plain.sim {R : Prop} {as : List FAct} {g : Nat → List String} {s s1 : BDisk} {a : Act} (hn : ∀ n progs, a ≠ .openRest n progs) (hI : FInv g s.d)
    (h : Plain R s s1 (fun t => t.exec z root a)) : ∃ g1, FInv g1 s1.d ∧ Sim z root R as g s g1 s1 := by
  rcases h with ⟨x, rfl, h⟩ | ⟨⟨e1, e4, e5⟩, e2, e3, h⟩
  · exact ⟨g, kill_inv x g, killed_sim hn fun ans m sv hm => h _ ans m sv hm⟩
  · refine ⟨g, ⟨by rw [e2]; exact hI.cache, fun h => e5 (hI.proc (by rw [← e4]; exact h)), by rw [e1]; exact hI.sub⟩, fun cls1 h1 => ⟨cls1, by rw [← e1]; exact h1, fun ans m sv ha hm => ?_⟩⟩
    obtain ⟨m1, sv1, k1, k2⟩ := h cls1 ans m sv hm
    exact ⟨[a], ans, m1, sv1, brun_one.2 k1, by rw [e3]; exact ha, k2, opened_one hn⟩

theorem exec_client {t : BDisk} {i k : Nat} (h : ∀ cl, t.d.clients[i]? = some cl → NoLoad cl.cur) : t.exec z root (.client i k) = (t.d.exec (.client i k)).map fun d => { t with d := d } := by
  simp only [exec]
  split
  · rename_i ids name id todo out e
    obtain ⟨cl, h1, h2⟩ := curOf_some e
    exact absurd h2 (h cl h1 _ _ _ _ _)
  · rfl

/-- a step of a client in memory. -/
theorem Follows.sim {R : Prop} {as : List FAct} {g : Nat → List String} {s : BDisk} {d1 : CDisk} {i : Nat} {a : Act} (hn : ∀ n progs, a ≠ .openRest n progs)
    (he : ∀ t : BDisk, (∀ cl, t.d.clients[i]? = some cl → NoLoad cl.cur) → t.exec z root a = (t.d.exec a).map fun d => { t with d := d })
    (h : Follows g s.d d1 i (fun cls => ∀ cl, cls[i]? = some cl → NoLoad cl.cur) (fun t => t.exec a)) : ∃ g1, FInv g1 d1 ∧ Sim z root R as g s g1 { s with d := d1 } := by
  obtain ⟨⟨hm1, hm2⟩, gi, h1, h2⟩ := h
  refine ⟨_, h1, fun cls1 hc => ?_⟩
  obtain ⟨cls, k1, k2⟩ := h2 cls1 hc
  refine ⟨cls, k1, fun ans m sv ha hm => ?_⟩
  have hm' : At R { s with d := d1 } m sv := by unfold At at hm ⊢; simp only [hm1, hm2]; exact hm
  obtain ⟨ans1, k3, ⟨k4, k5⟩ | k4⟩ := k2 ans m ha
  · refine ⟨[a], ans1, m, sv, brun_one.2 ?_, k3, hm', opened_one hn⟩
    rw [he _ k4]
    have k5 : (patchC s.d cls ans m).exec a = _ := k5
    show ((patchC s.d cls ans m).exec a).map _ = _
    rw [k5]
    rfl
  · refine ⟨[], ans1, m, sv, ?_, k3, hm', opened_nil _⟩
    show some (patch s cls ans m sv) = _
    simp only [patch, k4]

/-- reading a document. -/
theorem load_sim {R : Prop} {as : List FAct} {g : Nat → List String} {s s1 : BDisk} {i k : Nat} {ids : List String} {name id : String} {todo : List String} {out : GoMap String Field} (hI : FInv g s.d)
    (hc : s.d.curOf i = some (.read ids name (.load id todo out))) (h : s.exec z root (.client i k) = some s1) : ∃ g1, FInv g1 s1.d ∧ Sim z root R as g s g1 s1 := by
  obtain ⟨cl, hi, hcur⟩ := curOf_some hc
  have red : ∀ (t : BDisk) cl' ids' todo', t.d.up = s.d.up → t.d.clients[i]? = some cl' → cl'.cur = some (.read ids' name (.load id todo' out)) →
      t.exec z root (.client i k) = if s.d.up then some (t.readDoc root i ids' name id todo' out) else none := by
    intro t cl' ids' todo' h1 h2 h3
    simp only [exec, CDisk.curOf, h2, Option.bind_some, h3, h1]
  rw [red s cl ids todo rfl hi hcur] at h
  split at h
  · rename_i hu
    simp only [Option.some.injEq] at h
    cases hl : loadDoc s.fs root id with
    | none =>
      have e : s1 = s.kill := by rw [← h]; simp only [readDoc, hl]
      subst e
      refine ⟨g, kill_inv s g, killed_sim (a := .client i k) (fun _ _ e => by cases e) fun ans m sv _ => ?_⟩
      have h2 : (canon g s.d.clients)[i]? = some { cl with cur := some (.read (g i ++ rem (.load id todo out)) name (.load id todo out)) } := by
        simp [canon, hi, hcur]
      rw [red (patch s (canon g s.d.clients) ans m sv) _ _ _ rfl h2 rfl, if_pos hu]
      simp only [readDoc, patch, hl]
      rfl
    | some r =>
      cases r with
      | none =>
        have e : s1 = { s with d := s.d.handoff i (some (.read ids name (.get todo out))) } := by rw [← h]; simp only [readDoc, hl]
        subst e
        have hcl : (s.d.handoff i (some (.read ids name (.get todo out)))).clients = s.d.clients.set i { cl with cur := some (.read ids name (.get todo out)) } := modify_eq_set _ hi
        refine ⟨_, hI.set (gi := g i ++ [id]) hI.cache hcl rfl rfl (fun _ _ _ e => by cases e; simpa [rem] using hI.sub i cl _ _ _ hi hcur), fun cls1 h1 => ?_⟩
        have h1 : TrimCs _ (s.d.handoff i (some (.read ids name (.get todo out)))).clients cls1 := h1
        rw [hcl] at h1
        obtain ⟨⟨yt, yc⟩, ⟨k1, k2⟩, k3⟩ := pull hi h1
        cases k2 with
        | @read _ _ _ l' hl' =>
        cases hl' with
        | @get _ t' _ hs =>
        obtain ⟨j1, j2, j3⟩ := k3 ⟨yt, some (.read (g i ++ rem (.load id t' out)) name (.load id t' out))⟩ ⟨k1, by rw [hcur]; exact .read (.load hs)⟩
        refine ⟨_, j1, fun ans m sv ha hm => ⟨[.client i k], ans, m, sv, brun_one.2 ?_, ha, hm, opened_one (fun _ _ e => by cases e)⟩⟩
        rw [red (patch s _ ans m sv) _ _ _ rfl j2 rfl, if_pos hu]
        simp only [readDoc, patch, hl, CDisk.handoff, patchC]
        rw [modify_eq_set _ j2, List.set_set]
        rw [List.set_set] at j3
        have : g i ++ rem (.load id t' out) = g i ++ [id] ++ rem (.get t' out) := by simp [rem]
        simp only [this, j3]
      | some fd =>
        have e : s1 = { s with d := { s.d with mem := { s.d.mem with docCells := Ref.upd s.d.mem.docCells ⟨id, s.d.mem.next⟩ fd, next := s.d.mem.next + 1 } }.handoff i (some (.read ids name (.put id ⟨id, s.d.mem.next⟩ todo (CDisk.found out id (fd.get? name))))) } := by
          rw [← h]; simp only [readDoc, hl]
        subst e
        have hcl : ({ s.d with mem := { s.d.mem with docCells := Ref.upd s.d.mem.docCells ⟨id, s.d.mem.next⟩ fd, next := s.d.mem.next + 1 } }.handoff i (some (.read ids name (.put id ⟨id, s.d.mem.next⟩ todo (CDisk.found out id (fd.get? name)))))).clients =
            s.d.clients.set i { cl with cur := some (.read ids name (.put id ⟨id, s.d.mem.next⟩ todo (CDisk.found out id (fd.get? name)))) } := modify_eq_set _ hi
        refine ⟨_, hI.set (gi := g i) hI.cache hcl rfl rfl (fun _ _ _ e => by cases e; have := hI.sub i cl _ _ _ hi hcur; exact this), fun cls1 h1 => ?_⟩
        have h1 : TrimCs _ ({ s.d with mem := { s.d.mem with docCells := Ref.upd s.d.mem.docCells ⟨id, s.d.mem.next⟩ fd, next := s.d.mem.next + 1 } }.handoff i (some (.read ids name (.put id ⟨id, s.d.mem.next⟩ todo (CDisk.found out id (fd.get? name)))))).clients cls1 := h1
        rw [hcl] at h1
        obtain ⟨⟨yt, yc⟩, ⟨k1, k2⟩, k3⟩ := pull hi h1
        cases k2 with
        | @read _ _ _ l' hl' =>
        cases hl' with
        | @put _ _ _ t' _ hs =>
        obtain ⟨j1, j2, j3⟩ := k3 ⟨yt, some (.read (g i ++ rem (.load id t' out)) name (.load id t' out))⟩ ⟨k1, by rw [hcur]; exact .read (.load hs)⟩
        refine ⟨_, j1, fun ans m sv ha hm => ⟨[.client i k], ans, m, sv, brun_one.2 ?_, ha, hm, opened_one (fun _ _ e => by cases e)⟩⟩
        rw [red (patch s _ ans m sv) _ _ _ rfl j2 rfl, if_pos hu]
        simp only [readDoc, patch, hl, CDisk.handoff, patchC]
        rw [modify_eq_set _ j2, List.set_set]
        rw [List.set_set] at j3
        have : g i ++ rem (.load id t' out) = g i ++ rem (.put id ⟨id, s.d.mem.next⟩ t' (CDisk.found out id (fd.get? name))) := rfl
        simp only [this, j3]
  · cases h

/-- a document that cannot be read. -/
theorem readError_sim {R : Prop} {as : List FAct} {g : Nat → List String} {s s1 : BDisk} {i : Nat} (hI : FInv g s.d) (h : s.fexec z root (.readError i) = some s1) :
    ∃ g1, FInv g1 s1.d ∧ Sim z root R as g s g1 s1 := by
  simp only [fexec] at h
  split at h
  · rename_i ids name id todo out hc
    obtain ⟨cl, hi, hcur⟩ := curOf_some hc
    split at h
    · rename_i hu
      cases h
      have hcl : (s.d.handoff i (some (.read ids name (.get todo out)))).clients = s.d.clients.set i { cl with cur := some (.read ids name (.get todo out)) } := modify_eq_set _ hi
      refine ⟨_, hI.set (gi := g i) hI.cache hcl rfl rfl (fun _ _ _ e => by
        cases e
        exact List.Sublist.trans ((List.Sublist.refl _).append (List.sublist_cons_self _ _)) (hI.sub i cl _ _ _ hi hcur)), fun cls1 h1 => ?_⟩
      have h1 : TrimCs _ (s.d.handoff i (some (.read ids name (.get todo out)))).clients cls1 := h1
      rw [hcl] at h1
      obtain ⟨⟨yt, yc⟩, ⟨k1, k2⟩, k3⟩ := pull hi h1
      cases k2 with
      | @read _ _ _ l' hl' =>
      cases hl' with
      | @get _ t' _ hs =>
      obtain ⟨j1, j2, j3⟩ := k3 ⟨yt, some (.read (g i ++ rem (.get t' out)) name (.get t' out))⟩ ⟨k1, by rw [hcur]; exact .read (.skip hs)⟩
      refine ⟨_, j1, fun ans m sv ha hm => ⟨[], ans, m, sv, ?_, ha, hm, opened_nil _⟩⟩
      rw [List.set_set] at j3
      simp only [j3]
      rfl
    · cases h
  · cases h

/-- NewDiskStore. -/
theorem openRest_exact {R : Prop} {g : Nat → List String} {s s1 : BDisk} {n : Int} {progs : List (List DOp)} (h : s.exec z root (.openRest n progs) = some s1) :
    FInv (fun _ => []) s1.d ∧ ∀ cls1, TrimCs (fun _ => []) s1.d.clients cls1 → ∀ ans m sv, TrimA s.d.answers ans → At R s m sv →
      ∃ progs' ans1 m1 sv1, (patch s (canon g s.d.clients) ans m sv).exec z root (.openRest n progs') = some (patch s1 cls1 ans1 m1 sv1) ∧ TrimA s1.d.answers ans1 ∧ At R s1 m1 sv1 ∧
        List.Forall₂ (List.Forall₂ TrimO) progs progs' := by
  simp only [exec] at h
  split at h
  · rename_i hg
    split at h
    · rename_i size length nft e1 e2
      cases h
      refine ⟨⟨LRU.ok_new n, fun _ => by rw [show s.d.ix.proc = .up from hg.1]; exact (fun e => by cases e), fun i cl ids name l hi hc => ?_⟩, fun cls1 h1 => ?_⟩
      · simp only [List.getElem?_map, Option.map_eq_some_iff] at hi
        obtain ⟨p, -, rfl⟩ := hi
        cases hc
      · refine fun ans m sv ha hm => ⟨cls1.map DClient.todo, ans, m, sv, ?_, ha, hm, ?_⟩
        · have : (cls1.map DClient.todo).map (fun p => ({ todo := p } : DClient)) = cls1 := by
            rw [List.map_map]
            conv_rhs => rw [← List.map_id cls1]
            refine List.map_congr_left fun c hc => ?_
            obtain ⟨i, hi, rfl⟩ := List.mem_iff_getElem.1 hc
            have hi' : i < (progs.map fun p => ({ todo := p } : DClient)).length := by rw [← h1.length]; exact hi
            have hi2 : i < progs.length := by simpa using hi'
            have := trimC_none (h1.each i ⟨progs[i], none⟩ cls1[i] (by simp [hi2]) (by simp [hi])).cur
            show ({ todo := cls1[i].todo } : DClient) = cls1[i]
            cases e : cls1[i] with
            | mk a b => rw [e] at this; cases this; rfl
          simp [exec, patch, patchC, hg.1, hg.2, e1, e2, this]
        · rw [List.forall₂_iff_get]
          refine ⟨by rw [List.length_map, h1.length, List.length_map], fun i hi hi' => ?_⟩
          have hlt : i < cls1.length := by simpa using hi'
          have := (h1.each i ⟨progs[i], none⟩ cls1[i] (by simp [hi]) (by simp [hlt])).todo
          simpa using this
    · cases h
      refine ⟨kill_inv s _, fun cls1 h1 => ?_⟩
      have : cls1 = [] := trimCs_nil h1
      subst this
      rename_i hx
      refine fun ans m sv ha hm => ⟨progs, [], .idle, none, ?_, .nil, .inl ⟨rfl, rfl⟩, List.forall₂_same.2 fun p _ => List.forall₂_same.2 fun o _ => .refl o⟩
      have e : ∀ t : BDisk, t.fs = s.fs → t.d.ix.proc = .up ∧ t.d.up = false → t.exec z root (.openRest n progs) = some t.kill := by
        intro t h1 h2
        simp only [exec]
        rw [if_pos h2, h1]
        split
        · rename_i e1 e2; exact absurd e2 (hx _ _ _ e1)
        · rfl
      exact e (patch s _ ans m sv) rfl hg
  · cases h

theorem openRest_sim' {R : Prop} {g : Nat → List String} {s s1 : BDisk} {n : Int} {progs : List (List DOp)} (h : s.exec z root (.openRest n progs) = some s1) :
    ∃ g1, FInv g1 s1.d ∧ Sim z root R [.ok (.openRest n progs)] g s g1 s1 := by
  obtain ⟨h1, h2⟩ := openRest_exact (R := R) (g := g) h
  refine ⟨_, h1, fun cls1 k1 => ⟨_, canon_trim g _, fun ans m sv ha hm => ?_⟩⟩
  obtain ⟨progs', ans1, m1, sv1, k2, k3, k4, k5⟩ := h2 cls1 k1 ans m sv ha hm
  refine ⟨[.openRest n progs'], ans1, m1, sv1, brun_one.2 k2, k3, k4, fun n' p' hp => ?_⟩
  cases List.mem_singleton.1 hp
  exact ⟨progs, List.mem_singleton.2 rfl, k5⟩

/-- a failed merge: it does not go on. -/
theorem loadError_sim {R : Prop} {as : List FAct} {g : Nat → List String} {s : BDisk} {b : Bool} (hI : FInv g s.d) (hp : s.d.ix.proc ≠ .down) (hb : s.mergeAt b = true) (hR : b = true → R) :
    ∃ g1, FInv g1 s.loadError.d ∧ Sim z root R as g s g1 s.loadError := by
  by_cases ho : s.d.ix.proc = .opening
  · have e : s.loadError = s.kill := by unfold loadError; rw [if_pos ho]
    rw [e]
    exact ⟨g, kill_inv s g, killed_sim (a := .crash) (fun _ _ e => by cases e) fun ans m sv _ => if_neg hp⟩
  · have e : s.loadError = { s with d := { s.d with ix := { s.d.ix with merger := .dead } }, saveI := none } := by unfold loadError; rw [if_neg ho]
    rw [e]
    have hup : s.d.ix.proc = .up := by
      cases h : s.d.ix.proc with
      | up => rfl
      | down => exact absurd h hp
      | opening => exact absurd h ho
    have hnd : s.d.ix.merger ≠ .dead := by
      intro e
      unfold mergeAt at hb
      rw [e] at hb
      cases hb
    refine ⟨g, ⟨hI.cache, hI.proc, hI.sub⟩, fun cls1 h1 => ⟨cls1, h1, fun ans m sv ha hm => ⟨[], ans, m, sv, rfl, ha, .inr ⟨rfl, hup, ?_⟩, opened_nil _⟩⟩⟩
    obtain ⟨rfl, rfl⟩ := hm.resolve_right fun h => hnd h.1
    cases b with
    | true => exact .inl (hR rfl)
    | false =>
      right
      intro c hc
      unfold mergeAt at hb
      rw [hc] at hb
      revert hb
      cases s.d.ix.merger with
      | atField rest acc => cases rest <;> exact fun h => by cases h
      | reading f rest seen toRead td acc => cases toRead <;> exact fun h => by cases h
      | deleting f rest toDel acc => cases toDel <;> exact fun h => by cases h
      | _ => exact fun h => by cases h

/-- **every step.** -/
theorem fstep {R : Prop} {g : Nat → List String} {s s1 : BDisk} {a : FAct} (hI : FInv g s.d) (hR : a = .renameError → R) (h : s.fexec z root a = some s1) :
    ∃ g1, FInv g1 s1.d ∧ Sim z root R [a] g s g1 s1 := by
  cases a with
  | mergeError =>
    simp only [fexec] at h
    split at h
    · rename_i hg
      cases h
      exact loadError_sim hI hg.1 hg.2 (fun e => by cases e)
    · cases h
  | renameError =>
    simp only [fexec] at h
    split at h
    · rename_i hg
      cases h
      exact loadError_sim hI hg.1 hg.2 (fun _ => hR rfl)
    · cases h
  | readError i => exact readError_sim hI h
  | fatal =>
    simp only [fexec] at h
    split at h
    · rename_i hg
      cases h
      exact ⟨g, kill_inv s g, killed_sim (a := .crash) (fun _ _ e => by cases e) fun ans m sv _ => if_neg hg⟩
    · cases h
  | ok a =>
    have h : s.exec z root a = some s1 := h
    cases a with
    | client i k =>
      by_cases hl : ∀ cl, s.d.clients[i]? = some cl → NoLoad cl.cur
      · rw [exec_client hl] at h
        obtain ⟨d1, hd, rfl⟩ := Option.map_eq_some_iff.1 h
        exact (client_patch hI (exec_step hd) hl).sim (fun _ _ e => by cases e) fun t ht => exec_client ht
      · obtain ⟨cl, hl⟩ := not_forall.1 hl
        obtain ⟨hi, hl⟩ := Classical.not_imp.1 hl
        have hl : ¬ ∀ ids name id todo out, cl.cur ≠ some (.read ids name (.load id todo out)) := hl
        simp only [not_forall, not_not] at hl
        obtain ⟨ids, name, id, todo, out, hc⟩ := hl
        exact load_sim (ids := ids) (name := name) (id := id) (todo := todo) (out := out) hI (by simp only [CDisk.curOf, hi, Option.bind_some, hc]) h
    | recvM i =>
      obtain ⟨d1, hd, rfl⟩ := Option.map_eq_some_iff.1 h
      exact (recv_patch (.inl rfl) hI (exec_step hd)).sim (fun _ _ e => by cases e) fun t _ => rfl
    | recvN i =>
      obtain ⟨d1, hd, rfl⟩ := Option.map_eq_some_iff.1 h
      exact (recv_patch (.inr (.inl rfl)) hI (exec_step hd)).sim (fun _ _ e => by cases e) fun t _ => rfl
    | recvD i =>
      obtain ⟨d1, hd, rfl⟩ := Option.map_eq_some_iff.1 h
      exact (recv_patch (.inr (.inr rfl)) hI (exec_step hd)).sim (fun _ _ e => by cases e) fun t _ => rfl
    | ix a => exact (ix_plain hI h).sim (fun _ _ e => by cases e) hI
    | tickM order => exact (tick_plain (.inl rfl) h).sim (fun _ _ e => by cases e) hI
    | tickN order => exact (tick_plain (.inr (.inl rfl)) h).sim (fun _ _ e => by cases e) hI
    | tickD order => exact (tick_plain (.inr (.inr rfl)) h).sim (fun _ _ e => by cases e) hI
    | stepM => exact (stepM_plain h).sim (fun _ _ e => by cases e) hI
    | stepN => exact (stepN_plain h).sim (fun _ _ e => by cases e) hI
    | stepD => exact (stepD_plain h).sim (fun _ _ e => by cases e) hI
    | crash => exact (crash_plain h).sim (fun _ _ e => by cases e) hI
    | open_ => exact (open_plain h).sim (fun _ _ e => by cases e) hI
    | openRest n progs => exact openRest_sim' h

theorem frun_cons {s s' : BDisk} {a : FAct} {as : List FAct} : s.frun z root (a :: as) = some s' ↔ ∃ t, s.fexec z root a = some t ∧ t.frun z root as = some s' := by
  simp only [frun, List.foldlM_cons, Option.bind_eq_bind, Option.bind_eq_some_iff]

theorem frun_append {s s' : BDisk} {as bs : List FAct} : s.frun z root (as ++ bs) = some s' ↔ ∃ t, s.frun z root as = some t ∧ t.frun z root bs = some s' := by
  simp only [frun, List.foldlM_append, Option.bind_eq_bind, Option.bind_eq_some_iff]

theorem Sim.refl {R : Prop} {g : Nat → List String} (s : BDisk) : Sim z root R [] g s g s :=
  fun cls1 h1 => ⟨cls1, h1, fun ans m sv ha hm => ⟨[], ans, m, sv, rfl, ha, hm, opened_nil _⟩⟩

/-- **every run.** -/
theorem fsim {R : Prop} {as : List FAct} : ∀ {g : Nat → List String} {s s1 : BDisk}, FInv g s.d → (.renameError ∈ as → R) → s.frun z root as = some s1 → ∃ g1, FInv g1 s1.d ∧ Sim z root R as g s g1 s1 := by
  induction as with
  | nil => intro g s s1 hI _ h; cases h; exact ⟨g, hI, .refl s⟩
  | cons a as ih =>
    intro g s s1 hI hR h
    obtain ⟨t, h1, h2⟩ := frun_cons.1 h
    obtain ⟨g1, i1, k1⟩ := fstep (z := z) (root := root) hI (fun e => hR (by rw [e]; exact List.mem_cons_self)) h1
    obtain ⟨g2, i2, k2⟩ := ih i1 (fun e => hR (List.mem_cons_of_mem _ e)) h2
    exact ⟨g2, i2, k1.trans k2⟩

theorem finv_init (fs : FS) : FInv (fun _ => []) ({ fs := fs } : BDisk).d :=
  ⟨LRU.ok_new 0, (fun h => by cases h), (fun i cl ids name l h => by simp at h)⟩

end BDisk
end Goir
