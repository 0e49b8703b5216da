import Verif.Lemmas.Docs
import Verif.Props.Counters
import Mathlib.Data.Finset.Card
import Mathlib.Data.Finset.Dedup
/-!
# C24–C27, C33, C75, C76: the documents of the disk store

Statements about `DcState.run {} as`: any sequence of client calls, writer steps, crashes and openings starting from an empty
folder.  `Spec.latest as d name` is the field of the last save of `d` under `name` in `as`.
-/
namespace Goir
open GoMap DcState Flusher Spec
namespace DcState

theorem exec_read {s s' : DcState} {d name : String} {x : Option Field} (hu : s.up = true) (hs : s.send = none)
    (h : s.getField d name = some (s', x)) : s.exec (.read d) = some s' := by
  have := getField_state s d name
  rw [h] at this
  simp only [exec, hu, hs, Option.isNone_none, Bool.and_self, if_true]
  rw [← this]; rfl

/-- what `GetFields` collects, when the answer of every iteration is known. -/
theorem getFields_exact {P : DcState → Prop} {name : String} {val : String → Option Field} (ids : List String)
    (hP : ∀ t d, d ∈ ids → P t → ∃ t', t.getField d name = some (t', val d) ∧ P t') {s : DcState} (hs : P s) :
    ∃ s' out, s.getFields ids name = some (s', out) ∧ P s' ∧ ∀ d, out.get? d = if d ∈ ids then val d else none := by
  induction ids using List.reverseRecOn with
  | nil => exact ⟨s, [], rfl, hs, fun d => rfl⟩
  | append_singleton ids d ih =>
    obtain ⟨s1, out, h1, h2, h3⟩ := ih fun t d hd ht => hP t d (List.mem_append_left _ hd) ht
    obtain ⟨s2, h4, h5⟩ := hP s1 d (by simp) h2
    have hx : s.getFields (ids ++ [d]) name = some (s2, match val d with | some f => out.set d f | none => out) := by
      unfold getFields at h1 ⊢
      rw [List.foldlM_append, h1]
      cases hv : val d <;> simp [h4, hv]
    refine ⟨s2, _, hx, h5, fun j => ?_⟩
    cases hv : val d with
    | none =>
      simp only [h3 j, List.mem_append, List.mem_singleton]
      by_cases hj : j = d
      · subst hj; simp [hv]
      · simp [hj]
    | some f =>
      simp only [get?_set, h3 j, List.mem_append, List.mem_singleton]
      by_cases hj : d = j
      · subst hj; simp [hv]
      · have : ¬ j = d := fun e => hj e.symm
        simp [hj, this]

/-- what `GetFields` collects, when something is known of whatever an iteration finds. -/
theorem getFields_src {P : DcState → Prop} {Q : String → Field → Prop} {name : String} (ids : List String)
    (hP : ∀ t d t' x, P t → t.getField d name = some (t', x) → P t' ∧ ∀ f, x = some f → Q d f) {s s' : DcState} {out : GoMap String Field}
    (hs : P s) (h : s.getFields ids name = some (s', out)) : P s' ∧ ∀ d f, out.get? d = some f → d ∈ ids ∧ Q d f := by
  induction ids using List.reverseRecOn generalizing s' out with
  | nil => cases h; exact ⟨hs, fun d f hf => by cases hf⟩
  | append_singleton ids d ih =>
    unfold getFields at h ih
    rw [List.foldlM_append] at h
    simp only [Option.bind_eq_bind, Option.bind_eq_some_iff] at h
    obtain ⟨⟨s1, out1⟩, h1, h2⟩ := h
    obtain ⟨h3, h4⟩ := ih h1
    simp only [List.foldlM_cons, List.foldlM_nil, Option.bind_eq_bind, Option.bind_eq_some_iff, Option.map_eq_some_iff] at h2
    obtain ⟨q, ⟨⟨s2, x⟩, h5, rfl⟩, h6⟩ := h2
    cases h6
    obtain ⟨h7, h8⟩ := hP s1 d s2 x h3 h5
    refine ⟨h7, fun j f hf => ?_⟩
    cases x with
    | none =>
      obtain ⟨g1, g2⟩ := h4 j f hf
      exact ⟨List.mem_append_left _ g1, g2⟩
    | some g =>
      simp only [get?_set] at hf
      split at hf
      · rename_i e; cases hf; subst e; exact ⟨by simp, h8 _ rfl⟩
      · obtain ⟨g1, g2⟩ := h4 j f hf
        exact ⟨List.mem_append_left _ g1, g2⟩

end DcState

/-! ### C25 -/

/-- One iteration of GetFields, in any reachable state: what it finds was saved for that document and name, in this process or an
earlier one; if it came from a file its numbers may have been cut to 32 bits (C34). -/
theorem c25_found_was_saved {as : List Act} {s s' : DcState} (h : run {} as = some s) (hg : GoFields as) {d name : String} {f : Field}
    (hf : s.getField d name = some (s', some f)) : ∃ g, Act.save d g ∈ as ∧ g.name = name ∧ (f = g ∨ f = cutField g) := by
  have hi := run_inv h hg
  cases getField_spec hi.lok hf with
  | hit r c hv hok hval hcap e hx =>
    obtain ⟨-, g, h1⟩ := (hi.own d r (.inl hv)).2.src name f hx.symm
    exact ⟨g, h1⟩
  | absent hv hc e hx => cases hx
  | loaded m b c hv hc hm hok hd hcap hval e hx =>
    obtain ⟨b', hb, m', hm', hl⟩ := hi.files d _ hc
    cases hb
    rw [hm] at hm'; cases hm'
    obtain ⟨-, g, h1⟩ := hl.src name f hx.symm
    exact ⟨g, h1⟩

/-- The whole call: GetFields returns only requested documents, each with a field that was saved for it under that name. -/
theorem c25_getFields_never_invents {as : List Act} {s s' : DcState} (h : run {} as = some s) (hg : GoFields as) (hu : s.up = true)
    (hs : s.send = none) {ids : List String} {name : String} {out : GoMap String Field} (hf : s.getFields ids name = some (s', out)) :
    ∀ d f, out.get? d = some f → d ∈ ids ∧ ∃ g, Act.save d g ∈ as ∧ g.name = name ∧ (f = g ∨ f = cutField g) := by
  have saves : ∀ bs : List Act, (∀ a ∈ bs, ∃ d, a = .read d) → ∀ d g, Act.save d g ∈ as ++ bs → Act.save d g ∈ as := by
    intro bs hb d g hm
    rcases List.mem_append.1 hm with hm | hm
    · exact hm
    · obtain ⟨_, e⟩ := hb _ hm; cases e
  refine (getFields_src (P := fun t => t.up = true ∧ t.send = none ∧ ∃ bs, run {} (as ++ bs) = some t ∧ ∀ a ∈ bs, ∃ d, a = .read d) ids ?_
    ⟨hu, hs, [], by simpa using h, by simp⟩ hf).2
  rintro t d t' x ⟨h1, h2, bs, h3, h4⟩ hx
  have hgo : GoFields (as ++ bs) := fun d f hm => hg d f (saves bs h4 d f hm)
  refine ⟨⟨?_, ?_, bs ++ [.read d], ?_, ?_⟩, ?_⟩
  · cases getField_spec (run_inv h3 hgo).lok hx with
    | hit r c hv hok hval hcap e hx => subst e; exact h1
    | absent hv hc e hx => subst e; exact h1
    | loaded m b c hv hc hm hok hd hcap hval e hx => subst e; exact h1
  · cases getField_spec (run_inv h3 hgo).lok hx with
    | hit r c hv hok hval hcap e hx => subst e; exact h2
    | absent hv hc e hx => subst e; exact h2
    | loaded m b c hv hc hm hok hd hcap hval e hx => subst e; exact h2
  · rw [← List.append_assoc]; exact run_snoc.2 ⟨t, h3, exec_read h1 h2 hx⟩
  · intro a ha
    rcases List.mem_append.1 ha with ha | ha
    · exact h4 a ha
    · exact ⟨d, by simpa using ha⟩
  · rintro f rfl
    obtain ⟨g, g1, g2⟩ := c25_found_was_saved h3 hgo hx
    exact ⟨g, saves bs h4 d g g1, g2⟩

/-- a document field used in the examples. -/
abbrev demoField (name : String) (n : Int) : Field := ⟨name, n, [("go", n)]⟩

/-- the writer flushes a buffer with one document. -/
abbrev flush1 (d : String) : List Act := [.tick [d], .step, .step, .step, .step, .step, .step, .step, .step]

-- a field found after an eviction, a flush, a crash and a restart
example : ∃ s, run {} ([.open_ 1, .save "a" (demoField "title" 1), .recv] ++ flush1 "a" ++
      [.save "b" (demoField "title" 2), .recv, .crash, .open_ 1]) = some s ∧
    s.up = true ∧ s.send = none ∧ (s.getFields ["a", "b"] "title").map Prod.snd = some [("a", demoField "title" 1)] :=
  exists_of_run (by decide +kernel)

example : GoFields ([.open_ 1, .save "a" (demoField "title" 1), .recv] ++ flush1 "a" ++
      [.save "b" (demoField "title" 2), .recv, .crash, .open_ 1]) := by
  intro d f h; simp at h; rcases h with ⟨rfl, rfl⟩ | ⟨rfl, rfl⟩ <;> decide

/-! ### C24 -/

namespace DcState

/-- while nothing has been evicted: every saved document is in the cache with its latest fields. -/
structure FreshInv (n : Int) (as : List Act) (s : DcState) : Prop where
  up : s.up = true
  cap : s.cache.capacity = n
  all : ∀ d, d ∈ savedDocs as → ∃ r, s.cache.val d = some r ∧ ∀ name, (s.deref r).get? name = latest as d name

theorem cached_saved {as : List Act} {s : DcState} (h : Inv as s) {d : String} {r : Nat} (hv : s.cache.val d = some r) : d ∈ savedDocs as :=
  (h.own d r (.inl hv)).2.doc

theorem pages_le_saved {as : List Act} {s : DcState} (h : Inv as s) : s.cache.pages.length ≤ (savedDocs as).toFinset.card := by
  have := LRU.pages_le h.lok (savedDocs as).dedup fun k v hv => List.mem_dedup.2 (cached_saved h hv)
  rwa [List.card_toFinset]

/-- a save of a new document finds room. -/
theorem room {as : List Act} {s : DcState} (h : Inv as s) {n : Int} {d : String} {f : Field} (hd : d ∉ savedDocs as)
    (hn : ((savedDocs (as ++ [.save d f])).toFinset.card : Int) ≤ n) : ¬ (s.cache.pages.length : Int) ≥ n := by
  have h1 := pages_le_saved h
  have h2 : (savedDocs (as ++ [.save d f])).toFinset = insert d (savedDocs as).toFinset := by
    rw [savedDocs_snoc]; ext x; simp
  rw [h2, Finset.card_insert_of_notMem (by simpa using hd)] at hn
  push_cast at hn
  omega

theorem freshInv_exec {n : Int} {as : List Act} {s s' : DcState} {a : Act} (hi : Inv as s) (h : FreshInv n as s) (ha : a ≠ .crash)
    (hn : ((savedDocs (as ++ [a])).toFinset.card : Int) ≤ n) (he : s.exec a = some s') :
    FreshInv n (as ++ [a]) s' ∧ Keeps as s a s' := by
  have evi : (∀ d, s.cache.val d = none → d ∈ savedDocs as → False) := by
    intro d hv hd
    obtain ⟨r, hr, -⟩ := h.all d hd
    rw [hv] at hr; cases hr
  -- nothing leaves the cache if no value disappears
  have leave : (∀ j r, s.cache.val j = some r → ∃ r', s'.cache.val j = some r') → ∀ d, Cached s d → ¬ Cached s' d → Synced s d := by
    intro hs d hc hn
    obtain ⟨r, hr⟩ := (cached_iff s d).1 hc
    obtain ⟨r', hr'⟩ := hs d r hr
    exact absurd ((cached_iff s' d).2 ⟨r', hr'⟩) hn
  have other : (∀ d f, a ≠ .save d f) → savedDocs (as ++ [a]) = savedDocs as ∧ ∀ d name, latest (as ++ [a]) d name = latest as d name := by
    intro hs
    refine ⟨?_, fun d name => latest_other as a hs d name⟩
    rw [savedDocs_snoc]
    cases a <;> first | exact absurd rfl (hs _ _) | simp
  -- a step that leaves cache values and heap alone
  have quiet : (∀ d f, a ≠ .save d f) → s'.up = true → (∀ j, s'.cache.val j = s.cache.val j) → s'.cache.capacity = s.cache.capacity →
      s'.heap = s.heap → FreshInv n (as ++ [a]) s' ∧ Keeps as s a s' := by
    intro hs hu hv hc hh
    obtain ⟨o1, o2⟩ := other hs
    refine ⟨⟨hu, hc.trans h.cap, fun d hd => ?_⟩, leave fun j r hr => ⟨r, (hv j).trans hr⟩, fun d f e => absurd e (hs d f)⟩
    rw [o1] at hd
    obtain ⟨r, g1, g2⟩ := h.all d hd
    refine ⟨r, (hv d).trans g1, fun name => ?_⟩
    rw [o2]; unfold deref; rw [hh]; exact g2 name
  cases a with
  | save d f =>
    simp only [exec] at he; split at he
    · rename_i hu
      have hdocs : ∀ j, j ∈ savedDocs (as ++ [.save d f]) ↔ j ∈ savedDocs as ∨ j = d := by intro j; rw [savedDocs_snoc]; simp
      cases save_spec hi.lok he with
      | hit r c hv hok hval hcap e =>
        subst e
        have hr := (hi.own d r (.inl hv)).1
        have hd := cached_saved hi hv
        refine ⟨⟨h.up, hcap.trans h.cap, fun j hj => ?_⟩, leave fun j r hr => ⟨r, (hval j).trans hr⟩, fun d' f' e => ?_⟩
        · have hj : j ∈ savedDocs as := by
            rcases (hdocs j).1 hj with hj | rfl
            · exact hj
            · exact hd
          obtain ⟨x, g1, g2⟩ := h.all j hj
          refine ⟨x, (hval j).trans g1, fun name => ?_⟩
          show ((s.heap.set r ((s.deref r).set f.name f)).getD x []).get? name = _
          rw [deref_set hr, latest_save]
          by_cases hjd : d = j
          · subst hjd
            rw [hv] at g1; cases g1
            simp only [if_true, get?_set, true_and]
            split
            · rfl
            · exact g2 name
          · have : ¬ r = x := by rintro rfl; exact hjd (hi.uniq _ _ _ (.inl hv) (.inl g1))
            rw [if_neg this, if_neg (fun e => hjd e.1)]; exact g2 name
        · cases e; exact .inl ((cached_iff s d).2 ⟨r, hv⟩)
      | miss c hv hok hd hcap hval e =>
        have hnew : d ∉ savedDocs as := fun hd => evi d hv hd
        have hroom := room hi hnew hn
        have hval : ∀ j, j ≠ d → c.val j = s.cache.val j := by
          rcases hval with hval | ⟨g, -⟩
          · exact hval
          · rw [h.cap] at g; exact absurd g hroom
        subst e
        refine ⟨⟨h.up, hcap.trans h.cap, fun j hj => ?_⟩, leave fun j r hr => ?_, fun d' f' e => ?_⟩
        · by_cases hjd : j = d
          · subst hjd
            refine ⟨_, hd, fun name => ?_⟩
            show ((s.heap ++ [GoMap.set [] f.name f]).getD s.heap.length []).get? name = _
            rw [deref_append_self, latest_save, get?_set, latest_unsaved hnew]
            simp
          · obtain ⟨x, g1, g2⟩ := h.all j (((hdocs j).1 hj).resolve_right hjd)
            refine ⟨x, (hval j hjd).trans g1, fun name => ?_⟩
            show ((s.heap ++ [GoMap.set [] f.name f]).getD x []).get? name = _
            rw [deref_append (hi.own j x (.inl g1)).1, latest_save, if_neg (fun e => hjd e.1.symm)]
            exact g2 name
        · have hj : j ≠ d := by rintro rfl; rw [hv] at hr; cases hr
          exact ⟨r, (hval j hj).trans hr⟩
        · cases e; exact .inr hnew
    · cases he
  | recv =>
    simp only [exec] at he; split at he
    · cases he
    · simp only [Option.map_eq_some_iff] at he
      obtain ⟨fl, hr, rfl⟩ := he
      exact quiet (fun _ _ e => by cases e) h.up (fun _ => rfl) rfl rfl
  | read d =>
    simp only [exec] at he; split at he
    · simp only [Option.map_eq_some_iff] at he
      obtain ⟨⟨t, x⟩, hgf, rfl⟩ := he
      cases getField_spec hi.lok hgf with
      | hit r c hv hok hval hcap e hx => subst e; exact quiet (fun _ _ e => by cases e) h.up hval hcap rfl
      | absent hv hc e hx => subst e; exact quiet (fun _ _ e => by cases e) h.up (fun _ => rfl) rfl rfl
      | loaded m b c hv hc hm hok hd hcap hval e hx =>
        obtain ⟨b', hb, m', hm', hl⟩ := hi.files d _ hc
        exact absurd hl.doc (fun hd => evi d hv hd)
    · cases he
  | tick order =>
    simp only [exec] at he; split at he
    · simp only [Option.map_eq_some_iff] at he
      obtain ⟨fl, hr, rfl⟩ := he
      exact quiet (fun _ _ e => by cases e) h.up (fun _ => rfl) rfl rfl
    · cases he
  | step =>
    simp only [exec, Option.map_eq_some_iff] at he
    obtain ⟨fl, hr, rfl⟩ := he
    exact quiet (fun _ _ e => by cases e) h.up (fun _ => rfl) rfl rfl
  | crash => exact absurd rfl ha
  | open_ m =>
    simp only [exec, h.up, if_true] at he; cases he

theorem run_cons {s s' : DcState} {a : Act} {as : List Act} :
    s.run (a :: as) = some s' ↔ ∃ t, s.exec a = some t ∧ t.run as = some s' := by
  unfold run
  rw [List.foldlM_cons]
  cases h : s.exec a <;> simp

theorem savedDocs_open (n : Int) (as : List Act) : savedDocs (.open_ n :: as) = savedDocs as := rfl

theorem latest_open (n : Int) (as : List Act) (d name : String) : latest (.open_ n :: as) d name = latest as d name := by
  unfold latest
  rw [List.reverse_cons, List.findSome?_append]
  simp

/-- a run of a fresh store with at most `n` documents. -/
theorem fresh_run {n : Int} {as : List Act} {s : DcState} (h : run {} (.open_ n :: as) = some s) (hc : Act.crash ∉ as)
    (hd : ((savedDocs as).toFinset.card : Int) ≤ n) (hg : GoFields as) :
    FreshInv n (.open_ n :: as) s ∧ Orderly (.open_ n :: as) s := by
  obtain ⟨t, h1, h2⟩ := run_cons.1 h
  have h0 : FreshInv n [.open_ n] t ∧ Orderly [.open_ n] t := by
    have ht : ({ up := true, cache := LRU.new n } : DcState) = t := by simpa [exec] using h1
    subst ht
    refine ⟨⟨rfl, rfl, fun d hd => by cases hd⟩, .snoc (as := []) .nil h1 ⟨fun d hcd => ?_, fun d f e => by cases e⟩⟩
    obtain ⟨r, hr⟩ := (cached_iff _ d).1 hcd
    rw [show ({} : DcState).cache = LRU.new 0 from rfl, LRU.val_new] at hr; cases hr
  revert hc hd hg
  refine run_induction (P := fun as s => Act.crash ∉ as → ((savedDocs as).toFinset.card : Int) ≤ n → GoFields as →
    FreshInv n (.open_ n :: as) s ∧ Orderly (.open_ n :: as) s) (fun _ _ _ => h0) ?_ h2
  intro as s a s' hr ih he hc hd hg
  have hsub : (savedDocs as).toFinset ⊆ (savedDocs (as ++ [a])).toFinset := by
    intro x hx; rw [savedDocs_snoc]; simp at hx ⊢; exact .inl hx
  have hcard := Finset.card_le_card hsub
  obtain ⟨i1, i2⟩ := ih (fun hx => hc (List.mem_append_left _ hx)) (by omega) (goFields_snoc hg)
  have hgo : GoFields (.open_ n :: as) := by
    intro d f hm
    rcases List.mem_cons.1 hm with e | hm
    · cases e
    · exact goFields_snoc hg d f hm
  have hinv := run_inv i2.run hgo
  obtain ⟨j1, j2⟩ := freshInv_exec hinv i1 (fun e => hc (by rw [e]; simp)) (by rw [List.cons_append, savedDocs_open]; exact hd) he
  exact ⟨j1, .snoc i2 he j2⟩

theorem freshInv_getField {n : Int} {as : List Act} {s : DcState} (hi : Inv as s) (h : FreshInv n as s) (d name : String) :
    ∃ s', s.getField d name = some (s', latest as d name) := by
  have hval : s.cache.val d = (s.cache.get d).2 := rfl
  cases hv : s.cache.val d with
  | some r =>
    obtain ⟨r', g1, g2⟩ := h.all d (cached_saved hi hv)
    rw [hv] at g1; cases g1
    rw [hv] at hval
    cases hg : s.cache.get d with
    | mk c x =>
      rw [hg] at hval
      simp only at hval
      subst hval
      refine ⟨{ s with cache := c }, ?_⟩
      unfold getField; rw [hg]; simp only; rw [g2]
  | none =>
    have hnew : d ∉ savedDocs as := by
      intro hd
      obtain ⟨r, hr, -⟩ := h.all d hd
      rw [hv] at hr; cases hr
    have hcur : (s.fl.file d).cur = none := by
      cases hc : (s.fl.file d).cur with
      | none => rfl
      | some c => obtain ⟨b, -, m, -, hl⟩ := hi.files d c hc; exact absurd hl.doc hnew
    rw [hv] at hval
    cases hg : s.cache.get d with
    | mk c x =>
      rw [hg] at hval
      simp only at hval
      subst hval
      refine ⟨{ s with cache := c }, ?_⟩
      unfold getField; rw [hg]; simp only [load, hcur]; rw [latest_unsaved hnew]

end DcState

/-- A fresh store, at most `cacheSize` distinct documents saved, no crash: whatever the writer has done meanwhile, GetFields returns
exactly the latest field of every requested document, and nothing else. -/
theorem c24_latest_field_when_nothing_is_evicted {n : Int} {as : List Act} {s : DcState} (h : run {} (.open_ n :: as) = some s)
    (hc : Act.crash ∉ as) (hd : ((savedDocs as).toFinset.card : Int) ≤ n) (hg : GoFields as) (hs : s.send = none)
    (ids : List String) (name : String) :
    ∃ s' out, s.getFields ids name = some (s', out) ∧ ∀ d, out.get? d = if d ∈ ids then latest as d name else none := by
  let P : DcState → Prop := fun t => t.send = none ∧ ∃ bs, run {} (.open_ n :: (as ++ bs)) = some t ∧ ∀ a ∈ bs, ∃ d, a = Act.read d
  have hstep : ∀ t d, d ∈ ids → P t → ∃ t', t.getField d name = some (t', latest as d name) ∧ P t' := by
    rintro t d - ⟨h1, bs, h2, h3⟩
    have hb : savedDocs (as ++ bs) = savedDocs as ∧ ∀ d name, latest (as ++ bs) d name = latest as d name := by
      clear h2
      induction bs using List.reverseRecOn with
      | nil => simp
      | append_singleton bs a ih =>
        obtain ⟨i1, i2⟩ := ih fun a ha => h3 a (List.mem_append_left _ ha)
        obtain ⟨e, rfl⟩ := h3 a (by simp)
        rw [← List.append_assoc]
        refine ⟨by rw [savedDocs_snoc]; simp [i1], fun d name => ?_⟩
        rw [latest_other _ _ (fun _ _ e => by cases e)]; exact i2 d name
    have hcb : Act.crash ∉ as ++ bs := by
      intro hx
      rcases List.mem_append.1 hx with hx | hx
      · exact hc hx
      · obtain ⟨_, e⟩ := h3 _ hx; cases e
    have hgo : GoFields (as ++ bs) := by
      intro d f hm
      rcases List.mem_append.1 hm with hm | hm
      · exact hg d f hm
      · obtain ⟨_, e⟩ := h3 _ hm; cases e
    have hgo' : GoFields (.open_ n :: (as ++ bs)) := by
      intro d f hm
      rcases List.mem_cons.1 hm with e | hm
      · cases e
      · exact hgo d f hm
    obtain ⟨f1, f2⟩ := fresh_run h2 hcb (by rw [hb.1]; exact hd) hgo
    have hinv := run_inv f2.run hgo'
    obtain ⟨t', ht⟩ := freshInv_getField hinv f1 d name
    rw [latest_open, hb.2] at ht
    refine ⟨t', ht, ?_, bs ++ [.read d], ?_, ?_⟩
    · cases getField_spec hinv.lok ht with
      | hit r c hv hok hval hcap e hx => subst e; exact h1
      | absent hv hc e hx => subst e; exact h1
      | loaded m b c hv hc hm hok hd hcap hval e hx => subst e; exact h1
    · rw [← List.append_assoc, ← List.cons_append]; exact run_snoc.2 ⟨t, h2, exec_read f1.up h1 ht⟩
    · intro a ha
      rcases List.mem_append.1 ha with ha | ha
      · exact h3 a ha
      · exact ⟨d, by simpa using ha⟩
  obtain ⟨s', out, h1, -, h2⟩ := getFields_exact (val := fun d => latest as d name) ids hstep (s := s) ⟨hs, [], by simpa using h, by simp⟩
  exact ⟨s', out, h1, h2⟩

-- two documents, cache of two, one flushed half-way, one saved twice
example : ∃ s, run {} (.open_ 2 :: [.save "a" (demoField "title" 1), .recv, .tick ["a"], .step, .step, .save "b" (demoField "title" 2),
      .step, .step, .step, .step, .step, .step, .recv, .save "a" (demoField "title" 3), .recv]) = some s ∧ s.send = none ∧
    (s.getFields ["b", "a", "c"] "title").map Prod.snd = some [("b", demoField "title" 2), ("a", demoField "title" 3)] :=
  exists_of_run (by decide +kernel)

/-! ### C26 -/

namespace DcState

theorem uncached_synced {as : List Act} {s : DcState} (h : Inv2 as s) {d : String} (hv : s.cache.val d = none) : Synced s d := by
  refine ⟨?_, fun r hr => ?_⟩
  · cases hb : s.fl.buf.get? d with
    | none => rfl
    | some r => have := h.bufc d r hb; rw [hv] at this; cases this
  · have := h.sendc d r hr; rw [hv] at this; cases this

theorem fits_cut {as : List Act} (hf : FieldsFit as) (d name : String) : (latest as d name).map cutField = latest as d name := by
  cases hl : latest as d name with
  | none => rfl
  | some f => exact congrArg some (hf d f (latest_mem hl).1)

end DcState

/-- The partial form of C26: if documents leave the cache only after they were written, and only cached or new documents are saved
(`Orderly`), a read finds the latest field, its numbers perhaps cut to 32 bits. -/
theorem c26_latest_up_to_32_bits_partial {as : List Act} {s s' : DcState} (h : Orderly as s) (hg : GoFields as) {d name : String}
    {x : Option Field} (hx : s.getField d name = some (s', x)) : x = latest as d name ∨ x = (latest as d name).map cutField := by
  have hi := run_inv h.run hg
  have h2 := orderly_inv2 h hg
  cases getField_spec hi.lok hx with
  | hit r c hv hok hval hcap e hx => rw [hx]; exact h2.val d r hv name
  | absent hv hc e hx =>
    rcases h2.stored d (uncached_synced h2 hv) with ⟨h3, -⟩ | ⟨b, m, h3, -⟩
    · left; rw [hx, latest_unsaved h3]
    · rw [hc] at h3; cases h3
  | loaded m b c hv hc hm hok hd hcap hval e hx =>
    rcases h2.stored d (uncached_synced h2 hv) with ⟨-, h3⟩ | ⟨b', m', h3, h4, h5⟩
    · rw [hc] at h3; cases h3
    · rw [hc] at h3; cases h3
      rw [hm] at h4; cases h4
      right; rw [hx]; exact h5 name

/-- ... and exactly the latest field when the numbers fit. -/
theorem c26_latest_when_orderly_partial {as : List Act} {s s' : DcState} (h : Orderly as s) (hg : GoFields as) (hf : FieldsFit as)
    {d name : String} {x : Option Field} (hx : s.getField d name = some (s', x)) : x = latest as d name := by
  rcases c26_latest_up_to_32_bits_partial h hg hx with e | e
  · exact e
  · rw [e, fits_cut hf]

/-- the check that a step is orderly, for examples. -/
def keepsB (as : List Act) (s : DcState) (a : Act) (s' : DcState) : Bool :=
  (s.cache.cache.keys.all fun d => (s'.cache.get d).2.isSome || (s.fl.buf.get? d == none && (match s.send with | some (e, _) => e != d | none => true))) &&
  (match a with
    | .save d _ => (s.cache.get d).2.isSome || !(savedDocs as).contains d
    | _ => true)

/-- run and check every step. -/
def runB : List Act → List Act → DcState → Option DcState
  | _, [], s => some s
  | done, a :: as, s =>
    match s.exec a with
    | none => none
    | some s' => if keepsB done s a s' then runB (done ++ [a]) as s' else none

theorem keeps_of_check {as : List Act} {s s' : DcState} {a : Act} (h : keepsB as s a s' = true) : Keeps as s a s' := by
  unfold keepsB at h
  rw [Bool.and_eq_true, List.all_eq_true] at h
  refine ⟨fun d hc hn => ?_, fun d f e => ?_⟩
  · have hd : d ∈ s.cache.cache.keys := by
      rw [mem_keys_iff]
      unfold Cached LRU.get at hc
      cases hk : s.cache.cache.get? d with
      | none => rw [hk] at hc; exact absurd rfl hc
      | some e => exact ⟨e, rfl⟩
    have := h.1 d hd
    unfold Cached at hn
    simp only [ne_eq, not_not] at hn
    simp only [hn, Option.isSome_none, Bool.false_or, Bool.and_eq_true, beq_iff_eq] at this
    refine ⟨this.1, fun r hr => ?_⟩
    rw [hr] at this
    simp at this
  · subst e
    have := h.2
    simp only [Bool.or_eq_true, Bool.not_eq_true', List.contains_eq_mem, decide_eq_false_iff_not] at this
    rcases this with h1 | h1
    · left; unfold Cached; intro e; rw [e] at h1; cases h1
    · exact .inr h1

theorem orderly_of_runB : ∀ (as done : List Act) (s s' : DcState), Orderly done s → runB done as s = some s' → Orderly (done ++ as) s'
  | [], done, s, s', ho, h => by cases h; simpa using ho
  | a :: as, done, s, s', ho, h => by
    unfold runB at h
    split at h
    · cases h
    · rename_i t he
      split at h
      · rename_i hk
        have := orderly_of_runB as (done ++ [a]) t s' (.snoc ho he (keeps_of_check hk)) h
        simpa using this
      · cases h

-- an orderly run with an eviction, a reload, a crash and a restart: "a" is saved and flushed, evicted by "b", flushed, reloaded
-- with "b" evicted in turn, saved again, flushed; crash; reopened
example : ∃ s, runB [] ([.open_ 1, .save "a" (demoField "title" 1), .recv] ++ flush1 "a" ++ [.save "b" (demoField "title" 2), .recv] ++
      flush1 "b" ++ [.read "a", .save "a" (demoField "body" 3), .recv] ++ flush1 "a" ++ [.crash, .open_ 1]) {} = some s ∧ s.up = true ∧
    (s.getField "a" "title").map Prod.snd = some (some (demoField "title" 1)) ∧
    (s.getField "a" "body").map Prod.snd = some (some (demoField "body" 3)) :=
  exists_of_run (by decide +kernel)

/-- C26 as stated is false: a document that is evicted before the writer has flushed it is not found at all. -/
theorem c26_refuted_missing : ¬ ∀ (as : List Act) (s s' : DcState) (d name : String) (x : Option Field), run {} as = some s →
    s.up = true → s.send = none → GoFields as → FieldsFit as → s.getField d name = some (s', x) → x = latest as d name := by
  intro h
  have key : ∃ s, run {} [.open_ 1, .save "a" (demoField "title" 1), .recv, .save "b" (demoField "title" 2), .recv] = some s ∧
      s.up = true ∧ s.send = none ∧ (s.getField "a" "title").map Prod.snd = some none := exists_of_run (by decide +kernel)
  obtain ⟨s, h1, h2, h3, h4⟩ := key
  obtain ⟨⟨s', x⟩, h5, h6⟩ := Option.map_eq_some_iff.1 h4
  cases h6
  have := h _ s s' "a" "title" _ h1 h2 h3 (by intro d f h; simp at h; rcases h with ⟨rfl, rfl⟩ | ⟨rfl, rfl⟩ <;> decide)
    (by intro d f h; simp at h; rcases h with ⟨rfl, rfl⟩ | ⟨rfl, rfl⟩ <;> decide) h5
  revert this; decide

/-- ... and a document that was reloaded while a newer version was waiting stays old, even after the newer version is written. -/
theorem c26_refuted_stale : ¬ ∀ (as : List Act) (s s' : DcState) (d name : String) (x : Option Field), run {} as = some s →
    s.up = true → s.send = none → s.fl.buf = [] → GoFields as → FieldsFit as → s.getField d name = some (s', x) →
    x = latest as d name := by
  intro h
  have key : ∃ s, run {} ([.open_ 1, .save "a" (demoField "title" 1), .recv] ++ flush1 "a" ++ [.save "a" (demoField "title" 2), .recv,
      .save "b" (demoField "title" 3), .recv, .read "a", .tick ["a", "b"], .step, .step, .step, .step, .step, .step, .step, .step, .step,
      .step, .step, .step, .step, .step, .step]) = some s ∧
      s.up = true ∧ s.send = none ∧ s.fl.buf = [] ∧ (s.getField "a" "title").map Prod.snd = some (some (demoField "title" 1)) :=
    exists_of_run (by decide +kernel)
  obtain ⟨s, h1, h2, h3, h3', h4⟩ := key
  obtain ⟨⟨s', x⟩, h5, h6⟩ := Option.map_eq_some_iff.1 h4
  cases h6
  have := h _ s s' "a" "title" _ h1 h2 h3 h3'
    (by intro d f h; simp at h; rcases h with ⟨rfl, rfl⟩ | ⟨rfl, rfl⟩ | ⟨rfl, rfl⟩ <;> decide)
    (by intro d f h; simp at h; rcases h with ⟨rfl, rfl⟩ | ⟨rfl, rfl⟩ | ⟨rfl, rfl⟩ <;> decide) h5
  revert this; decide

/-! ### C27 -/

/-- The partial form of C27: in orderly runs a save of one field leaves what GetFields finds under every other name, of this and of
every other document, as it was. -/
theorem c27_other_fields_stay_partial {as : List Act} {s s1 s2 s3 : DcState} {d : String} {f : Field} (h : Orderly as s)
    (he : s.exec (.save d f) = some s2) (hk : Keeps as s (.save d f) s2) (hg : GoFields (as ++ [.save d f])) (hf : FieldsFit (as ++ [.save d f]))
    {d' name : String} (hn : ¬ (d' = d ∧ name = f.name)) {x y : Option Field} (hx : s.getField d' name = some (s1, x))
    (hy : s2.getField d' name = some (s3, y)) : y = x := by
  have e1 := c26_latest_when_orderly_partial h (goFields_snoc hg) (fun d f hm => hf d f (List.mem_append_left _ hm)) hx
  have e2 := c26_latest_when_orderly_partial (.snoc h he hk) hg hf hy
  rw [e1, e2, latest_save, if_neg]
  rintro ⟨rfl, rfl⟩; exact hn ⟨rfl, rfl⟩

-- a second field of a cached document: the whole run including the save is orderly
example : ∃ s, runB [] [.open_ 1, .save "a" (demoField "title" 1), .recv, .save "a" (demoField "body" 2)] {} = some s ∧
    (s.getField "a" "title").map Prod.snd = some (some (demoField "title" 1)) := exists_of_run (by decide +kernel)

/-- C27 as stated is false: after a restart, saving the body of a document drops its title (the cache is empty, so the save starts
from an empty map), in the answers at once and in the file at the next flush. -/
theorem c27_refuted : ¬ ∀ (as : List Act) (s s1 s2 s3 : DcState) (d name : String) (f : Field) (x y : Option Field),
    run {} as = some s → s.up = true → s.send = none → s.fl.buf = [] → name ≠ f.name → s.getField d name = some (s1, x) →
    s.exec (.save d f) = some s2 → s2.getField d name = some (s3, y) → y = x := by
  intro h
  have key : ∃ s, run {} ([.open_ 100, .save "a" (demoField "title" 1), .recv] ++ flush1 "a" ++ [.crash, .open_ 100]) = some s ∧
      s.up = true ∧ s.send = none ∧ s.fl.buf = [] ∧ (s.getField "a" "title").map Prod.snd = some (some (demoField "title" 1)) ∧
      ((s.exec (.save "a" (demoField "body" 2))).bind fun s2 => (s2.getField "a" "title").map Prod.snd) = some none :=
    exists_of_run (by decide +kernel)
  obtain ⟨s, h1, h2, h3, h3', h4, h5⟩ := key
  obtain ⟨⟨s1, x⟩, g1, g2⟩ := Option.map_eq_some_iff.1 h4
  obtain ⟨s2, g3, g4⟩ := Option.bind_eq_some_iff.1 h5
  obtain ⟨⟨s3, y⟩, g5, g6⟩ := Option.map_eq_some_iff.1 g4
  cases g2; cases g6
  have := h _ s s1 s2 s3 "a" "title" _ _ _ h1 h2 h3 h3' (by decide) g1 g3 g5
  revert this; decide

/-- ... and the loss is permanent: after that save, a flush and another restart the title is gone. -/
theorem c27_refuted_permanent : ∃ s, run {} ([.open_ 100, .save "a" (demoField "title" 1), .recv] ++ flush1 "a" ++
      [.crash, .open_ 100, .save "a" (demoField "body" 2), .recv] ++ flush1 "a" ++ [.crash, .open_ 100]) = some s ∧
    s.up = true ∧ (s.getFields ["a"] "title").map Prod.snd = some [] ∧
    (s.getFields ["a"] "body").map Prod.snd = some [("a", demoField "body" 2)] := exists_of_run (by decide +kernel)

/-! ### C33 -/

/-- the document writer has received and written everything. -/
def DocsFlushed (s : DcState) : Prop := s.send = none ∧ s.fl.pc = .idle ∧ s.fl.buf = []

instance (s : DcState) : Decidable (DocsFlushed s) := inferInstanceAs (Decidable (_ ∧ _))

namespace DcState

theorem restart_orderly {as : List Act} {s : DcState} (h : Orderly as s) (hu : s.up = true) (hf : DocsFlushed s) (n : Int) :
    ∃ s', run s [.crash, .open_ n] = some s' ∧ Orderly (as ++ [.crash, .open_ n]) s' ∧ s'.up = true ∧ s'.cache = LRU.new n ∧
      s'.fl.files = s.fl.files := by
  have e1 : s.exec .crash = some { fl := s.fl.killed } := by simp [exec, hu]
  have e2 : ({ fl := s.fl.killed } : DcState).exec (.open_ n) = some { up := true, cache := LRU.new n, fl := s.fl.killed } := by simp [exec]
  have o1 : Orderly (as ++ [.crash]) { fl := s.fl.killed } := by
    refine .snoc h e1 ⟨fun d _ _ => ⟨?_, fun r hr => ?_⟩, fun d f e => by cases e⟩
    · rw [hf.2.2]; rfl
    · rw [hf.1] at hr; cases hr
  have o2 : Orderly (as ++ [.crash] ++ [.open_ n]) { up := true, cache := LRU.new n, fl := s.fl.killed } := by
    refine .snoc o1 e2 ⟨fun d hc => ?_, fun d f e => by cases e⟩
    obtain ⟨r, hr⟩ := (cached_iff _ d).1 hc
    rw [show ({ fl := s.fl.killed } : DcState).cache = LRU.new 0 from rfl, LRU.val_new] at hr; cases hr
  refine ⟨{ up := true, cache := LRU.new n, fl := s.fl.killed }, ?_, by simpa using o2, rfl, rfl, rfl⟩
  rw [show [Act.crash, Act.open_ n] = [.crash] ++ [.open_ n] from rfl]
  exact run_snoc.2 ⟨_, run_cons.2 ⟨_, e1, rfl⟩, e2⟩

/-- with room for one document, a read never fails. -/
theorem getField_some {as : List Act} {s : DcState} (hi : Inv as s) (hc : 1 ≤ s.cache.capacity) (d name : String) :
    ∃ s' x, s.getField d name = some (s', x) := by
  unfold getField
  split
  · exact ⟨_, _, rfl⟩
  · rename_i c hg
    obtain ⟨g1, g2, g3, g4⟩ := LRU.get_spec hi.lok d
    rw [hg] at g1 g3
    obtain ⟨c', hc'⟩ := LRU.put_some g1 (by rw [g3]; exact hc) d s.heap.length
    cases hl : s.load d with
    | none =>
      unfold load at hl
      split at hl
      · cases hl
      · rename_i hcur
        obtain ⟨b, hb, -⟩ := hi.files d _ hcur; cases hb
      · rename_i b hcur
        obtain ⟨b', hb, m, hm, -⟩ := hi.files d _ hcur
        cases hb
        rw [hm] at hl; cases hl
    | some o =>
      cases o with
      | none => exact ⟨_, _, rfl⟩
      | some m => simp only [hc']; exact ⟨_, _, rfl⟩

end DcState

/-- Reopening after the document writer has flushed, when nothing unwritten was evicted: every read finds what a read found before,
cut to 32 bits. -/
theorem c33_documents_survive_restart {as : List Act} {s : DcState} (h : Orderly as s) (hg : GoFields as) (hu : s.up = true)
    (hf : DocsFlushed s) (n : Int) (hn : 1 ≤ n) : ∃ s', run s [.crash, .open_ n] = some s' ∧ s'.up = true ∧
    ∀ d name, ∃ t, s'.getField d name = some (t, (latest as d name).map cutField) := by
  obtain ⟨s', h1, h2, h3, h4, h5⟩ := restart_orderly h hu hf n
  have hgo : GoFields (as ++ [.crash, .open_ n]) := by
    intro d f hm; simp at hm; exact hg d f hm
  have hi := run_inv h2.run hgo
  refine ⟨s', h1, h3, fun d name => ?_⟩
  obtain ⟨t, x, hx⟩ := getField_some hi (by rw [h4]; exact hn) d name
  refine ⟨t, ?_⟩
  rw [hx]
  congr 2
  have hnv : s'.cache.val d = none := by rw [h4]; exact LRU.val_new n d
  have hst := (orderly_inv2 h hg).stored d ⟨by rw [hf.2.2]; rfl, fun r hr => by rw [hf.1] at hr; cases hr⟩
  have hcur : s'.fl.cur d = s.fl.cur d := by unfold Flusher.cur Flusher.file; rw [h5]
  cases getField_spec hi.lok hx with
  | hit r c hv hok hval hcap e hx => rw [hnv] at hv; cases hv
  | absent hv hc e hx =>
    rcases hst with ⟨h3, -⟩ | ⟨b, m, h3, -⟩
    · rw [hx, latest_unsaved h3]; rfl
    · rw [← hcur, hc] at h3; cases h3
  | loaded m b c hv hc hm hok hd hcap hval e hx =>
    rcases hst with ⟨-, h3⟩ | ⟨b', m', h3, h4, h5⟩
    · rw [← hcur, hc] at h3; cases h3
    · rw [← hcur, hc] at h3; cases h3
      rw [hm] at h4; cases h4
      rw [hx]; exact h5 name

/-- The usual case: a fresh store with at most `cacheSize` documents, flushed, closed and reopened with any cache size. -/
theorem c33_fresh_store_survives_restart {n : Int} {as : List Act} {s : DcState} (h : run {} (.open_ n :: as) = some s)
    (hc : Act.crash ∉ as) (hd : ((savedDocs as).toFinset.card : Int) ≤ n) (hg : GoFields as) (hf : DocsFlushed s) (m : Int) (hm : 1 ≤ m) :
    ∃ s', run s [.crash, .open_ m] = some s' ∧ s'.up = true ∧
    ∀ d name, ∃ t x, s.getField d name = some (t, x) ∧ ∃ t', s'.getField d name = some (t', x.map cutField) := by
  obtain ⟨f1, f2⟩ := fresh_run h hc hd hg
  have hgo : GoFields (.open_ n :: as) := by
    intro d f hx
    rcases List.mem_cons.1 hx with e | hx
    · cases e
    · exact hg d f hx
  obtain ⟨s', h1, h2, h3⟩ := c33_documents_survive_restart f2 hgo f1.up hf m hm
  refine ⟨s', h1, h2, fun d name => ?_⟩
  obtain ⟨t, ht⟩ := freshInv_getField (run_inv h hgo) f1 d name
  obtain ⟨t', ht'⟩ := h3 d name
  exact ⟨t, _, ht, t', ht'⟩

example : ∃ s, run {} (.open_ 2 :: ([.save "a" (demoField "title" 1), .recv, .save "a" (demoField "body" 2), .recv] ++ flush1 "a")) = some s ∧
    s.up = true ∧ DocsFlushed s ∧ s.fl.file "a" ≠ {} := exists_of_run (by decide +kernel)

/-! ### C75 -/

/-- C75 as stated is false: there are reachable states in which the writer is about to serialize a map that a save may change at the
same moment — the two steps touch the same map and what is written depends on which comes first.  (In Go this is a concurrent map
iteration and map write, which the runtime aborts on.) -/
theorem c75_refuted : ¬ ∀ (as : List Act) (s s1 s2 t1 t2 : DcState) (d : String) (f : Field), run {} as = some s →
    s.exec .step = some s1 → s1.exec (.save d f) = some t1 → s.exec (.save d f) = some s2 → s2.exec .step = some t2 → t1 = t2 := by
  intro h
  have key : ∃ s, run {} [.open_ 1, .save "a" (demoField "title" 1), .recv, .tick ["a"]] = some s ∧
      ((s.exec .step).bind fun s1 => s1.exec (.save "a" (demoField "title" 2))).isSome = true ∧
      ((s.exec (.save "a" (demoField "title" 2))).bind fun s1 => s1.exec .step).isSome = true ∧
      ((s.exec .step).bind fun s1 => s1.exec (.save "a" (demoField "title" 2))) ≠
        ((s.exec (.save "a" (demoField "title" 2))).bind fun s1 => s1.exec .step) := exists_of_run (by decide +kernel)
  obtain ⟨s, h1, h2, h3, h4⟩ := key
  obtain ⟨t1, ht1⟩ := Option.isSome_iff_exists.1 h2
  obtain ⟨t2, ht2⟩ := Option.isSome_iff_exists.1 h3
  rw [ht1, ht2] at h4
  obtain ⟨s1, g1, g2⟩ := Option.bind_eq_some_iff.1 ht1
  obtain ⟨s2, g3, g4⟩ := Option.bind_eq_some_iff.1 ht2
  exact h4 (congrArg some (h _ s s1 s2 t1 t2 _ _ h1 g1 g2 g3 g4))

/-- **C75, what holds.** In every reachable state a step of the document writer and a save of `d` can be exchanged — both orders are possible or neither is, and they
end in the same state — unless the writer is just about to serialize `d` itself. -/
theorem c75_commute_partial {as : List Act} {s : DcState} (h : run {} as = some s) (hg : GoFields as) (d : String) (f : Field)
    (hne : ∀ rest, s.fl.pc ≠ .flushing (d :: rest)) :
    ((s.exec .step).bind fun t => t.exec (.save d f)) = ((s.exec (.save d f)).bind fun t => t.exec .step) := by
  have hi := run_inv h hg
  -- saving does not look at the writer
  have hsave : ∀ fl, ({ s with fl := fl } : DcState).exec (.save d f) = (s.exec (.save d f)).map fun t => { t with fl := fl } := by
    intro fl
    simp only [exec, save, deref]
    split
    · cases hc : s.cache.get d with
      | mk c o => cases o <;> simp [Function.comp_def]
    · rfl
  -- a save changes neither the writer's state nor the map it is about to serialize
  have hfl : ∀ t, s.exec (.save d f) = some t → t.fl = s.fl ∧ t.fl.step t.ser = s.fl.step s.ser := by
    intro t ht
    simp only [exec] at ht
    split at ht
    · rename_i hc
      have hsp := save_spec hi.lok ht
      have hsend : s.send = none := by
        simp only [Bool.and_eq_true, Option.isNone_iff_eq_none] at hc; exact hc.2
      have e1 : t.fl = s.fl := by cases hsp <;> (rename_i e; subst e; rfl)
      refine ⟨e1, ?_⟩
      rw [e1]
      unfold Flusher.step
      split
      · rfl
      · rfl
      · rename_i k rest hpc
        have hk : k ≠ d := by rintro rfl; exact hne rest hpc
        cases hb : s.fl.buf.get? k with
        | none => rfl
        | some r =>
          have hr : Refs s k r := .inr (.inl hb)
          have hd : t.deref r = s.deref r := by
            cases hsp with
            | hit r' c hv hok hval hcap e =>
              subst e
              have hr' : Refs s d r' := .inl hv
              show (s.heap.set r' _).getD r [] = _
              rw [deref_set (hi.own d r' hr').1, if_neg]
              · rfl
              · rintro rfl; exact hk (hi.uniq _ _ _ hr hr')
            | miss c hv hok hd hcap hval e =>
              subst e
              exact deref_append (hi.own k r hr).1
          simp only [ser, hd]
      · rfl
      · rfl
    · cases ht
  have hstep : ∀ t : DcState, t.exec .step = (t.fl.step t.ser).map fun fl => { t with fl := fl } := fun t => rfl
  rw [hstep s, Option.bind_map]
  cases hx : s.exec (.save d f) with
  | none =>
    cases hy : s.fl.step s.ser with
    | none => rfl
    | some fl => show exec ({ s with fl := fl } : DcState) (.save d f) = none; rw [hsave, hx]; rfl
  | some t =>
    obtain ⟨-, e2⟩ := hfl t hx
    rw [Option.bind_some, hstep t, e2]
    cases hy : s.fl.step s.ser with
    | none => rfl
    | some fl => show exec ({ s with fl := fl } : DcState) (.save d f) = some { t with fl := fl }; rw [hsave, hx]; rfl

/-- the writer is about to serialize `a`; a save of `b`, which is also in its buffer, is harmless. -/
example : ∃ s, run {} [.open_ 2, .save "a" (demoField "title" 1), .recv, .save "b" (demoField "title" 1), .recv, .tick ["a", "b"]] = some s ∧
    (∀ rest, s.fl.pc ≠ .flushing ("b" :: rest)) ∧ ((s.exec .step).bind fun t => t.exec (.save "b" (demoField "title" 2))).isSome = true := by
  obtain ⟨s, h1, h2, h3⟩ := exists_of_run (o := run {} [.open_ 2, .save "a" (demoField "title" 1), .recv, .save "b" (demoField "title" 1), .recv, .tick ["a", "b"]])
    (P := fun s => s.fl.pc = .flushing ["a", "b"] ∧ ((s.exec .step).bind fun t => t.exec (.save "b" (demoField "title" 2))).isSome = true) (by decide +kernel)
  refine ⟨s, h1, fun rest e => ?_, h3⟩
  rw [h2] at e; simp at e

/-! ### C76 -/

namespace DcState

theorem exec_cap {as : List Act} {s s' : DcState} {a : Act} (hi : Inv as s) (h : s.up = true → 1 ≤ s.cache.capacity)
    (ha : ∀ n, a = .open_ n → 1 ≤ n) (he : s.exec a = some s') : s'.up = true → 1 ≤ s'.cache.capacity := by
  cases a with
  | save d f =>
    simp only [exec] at he; split at he
    · cases save_spec hi.lok he with
      | hit r c hv hok hval hcap e => subst e; intro hu; show 1 ≤ c.capacity; rw [hcap]; exact h hu
      | miss c hv hok hd hcap hval e => subst e; intro hu; show 1 ≤ c.capacity; rw [hcap]; exact h hu
    · cases he
  | recv =>
    simp only [exec] at he; split at he
    · cases he
    · simp only [Option.map_eq_some_iff] at he
      obtain ⟨fl, hr, rfl⟩ := he; exact h
  | read d =>
    simp only [exec] at he; split at he
    · simp only [Option.map_eq_some_iff] at he
      obtain ⟨⟨t, x⟩, hgf, rfl⟩ := he
      cases getField_spec hi.lok hgf with
      | hit r c hv hok hval hcap e hx => subst e; intro hu; show 1 ≤ c.capacity; rw [hcap]; exact h hu
      | absent hv hc e hx => subst e; exact h
      | loaded m b c hv hc hm hok hd hcap hval e hx => subst e; intro hu; show 1 ≤ c.capacity; rw [hcap]; exact h hu
    · cases he
  | tick order =>
    simp only [exec] at he; split at he
    · simp only [Option.map_eq_some_iff] at he
      obtain ⟨fl, hr, rfl⟩ := he; exact h
    · cases he
  | step =>
    simp only [exec, Option.map_eq_some_iff] at he
    obtain ⟨fl, hr, rfl⟩ := he; exact h
  | crash =>
    simp only [exec] at he; split at he
    · cases he; intro e; cases e
    · cases he
  | open_ n =>
    simp only [exec] at he; split at he
    · cases he
    · cases he; intro _; exact ha n rfl

end DcState

/-- With a cache of at least one document, nothing about documents ever panics, whatever happened before: every read answers, every
save goes through, and a flush that has begun can always go on. -/
theorem c76_documents_never_panic {as : List Act} {s : DcState} (h : run {} as = some s) (hg : GoFields as)
    (hn : ∀ n, Act.open_ n ∈ as → 1 ≤ n) (hu : s.up = true) :
    (∀ d name, ∃ s' x, s.getField d name = some (s', x)) ∧
    (s.send = none → ∀ d f, ∃ s', s.exec (.save d f) = some s') ∧
    (s.fl.pc ≠ .idle → ∃ s', s.exec .step = some s') := by
  have hi := run_inv h hg
  have hcap : s.up = true → 1 ≤ s.cache.capacity := by
    revert hg hn
    clear hi hu
    refine run_induction (P := fun as s => GoFields as → (∀ n, Act.open_ n ∈ as → 1 ≤ n) → (s.up = true → 1 ≤ s.cache.capacity))
      (fun _ _ e => by cases e) ?_ h
    intro as s a s' hr ih he hg hn
    exact exec_cap (run_inv hr (goFields_snoc hg)) (ih (goFields_snoc hg) fun n hm => hn n (List.mem_append_left _ hm))
      (fun n e => hn n (by rw [e]; simp)) he
  refine ⟨fun d name => getField_some hi (hcap hu) d name, fun hs d f => ?_, fun hp => ?_⟩
  · simp only [exec, hu, hs, Option.isNone_none, Bool.and_self, if_true]
    obtain ⟨g1, g2, g3, g4⟩ := LRU.get_spec hi.lok d
    unfold DcState.save
    split
    · rename_i c r hgt
      rw [hgt] at g1 g3
      obtain ⟨c', hc'⟩ := LRU.put_some g1 (by rw [g3]; exact hcap hu) d r
      rw [hc']; exact ⟨_, rfl⟩
    · rename_i c hgt
      rw [hgt] at g1 g3
      obtain ⟨c', hc'⟩ := LRU.put_some g1 (by rw [g3]; exact hcap hu) d s.heap.length
      rw [hc']; exact ⟨_, rfl⟩
  · have : ∃ fl, s.fl.step s.ser = some fl := by
      refine step_enabled hi.fin (fun k v hv => ?_) hp
      obtain ⟨b, hb, -⟩ := legit_ser (hi.own k v (.inr (.inl hv))).2
      exact ⟨b, hb⟩
    obtain ⟨fl, hfl⟩ := this
    exact ⟨{ s with fl := fl }, by simp only [exec, hfl]; rfl⟩

example : ∃ s, run {} [.open_ 1, .save "a" (demoField "title" 1), .recv, .tick ["a"], .step] = some s ∧ s.up = true ∧ s.send = none ∧
    s.fl.pc ≠ .idle := exists_of_run (by decide +kernel)

/-- With cacheSize 0 the first save panics. -/
theorem c76_no_cache_panics : ∃ s, run {} [.open_ 0] = some s ∧ s.up = true ∧ s.send = none ∧
    s.exec (.save "a" (demoField "title" 1)) = none := exists_of_run (by decide +kernel)

end Goir
