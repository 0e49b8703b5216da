import Verif.Lemmas.FlatTables
/-!
# The FlatBuffers builder on bytes refines the builder on objects
-/
namespace Goir
namespace FBB
open FB (Obj Slot)

/-- the table is written: what the final bytes must be. -/
theorem encTab {c : Nat} {offs : List Nat} {objs : List Obj} {sl : List (Option Slot)} {b : Builder} (h : RelTab c offs objs sl b)
    (hc : 8 * c + 8 < 65536) (hn : 4 + 2 * sl.length < 65536) {u : Bytes} {o v sz : Nat} (hs : b.used <:+ u) (ho1 : b.used.length < o)
    (ho2 : o ≤ b.used.length + 7)
    (h1 : At u o (le32 (bits32 ((v : Int) - o)))) (h2 : At u v ((le16 (4 + 2 * (words o b.vtable).length) ++ le16 sz) ++ (words o b.vtable).flatMap le16)) :
    EncObj offs u o (.tab sl) ∧ 4 + 2 * (words o b.vtable).length < 65536 ∧ ∀ x ∈ words o b.vtable, x < o ∧ x < 65536 := by
  have hlen : (words o b.vtable).length ≤ sl.length := by
    rw [words, List.length_map, ← h.len]; exact trim_length _
  have hword : ∀ x ∈ words o b.vtable, x < o ∧ x < 65536 := by
    intro x hx
    obtain ⟨w, hw, rfl⟩ := List.mem_map.1 hx
    by_cases hw0 : w = 0
    · simp [hw0]; omega
    · simp only [ne_eq, hw0, not_false_eq_true, if_true]
      obtain ⟨i, hi, hwi⟩ := List.getElem_of_mem hw
      have hd := trim_getD b.vtable i
      rw [List.getD_eq_getElem?_getD, List.getElem?_eq_getElem hi, hwi] at hd
      simp only [Option.getD_some] at hd
      have := h.slots i
      cases hsl : sl.getD i none with
      | none => rw [hsl] at this; simp only at this; omega
      | some s =>
        rw [hsl] at this
        obtain ⟨so, g1, g2, g3, g4, _⟩ := this
        rw [List.getD_eq_getElem?_getD, g1] at hd
        simp only [Option.getD_some] at hd
        omega
  refine ⟨⟨v, sz, words o b.vtable, h1, h2, by omega, fun x hx => (hword x hx).2, fun i => ?_⟩, by omega, hword⟩
  have := h.slots i
  cases hsl : sl.getD i none with
  | none =>
    rw [hsl] at this
    simp only at this ⊢
    rw [← trim_getD] at this
    rw [words, List.getD_eq_getElem?_getD, List.getElem?_map]
    rw [List.getD_eq_getElem?_getD] at this
    cases hg : (trim b.vtable)[i]? with
    | none => rfl
    | some w => rw [hg] at this; simp only [Option.getD_some] at this; simp [this]
  | some s =>
    rw [hsl] at this
    obtain ⟨so, g1, g2, g3, g4, g5⟩ := this
    refine ⟨so, by omega, ?_, by simpa using g5.mono [] hs⟩
    rw [words, List.getElem?_map, trim_get g1 g2]
    simp; omega

theorem endObject_ref {c : Nat} {offs : List Nat} {objs : List Obj} {sl : List (Option Slot)} {b : Builder} (h : RelTab c offs objs sl b)
    (hc : 8 * c + 8 < 65536) (hn : 4 + 2 * sl.length < 65536) :
    (endObject b = none ∧ 1073741824 ≤ b.used.length + (2 * sl.length + 16)) ∨
    ∃ o b', endObject b = some (o, b') ∧ Idle (offs ++ [o]) (objs ++ [.tab sl]) b' ∧ b'.used.length ≤ b.used.length + (2 * sl.length + 16) := by
  have hso : prependSOffset 0 b = (do prep 4 0; let b ← get; place (le32 ((fun x => x - 0 + 4) b.offset)) : M Unit) b := by
    unfold prependSOffset
    simp only [run_bind]
    cases prep 4 0 b with
    | none => rfl
    | some r => simp only [Option.bind_some, run_get]; rw [if_pos (Nat.zero_le _)]
  rcases prepend4_spec h.core (fun x => x - 0 + 4) with ⟨g1, g2⟩ | ⟨b1, pre, g1, g2, g3, g4, g5, g6, g7, g8, g9, g10, g11, g12⟩
  · left
    refine ⟨?_, by omega⟩
    unfold endObject
    rw [run_bind, run_get]
    simp only [Option.bind_some, h.nested, Bool.true_eq_false, if_false]
    rw [run_bind, hso, g1]; rfl
  · rw [← hso] at g1
    have htl := trim_length b.vtable
    rw [h.len] at htl
    have hsuf1 : b.used <:+ b1.used := ⟨le32 ((fun x => x - 0 + 4) (b1.used.length - 4)) ++ pre, by rw [List.append_assoc]; exact g3.symm⟩
    have hw : ∀ w ∈ trim b1.vtable, w < b1.used.length := by
      rw [g5]
      intro w hw
      obtain ⟨i, hi, hwi⟩ := List.getElem_of_mem hw
      have hd := trim_getD b.vtable i
      rw [List.getD_eq_getElem?_getD, List.getElem?_eq_getElem hi, hwi] at hd
      simp only [Option.getD_some] at hd
      have := h.slots i
      cases hsl : sl.getD i none with
      | none => rw [hsl] at this; simp only at this; omega
      | some s =>
        rw [hsl] at this
        obtain ⟨so, g1, g2, g3, g4, _⟩ := this
        rw [List.getD_eq_getElem?_getD, g1] at hd
        simp only [Option.getD_some] at hd
        omega
    have hlen1 : b1.used.length = (le32 ((fun x => x - 0 + 4) (b1.used.length - 4)) ++ (pre ++ b.used)).length := congrArg _ g3
    rcases findVtable_spec hsuf1 (show b.used.length < b1.used.length by omega) hw b1.vtables.reverse
      (fun v hv => by rw [g6, List.mem_reverse] at hv; exact h.core.vts v hv) with hf | ⟨v, sz, hf, hv, hat⟩
    · -- a new vtable
      have heven : b1.used.length % 2 = 0 := by
        have := padding4_aligned b.used.length 0
        rw [hlen1]; simp only [List.length_append, le32_length, g4]; omega
      have hcore1 : Core offs objs b1 := g2
      have hend : endObject b = (((trim b1.vtable).reverse.forM fun v => prependVOffset (if v ≠ 0 then b1.used.length - v else 0) : M Unit) b1).bind fun p =>
          (prependVOffset (b1.used.length - b1.objectEnd) p.2).bind fun p => (prependVOffset (((trim b1.vtable).length + 2) * 2) p.2).bind fun p =>
          (patch b1.used.length ((p.2.used.length : Int) - b1.used.length) p.2).bind fun p =>
          some (b1.used.length, { p.2 with vtable := [], vtables := p.2.vtables ++ [p.2.offset], nested := false }) := by
        unfold endObject
        rw [run_bind, run_get]
        simp only [Option.bind_some, h.nested, Bool.true_eq_false, if_false]
        rw [run_bind, g1]
        simp only [Option.bind_some, run_bind, run_get, Builder.offset, hf]
        rfl
      have hL : (trim b1.vtable).length ≤ sl.length := by rw [g5]; exact htl
      rcases vwords_spec (fun v => if v ≠ 0 then b1.used.length - v else 0) (trim b1.vtable).reverse b1 hcore1 heven with ⟨k1, k2⟩ | ⟨b2, k1, k2, k3, k4, k5⟩
      · left; refine ⟨by rw [hend, k1]; rfl, ?_⟩
        rw [List.length_reverse] at k2; omega
      · rw [List.reverse_reverse] at k3
        have k3' : b2.used = (words b1.used.length b.vtable).flatMap le16 ++ b1.used := by rw [k3, words, g5]
        have hwl : (words b1.used.length b.vtable).length = (trim b1.vtable).length := by rw [words, List.length_map, g5]
        have hl2 : b2.used.length = 2 * (trim b1.vtable).length + b1.used.length := by
          rw [k3', List.length_append, flatMap_le16_length, hwl]
        rcases prependVOffset_spec k2 (by omega) (b1.used.length - b1.objectEnd) with ⟨l1, l2⟩ | ⟨b3, l1, l2, l3, l4, l5⟩
        · left; exact ⟨by rw [hend, k1]; simp only [Option.bind_some]; rw [l1]; rfl, by omega⟩
        · have hl3 : b3.used.length = b2.used.length + 2 := by rw [l3, List.length_append, le16_length]; omega
          rcases prependVOffset_spec l2 (by omega) (((trim b1.vtable).length + 2) * 2) with ⟨m1, m2⟩ | ⟨b4, m1, m2, m3, m4, m5⟩
          · left; exact ⟨by rw [hend, k1]; simp only [Option.bind_some]; rw [l1]; simp only [Option.bind_some]; rw [m1]; rfl, by omega⟩
          · have hl4 : b4.used.length = b3.used.length + 2 := by rw [m3, List.length_append, le16_length]; omega
            have hu4 : b4.used = ((le16 (4 + 2 * (words b1.used.length b.vtable).length) ++ le16 (b1.used.length - b1.objectEnd)) ++ (words b1.used.length b.vtable).flatMap le16) ++
                (le32 ((fun x => x - 0 + 4) (b1.used.length - 4)) ++ (pre ++ b.used)) := by
              rw [m3, l3, k3', ← g3, hwl]
              have : ((trim b1.vtable).length + 2) * 2 = 4 + 2 * (trim b1.vtable).length := by omega
              rw [this]; simp [List.append_assoc]
            have hpatch := patch_spec b4 _ _ _ hu4 (le32_length _) ((b4.used.length : Int) - b1.used.length)
            rw [← hlen1] at hpatch
            right
            have hvl : ((le16 (4 + 2 * (words b1.used.length b.vtable).length) ++ le16 (b1.used.length - b1.objectEnd)) ++ (words b1.used.length b.vtable).flatMap le16).length =
                4 + 2 * (words b1.used.length b.vtable).length := by
              simp only [List.length_append, le16_length, flatMap_le16_length]
            have hrest : (pre ++ b.used).length + 4 = b1.used.length := by
              rw [hlen1]; simp only [List.length_append, le32_length]; omega
            have hfin : (((le16 (4 + 2 * (words b1.used.length b.vtable).length) ++ le16 (b1.used.length - b1.objectEnd)) ++ (words b1.used.length b.vtable).flatMap le16) ++
                (le32 (bits32 ((b4.used.length : Int) - b1.used.length)) ++ (pre ++ b.used))).length = b4.used.length := by
              rw [hu4]; simp only [List.length_append, le32_length]
            have hsufF : b.used <:+ ((le16 (4 + 2 * (words b1.used.length b.vtable).length) ++ le16 (b1.used.length - b1.objectEnd)) ++ (words b1.used.length b.vtable).flatMap le16) ++
                (le32 (bits32 ((b4.used.length : Int) - b1.used.length)) ++ (pre ++ b.used)) :=
              ⟨((le16 (4 + 2 * (words b1.used.length b.vtable).length) ++ le16 (b1.used.length - b1.objectEnd)) ++ (words b1.used.length b.vtable).flatMap le16) ++
                (le32 (bits32 ((b4.used.length : Int) - b1.used.length)) ++ pre), by simp [List.append_assoc]⟩
            have hatO : At (((le16 (4 + 2 * (words b1.used.length b.vtable).length) ++ le16 (b1.used.length - b1.objectEnd)) ++ (words b1.used.length b.vtable).flatMap le16) ++
                (le32 (bits32 ((b4.used.length : Int) - b1.used.length)) ++ (pre ++ b.used))) b1.used.length (le32 (bits32 ((b4.used.length : Int) - b1.used.length))) := by
              have := (At.here (le32 (bits32 ((b4.used.length : Int) - b1.used.length))) (pre ++ b.used)).prepend
                ((le16 (4 + 2 * (words b1.used.length b.vtable).length) ++ le16 (b1.used.length - b1.objectEnd)) ++ (words b1.used.length b.vtable).flatMap le16)
              have e : (le32 (bits32 ((b4.used.length : Int) - b1.used.length)) ++ (pre ++ b.used)).length = b1.used.length := by
                rw [← hrest]; simp only [List.length_append, le32_length]; omega
              rw [e] at this; exact this
            have hatV := At.here ((le16 (4 + 2 * (words b1.used.length b.vtable).length) ++ le16 (b1.used.length - b1.objectEnd)) ++ (words b1.used.length b.vtable).flatMap le16)
              (le32 (bits32 ((b4.used.length : Int) - b1.used.length)) ++ (pre ++ b.used))
            rw [hfin] at hatV
            obtain ⟨enc, e2, e3⟩ := encTab h hc hn hsufF (by omega) (by omega) hatO hatV
            have hres : ∃ b', endObject b = some (b1.used.length, b') ∧ b' = { b4 with used := ((le16 (4 + 2 * (words b1.used.length b.vtable).length) ++ le16 (b1.used.length - b1.objectEnd)) ++ (words b1.used.length b.vtable).flatMap le16) ++ (le32 (bits32 ((b4.used.length : Int) - b1.used.length)) ++ (pre ++ b.used)), vtable := [], vtables := b4.vtables ++ [(((le16 (4 + 2 * (words b1.used.length b.vtable).length) ++ le16 (b1.used.length - b1.objectEnd)) ++ (words b1.used.length b.vtable).flatMap le16) ++ (le32 (bits32 ((b4.used.length : Int) - b1.used.length)) ++ (pre ++ b.used))).length], nested := false } := by
              refine ⟨_, ?_, rfl⟩
              rw [hend, k1]; simp only [Option.bind_some]; rw [l1]; simp only [Option.bind_some]; rw [m1]; simp only [Option.bind_some]; rw [hpatch]; rfl
            obtain ⟨b', hb', rfl⟩ := hres
            refine ⟨b1.used.length, _, hb', ?_, ?_⟩
            · refine ⟨⟨?_, m2.cap, ?_, m2.align, ?_⟩, rfl⟩
              · exact h.core.sim.snoc hsufF (by omega) (by rw [hfin]; omega) enc
              · show List.length _ ≤ _
                rw [hfin]; exact m2.room
              · intro v hv
                simp only [List.mem_append, List.mem_singleton] at hv
                rcases hv with hv | hv
                · rw [m4, l4, k4, g6] at hv
                  obtain ⟨sz, xs, q1, q2⟩ := h.core.vts v hv
                  exact ⟨sz, xs, q1.suffix hsufF, q2⟩
                · subst hv
                  refine ⟨b1.used.length - b1.objectEnd, words b1.used.length b.vtable, ?_, e2, ?_⟩
                  · show At _ (List.length _) _
                    rw [hfin]; exact hatV
                  · intro x hx
                    obtain ⟨q1, q2⟩ := e3 x hx
                    refine ⟨?_, q2⟩
                    show x < List.length _
                    rw [hfin]; omega
            · show List.length _ ≤ _
              rw [hfin]; omega
    · -- an old vtable
      right
      rw [g5] at hf hat
      have hpatch := patch_spec b1 [] _ _ (by rw [List.nil_append]; exact g3) (le32_length _) ((v : Int) - b1.used.length)
      rw [← hlen1] at hpatch
      simp only [List.nil_append] at hpatch
      have hrest : (pre ++ b.used).length + 4 = b1.used.length := by
        rw [hlen1]; simp only [List.length_append, le32_length]; omega
      have hfin : (le32 (bits32 ((v : Int) - b1.used.length)) ++ (pre ++ b.used)).length = b1.used.length := by
        rw [← hrest]; simp only [List.length_append, le32_length]; omega
      have hsufF : b.used <:+ le32 (bits32 ((v : Int) - b1.used.length)) ++ (pre ++ b.used) :=
        ⟨le32 (bits32 ((v : Int) - b1.used.length)) ++ pre, by simp [List.append_assoc]⟩
      have hatO := At.here (le32 (bits32 ((v : Int) - b1.used.length))) (pre ++ b.used)
      rw [hfin] at hatO
      obtain ⟨enc, _, _⟩ := encTab h hc hn hsufF (by omega) (by omega) hatO (hat.suffix hsufF)
      refine ⟨b1.used.length, { b1 with used := le32 (bits32 ((v : Int) - b1.used.length)) ++ (pre ++ b.used), vtable := [], nested := false }, ?_, ?_, ?_⟩
      · unfold endObject
        rw [run_bind, run_get]
        simp only [Option.bind_some, h.nested, Bool.true_eq_false, if_false]
        rw [run_bind, g1]
        simp only [Option.bind_some, run_bind, run_get, Builder.offset, g5, hf]
        rw [hpatch]
        rfl
      · refine ⟨⟨?_, g2.cap, ?_, g2.align, ?_⟩, rfl⟩
        · exact h.core.sim.snoc hsufF (by omega) (by rw [hfin]) enc
        · show List.length _ ≤ _
          rw [hfin]; exact g2.room
        · intro v' hv'
          simp only at hv'
          rw [g6] at hv'
          obtain ⟨sz, xs, q1, q2⟩ := h.core.vts v' hv'
          exact ⟨sz, xs, q1.suffix hsufF, q2⟩
      · show List.length _ ≤ _
        rw [hfin]; omega

/-- a whole table: `Start`, the `Add…` calls, `End`. -/
theorem table_ref {offs : List Nat} {objs : List Obj} {b : Builder} (h : Idle offs objs b) (n : Nat) (ops : List Op)
    (hops : ∀ op ∈ ops, op.OK offs n) (hc : 8 * ops.length + 8 < 65536) (hn : 4 + 2 * n < 65536) :
    Ref (8 * ops.length + 2 * n + 16) (do FB.startObject n; ops.forM Op.runA; FB.endObject) (do startObject n; ops.forM Op.runB; endObject)
      offs objs b OffAt := by
  obtain ⟨s1, b1, s2, s3, s4⟩ := startObject_tab h n
  have hB : (do startObject n; ops.forM Op.runB; endObject : M Nat) b = ((ops.forM Op.runB : M Unit) b1).bind fun p => endObject p.2 := by
    rw [run_bind, s2]; simp only [Option.bind_some]; rw [run_bind]
  have hA : (do FB.startObject n; ops.forM Op.runA; FB.endObject : FB.M Nat) ⟨objs, .idle⟩ =
      ((ops.forM Op.runA : FB.M Unit) ⟨objs, .tab (List.replicate n none)⟩).bind fun p => FB.endObject p.2 := by
    rw [FB_run_bind, s1]; simp only [Option.bind_some]; rw [FB_run_bind]
  rcases ops_ref ops s3 (by simpa using hops) with ⟨g1, g2⟩ | ⟨sl', b2, g1, g2, g3, g4, g5⟩
  · left; refine ⟨by rw [hB, g1]; rfl, ?_⟩
    rw [s4] at g2; omega
  · simp only [List.length_replicate] at g4
    rw [s4] at g5
    rcases endObject_ref g3 (by omega) (by omega) with ⟨k1, k2⟩ | ⟨o, b3, k1, k2, k3⟩
    · left; exact ⟨by rw [hB, g2]; exact k1, by omega⟩
    · right
      refine ⟨[.tab sl'], [o], objs.length + 1, o, b3, ?_, ?_, k2, by omega, Sim.offAt_last h.core.sim.len _⟩
      · rw [hA, g1]; rfl
      · rw [hB, g2]; exact k1

theorem pure_ref {α β : Type} {offs : List Nat} {objs : List Obj} {b : Builder} (h : Idle offs objs b) (a : α) (o : β) (Q : List Nat → α → β → Prop)
    (hq : Q offs a o) : Ref 0 (pure a) (pure o) offs objs b Q := by
  right; exact ⟨[], [], a, o, b, by simp [pure, StateT.pure], rfl, by simpa using h, le_refl _, by simpa using hq⟩

theorem mapM_ref {α : Type} (f : α → FB.M Nat) (f' : α → M Nat) (k : α → Nat) : ∀ (l : List α),
    (∀ x ∈ l, ∀ offs objs b, Idle offs objs b → Ref (k x) (f x) (f' x) offs objs b OffAt) →
    ∀ offs objs b, Idle offs objs b → Ref (l.map k).sum (l.mapM f) (l.mapM f') offs objs b
      (fun offs as os => List.Forall₂ (OffAt offs) as os ∧ os.length = l.length) := by
  intro l
  induction l with
  | nil => intro _ offs objs b h; simpa using pure_ref h [] [] (fun offs as os => List.Forall₂ (OffAt offs) as os ∧ os.length = 0) ⟨.nil, rfl⟩
  | cons x l ih =>
    intro hl offs objs b h
    rw [List.mapM_cons, List.mapM_cons, List.map_cons, List.sum_cons]
    refine (hl x (by simp) offs objs b h).bind fun noffs new a o b' h' ha => ?_
    have := (ih (fun y hy => hl y (by simp [hy])) _ _ b' h').bind (k' := 0) (f := fun as => pure (a :: as)) (f' := fun os => pure (o :: os))
      (Q' := fun offs as os => List.Forall₂ (OffAt offs) as os ∧ os.length = (x :: l).length)
      (fun noffs' new' as os b'' h'' hf => pure_ref h'' _ _ _ ⟨List.Forall₂.cons (ha.mono noffs') hf.1, by simp [hf.2]⟩)
    simpa using this

/-- the finished buffer holds the objects, and its first word points at the root table. -/
theorem finish_ref {act : FB.M Nat} {act' : M Nat} {k : Nat} (h : Ref k act act' [] [] {} OffAt) :
    (finish act' = none ∧ 1073741824 ≤ k + 16) ∨
    ∃ offs objs a o buf, FB.finish act = some ⟨objs, a⟩ ∧ finish act' = some buf ∧ Sim offs objs buf ∧ OffAt offs a o ∧ o < buf.length ∧
      At buf buf.length (le32 (buf.length - o)) ∧ buf.length ≤ 1073741824 := by
  rcases h with ⟨h1, h2⟩ | ⟨new, noffs, a, o, b, h1, h2, h3, h4, h5⟩
  · left
    refine ⟨?_, by simp only [List.length_nil] at h2; omega⟩
    unfold finish
    rw [run_bind, h1]; rfl
  · simp only [List.nil_append, List.length_nil, Nat.zero_add] at h1 h3 h4 h5
    obtain ⟨ho1, ho2, ha1, ha2, _⟩ := h3.core.sim.offAt h5
    have hA : FB.finish act = some ⟨new, a⟩ := by
      unfold FB.finish
      have : ({} : FB.Builder) = ⟨[], .idle⟩ := rfl
      rw [this, h1]
      simp only
      rw [if_pos (by omega)]
    have hma : 0 < b.minalign := by rcases h3.core.align with e | e | e <;> omega
    have hm4 : b.minalign ≤ 4 := by rcases h3.core.align with e | e | e <;> omega
    have hp := padding_lt b.used.length b.minalign 4 hma
    have hfin : finish act' = match ((prep b.minalign 4 b).bind fun p => (prependUOffset o p.2).bind fun p => some ((), { p.2 with finished := true })) with
        | some ((), b) => if b.finished then some b.used else none
        | none => none := by
      unfold finish finishBuffer
      rw [run_bind, h2]
      simp only [Option.bind_some, run_bind, run_get, h3.nested, Bool.false_eq_true, if_false, run_pure]
      rfl
    rcases prep_spec b.minalign 4 b h3.core.cap h3.core.room with ⟨g1, g2⟩ | ⟨cap', g1, g2, g3, g4⟩
    · left; exact ⟨by rw [hfin, g1]; rfl, by omega⟩
    · have hc1 : Core noffs new { b with cap := cap', minalign := max b.minalign b.minalign, used := List.replicate (padding b.used.length b.minalign 4) 0 ++ b.used } :=
        h3.core.extend ⟨_, rfl⟩ g2 (by simp; omega) (by simp only [max_self]; exact h3.core.align) rfl
      rcases prepend4_spec hc1 (fun x => x - o + 4) with ⟨k1, k2⟩ | ⟨b2, pre, k1, k2, k3, k4, k5, k6, k7, k8, k9, k10, k11, k12⟩
      · left
        refine ⟨?_, ?_⟩
        · rw [hfin, g1]; simp only [Option.bind_some]
          rw [prependUOffset_eq (by simp; omega), k1]; rfl
        · simp only [List.length_append, List.length_replicate] at k2; omega
      · right
        simp only [List.length_append, List.length_replicate] at k9 k10
        refine ⟨noffs, new, a, o, b2.used, hA, ?_, k2.sim, h5, by omega, ?_, le_trans k2.room k2.cap.le⟩
        · rw [hfin, g1]; simp only [Option.bind_some]
          rw [prependUOffset_eq (by simp; omega), k1]; rfl
        · have hval : b2.used.length - 4 - o + 4 = b2.used.length - o := by omega
          rw [hval] at k3
          have := At.here (le32 (b2.used.length - o)) (pre ++ (List.replicate (padding b.used.length b.minalign 4) 0 ++ b.used))
          rw [← k3] at this
          exact this

theorem init_idle : Idle [] [] {} := by
  refine ⟨⟨⟨rfl, fun i x hx => by simp at hx⟩, Or.inl rfl, le_refl _, Or.inl rfl, fun v hv => by simp at hv⟩, rfl⟩

end FBB
end Goir
