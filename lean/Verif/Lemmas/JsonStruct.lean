import Verif.Lemmas.JsonGrammar
import Mathlib.Data.List.Nodup
/-!
# Decoding the members of an object into a struct of strings
-/
namespace Goir
namespace Json

theorem sameLetter_iff {c n : Char} (hn : 97 ≤ n.toNat ∧ n.toNat ≤ 122) : foldChar c = n ↔ SameLetter c n := by
  have hn' : n = Char.ofNat (97 + (n.toNat - 97)) := by
    have e : 97 + (n.toNat - 97) = n.toNat := by omega
    rw [e, Char.ofNat_toNat]
  have hlt : n.toNat - 97 < 26 := by omega
  have hup : ∀ k, k < 26 → (Char.ofNat (97 + k)).toUpper = Char.ofNat (65 + k) := by decide
  have hself : ∀ k, k < 26 → foldChar (Char.ofNat (97 + k)) = Char.ofNat (97 + k) := by decide
  have hfold : ∀ k, k < 26 → foldChar (Char.ofNat (65 + k)) = Char.ofNat (97 + k) := by decide
  constructor
  · intro h
    have hc : c = Char.ofNat c.toNat := (Char.ofNat_toNat c).symm
    unfold foldChar at h
    split at h
    · rename_i h1
      rw [h1] at hc
      exact .inr (.inr (.inl ⟨hc, h.symm⟩))
    split at h
    · rename_i h1
      rw [h1] at hc
      exact .inr (.inr (.inr ⟨hc, h.symm⟩))
    split at h
    · rename_i h1
      refine .inr (.inl ?_)
      have h2 : n.toNat = c.toNat + 32 := by rw [← h, toNat_ofNat (by omega)]
      rw [hn', hup _ hlt, hc, h2]
      congr 1
      omega
    · exact .inl h
  · rintro (rfl | rfl | ⟨rfl, rfl⟩ | ⟨rfl, rfl⟩)
    · rw [hn']; exact hself _ hlt
    · rw [hn', hup _ hlt]; exact hfold _ hlt
    · decide
    · decide

theorem sameName_iff {key : String} {name : List Char} (h : ∀ n ∈ name, 97 ≤ n.toNat ∧ n.toNat ≤ 122) : key.toList.map foldChar = name ↔ SameName key name := by
  unfold SameName
  generalize key.toList = cs
  induction cs generalizing name with
  | nil =>
    constructor
    · rintro rfl; exact .nil
    · intro h; cases h; rfl
  | cons c cs ih =>
    constructor
    · rintro rfl
      refine .cons ((sameLetter_iff (h _ (by simp))).1 rfl) ((ih fun n hn => h n (by simp only [List.map_cons, List.mem_cons]; exact .inr hn)).1 rfl)
    · intro hf
      cases hf with
      | @cons _ n _ name' h1 h2 =>
        rw [List.map_cons, (sameLetter_iff (h n (by simp))).2 h1, (ih fun m hm => h m (by simp [hm])).2 h2]

theorem fieldFor_iff {φ : Type} [DecidableEq φ] (fields : List (φ × List Char)) (name : φ → List Char) (h1 : ∀ e ∈ fields, name e.1 = e.2)
    (h2 : ∀ e ∈ fields, ∀ n ∈ e.2, 97 ≤ n.toNat ∧ n.toNat ≤ 122) (h3 : (fields.map Prod.snd).Nodup) (h4 : ∀ f, f ∈ fields.map Prod.fst) (k : String) (f : φ) :
    fieldFor fields k = some f ↔ SameName k (name f) := by
  have hf := h4 f
  obtain ⟨e, he, rfl⟩ := List.mem_map.1 hf
  rw [h1 e he, ← sameName_iff (h2 e he)]
  unfold fieldFor
  constructor
  · intro h
    cases hx : fields.find? (fun e => decide (k.toList.map foldChar = e.2)) with
    | none => rw [hx] at h; cases h
    | some x =>
      rw [hx] at h
      injection h with h
      have hm := List.mem_of_find?_eq_some hx
      have hp := List.find?_some hx
      have e1 := h1 x hm
      have e2 := h1 e he
      simp only [decide_eq_true_eq] at hp
      rw [hp, ← e1, ← e2, h]
  · intro h
    cases hx : fields.find? (fun e => decide (k.toList.map foldChar = e.2)) with
    | none =>
      have := List.find?_eq_none.1 hx e he
      simp only [decide_eq_true_eq] at this
      exact absurd h this
    | some x =>
      have hm := List.mem_of_find?_eq_some hx
      have hp := List.find?_some hx
      simp only [decide_eq_true_eq] at hp
      have e2 : x.2 = e.2 := hp.symm.trans h
      have : x = e := List.inj_on_of_nodup_map h3 hm he e2
      rw [this]; rfl

theorem lastString_nil {name : List Char} {s : String} : ¬ LastString name .nil s := by
  rintro ⟨b, k, a, h, -⟩
  have := congrArg List.length h
  simp [JMems.toList] at this

theorem lastString_cons {name : List Char} {k : String} {v : JVal} {ms : JMems} {s : String} :
    LastString name (.cons k v ms) s ↔ LastString name ms s ∨ (v = .str s ∧ SameName k name ∧ ∀ s', ¬ LastString name ms s') := by
  constructor
  · rintro ⟨b, j, a, h, hj, hn⟩
    cases b with
    | nil =>
      simp only [JMems.toList, List.nil_append, List.cons.injEq, Prod.mk.injEq] at h
      obtain ⟨⟨rfl, rfl⟩, rfl⟩ := h
      refine .inr ⟨rfl, hj, ?_⟩
      rintro s' ⟨b', j', a', h', hj', -⟩
      exact hn (j', .str s') (by rw [h']; simp) hj' s' rfl
    | cons x b =>
      simp only [JMems.toList, List.cons_append, List.cons.injEq] at h
      exact .inl ⟨b, j, a, h.2, hj, hn⟩
  · rintro (⟨b, j, a, h, hj, hn⟩ | ⟨rfl, hk, hn⟩)
    · exact ⟨(k, v) :: b, j, a, by simp only [JMems.toList, List.cons_append, h], hj, hn⟩
    · refine ⟨[], k, ms.toList, rfl, hk, fun e he hs s' hes => ?_⟩
      -- the last string among the members after it
      have key : ∀ l : List (String × JVal), (∃ e ∈ l, SameName e.1 name ∧ ∃ s', e.2 = .str s') →
          ∃ s' b j a, l = b ++ (j, .str s') :: a ∧ SameName j name ∧ ∀ e ∈ a, SameName e.1 name → ∀ s', e.2 ≠ .str s' := by
        intro l
        induction l with
        | nil => rintro ⟨e, he, -⟩; cases he
        | cons x l ih =>
          intro hex
          by_cases hl : ∃ e ∈ l, SameName e.1 name ∧ ∃ s', e.2 = .str s'
          · obtain ⟨s', b, j, a, e1, e2, e3⟩ := ih hl
            exact ⟨s', x :: b, j, a, by rw [e1]; rfl, e2, e3⟩
          · obtain ⟨e, he, h1, s', h2⟩ := hex
            rcases List.mem_cons.1 he with rfl | he
            · refine ⟨s', [], e.1, l, ?_, h1, fun y hy hy1 s'' hy2 => hl ⟨y, hy, hy1, s'', hy2⟩⟩
              rw [← h2]; rfl
            · exact absurd ⟨e, he, h1, s', h2⟩ hl
      obtain ⟨s'', b, j, a, e1, e2, e3⟩ := key ms.toList ⟨e, he, hs, s', hes⟩
      exact hn s'' ⟨b, j, a, e1, e2, e3⟩

section
variable {δ φ : Type} [DecidableEq φ] {fields : List (φ × List Char)} {set : δ → φ → String → δ} {text : δ → φ → String} {name : φ → List Char}
  (hset : ∀ d f g s, text (set d f s) g = if f = g then s else text d g) (hext : ∀ {d e : δ}, (∀ f, text d f = text e f) → d = e)
  (hfields : ∀ k f, fieldFor fields k = some f ↔ SameName k (name f))
include hset hext hfields

theorem decode_spec : ∀ (ms : JMems) (d d' : δ), decode fields set d ms = some d' ↔
    (∀ e ∈ ms.toList, ∀ f , SameName e.1 (name f) → e.2 = .null ∨ ∃ s, e.2 = .str s) ∧
    ∀ f, LastString (name f) ms (text d' f) ∨ (text d' f = text d f ∧ ∀ s, ¬ LastString (name f) ms s)
  | .nil, d, d' => by
    simp only [decode, JMems.toList]
    constructor
    · intro h
      injection h with h
      subst h
      exact ⟨(fun e he => by cases he), fun f => .inr ⟨rfl, fun s => lastString_nil⟩⟩
    · rintro ⟨-, h⟩
      congr 1
      refine hext fun f => ?_
      rcases h f with h | h
      · exact absurd h lastString_nil
      · exact h.1.symm
  | .cons k v ms, d, d' => by
    have ih := decode_spec ms
    have hsame : ∀ {f g }, SameName k (name f) → SameName k (name g) → f = g := by
      intro f g hf hg
      have := ((hfields _ _).2 hf).symm.trans ((hfields _ _).2 hg)
      injection this
    -- a member that changes nothing
    have skip : (∀ f , SameName k (name f) → v = .null) → (decode fields set d (.cons k v ms) = decode fields set d ms) → (decode fields set d (.cons k v ms) = some d' ↔
        (∀ e ∈ (JMems.cons k v ms).toList, ∀ f , SameName e.1 (name f) → e.2 = .null ∨ ∃ s, e.2 = .str s) ∧
        ∀ f, LastString (name f) (.cons k v ms) (text d' f) ∨ (text d' f = text d f ∧ ∀ s, ¬ LastString (name f) (.cons k v ms) s)) := by
      intro hk he
      have hls : ∀ f s, LastString (name f) (.cons k v ms) s ↔ LastString (name f) ms s := by
        intro f s
        rw [lastString_cons]
        constructor
        · rintro (h | ⟨h, hn, -⟩)
          · exact h
          · rw [hk f hn] at h; cases h
        · exact .inl
      rw [he, ih]
      simp only [hls, JMems.toList, List.mem_cons, forall_eq_or_imp]
      constructor
      · rintro ⟨h1, h2⟩; exact ⟨⟨fun f hf => .inl (hk f hf), h1⟩, h2⟩
      · rintro ⟨⟨-, h1⟩, h2⟩; exact ⟨h1, h2⟩
    cases hf : fieldFor fields k with
    | none =>
      refine skip (fun f h => ?_) (by simp only [decode, hf])
      rw [(hfields _ _).2 h] at hf; cases hf
    | some f =>
      have hk := (hfields _ _).1 hf
      have bad : decode fields set d (.cons k v ms) = none → v ≠ .null → (∀ s, v ≠ .str s) → (decode fields set d (.cons k v ms) = some d' ↔
          (∀ e ∈ (JMems.cons k v ms).toList, ∀ f , SameName e.1 (name f) → e.2 = .null ∨ ∃ s, e.2 = .str s) ∧
          ∀ f, LastString (name f) (.cons k v ms) (text d' f) ∨ (text d' f = text d f ∧ ∀ s, ¬ LastString (name f) (.cons k v ms) s)) := by
        intro h1 h2 h3
        rw [h1]
        constructor
        · intro h; cases h
        · rintro ⟨h, -⟩
          rcases h (k, v) (by simp [JMems.toList]) f hk with h | ⟨s, h⟩
          · exact absurd h h2
          · exact absurd h (h3 s)
      cases v with
      | null => exact skip (fun _ _ => rfl) (by simp only [decode, hf])
      | bool b => exact bad (by simp only [decode, hf]) nofun nofun
      | num l => exact bad (by simp only [decode, hf]) nofun nofun
      | arr es => exact bad (by simp only [decode, hf]) nofun nofun
      | obj o => exact bad (by simp only [decode, hf]) nofun nofun
      | str t =>
        have e : decode fields set d (.cons k (.str t) ms) = decode fields set (set d f t) ms := by simp only [decode, hf]
        rw [e, ih]
        simp only [JMems.toList, List.mem_cons, forall_eq_or_imp]
        have hiff : ∀ g, (LastString (name g) ms (text d' g) ∨ (text d' g = text (set d f t) g ∧ ∀ s, ¬ LastString (name g) ms s)) ↔
            (LastString (name g) (.cons k (.str t) ms) (text d' g) ∨ (text d' g = text d g ∧ ∀ s, ¬ LastString (name g) (.cons k (.str t) ms) s)) := by
          intro g
          rw [hset]
          by_cases hg : f = g
          · subst hg
            rw [if_pos rfl]
            constructor
            · rintro (h | ⟨h1, h2⟩)
              · exact .inl (lastString_cons.2 (.inl h))
              · exact .inl (lastString_cons.2 (.inr ⟨by rw [h1], hk, h2⟩))
            · rintro (h | ⟨h1, h2⟩)
              · rcases lastString_cons.1 h with h | ⟨h1, -, h2⟩
                · exact .inl h
                · injection h1 with h1
                  exact .inr ⟨h1.symm, h2⟩
              · by_cases hl : ∀ s, ¬ LastString (name f) ms s
                · exact absurd (lastString_cons.2 (.inr ⟨rfl, hk, hl⟩)) (h2 t)
                · obtain ⟨s, hs⟩ := Classical.not_forall.1 hl
                  exact absurd (lastString_cons.2 (.inl (Classical.not_not.1 hs))) (h2 s)
          · rw [if_neg hg]
            have hls : ∀ s, LastString (name g) (.cons k (.str t) ms) s ↔ LastString (name g) ms s := by
              intro s
              rw [lastString_cons]
              constructor
              · rintro (h | ⟨-, hn, -⟩)
                · exact h
                · exact absurd (hsame hk hn) hg
              · exact .inl
            simp only [hls]
        constructor
        · rintro ⟨h1, h2⟩; exact ⟨⟨fun _ _ => .inr ⟨t, rfl⟩, h1⟩, fun g => (hiff g).1 (h2 g)⟩
        · rintro ⟨⟨-, h1⟩, h2⟩; exact ⟨h1, fun g => (hiff g).2 (h2 g)⟩


theorem decode_describes {d0 : δ} (h0 : ∀ f, text d0 f = "") (ms : JMems) (d : δ) : decode fields set d0 ms = some d ↔ Describes name ms (text d) := by
  rw [decode_spec hset hext hfields]
  unfold Describes
  simp only [h0]

end

end Json
end Goir
