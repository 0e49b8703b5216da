import Verif.Spec.Json
/-!
# json.Unmarshal inverts json.Marshal
-/
namespace Goir
namespace Json

/-- the characters written as `\uXXXX`. -/
def Special (c : Char) : Prop := c.toNat < 32 ∨ c = '<' ∨ c = '>' ∨ c = '&' ∨ c.toNat = 0x2028 ∨ c.toNat = 0x2029
instance (c : Char) : Decidable (Special c) := by unfold Special; exact inferInstance

/-- what a quoted character is read as. -/
def unitOf (c : Char) : SUnit :=
  if c = '"' ∨ c = '\\' ∨ c = '\n' ∨ c = '\r' ∨ c = '\t' then .char c else if Special c then .code c.toNat else .char c

theorem hexVal_hexDigit {n : Nat} (h : n < 16) : hexVal (hexDigit n) = some n := by
  have : ∀ n, n < 16 → hexVal (hexDigit n) = some n := by decide
  exact this n h

theorem special_small {c : Char} (h : Special c) : c.toNat < 0x2030 := by
  rcases h with h | rfl | rfl | rfl | h | h
  · omega
  · decide
  · decide
  · decide
  · omega
  · omega

theorem hex4_hexEscape {n : Nat} (h : n < 65536) :
    hex4 (hexDigit (n / 4096 % 16)) (hexDigit (n / 256 % 16)) (hexDigit (n / 16 % 16)) (hexDigit (n % 16)) = some n := by
  unfold hex4
  simp only [hexVal_hexDigit (Nat.mod_lt _ (by decide : 0 < 16))]
  show some _ = some _
  congr 1
  omega

theorem strUnits_plain {c : Char} (h1 : c ≠ '"') (h2 : c ≠ '\\') (h3 : ¬ c.toNat < 32) (t : List Char) :
    strUnits (c :: t) = (strUnits t).bind fun p => some (.char c :: p.1, p.2) := by
  rw [strUnits.eq_def]
  split
  · simp_all
  · simp_all
  · simp_all
  · simp_all
  · rename_i heq
    injection heq with e1 e2
    subst e1 e2
    rw [if_neg (by simp [h2]; omega)]
    rfl

theorem strUnits_quoteChar (c : Char) (t : List Char) : strUnits (quoteChar c ++ t) = (strUnits t).bind fun p => some (unitOf c :: p.1, p.2) := by
  unfold quoteChar unitOf
  by_cases h1 : c = '"'
  · subst h1; rfl
  by_cases h2 : c = '\\'
  · subst h2; rfl
  by_cases h3 : c = '\n'
  · subst h3; rfl
  by_cases h4 : c = '\r'
  · subst h4; rfl
  by_cases h5 : c = '\t'
  · subst h5; rfl
  have h0 : ¬ (c = '"' ∨ c = '\\' ∨ c = '\n' ∨ c = '\r' ∨ c = '\t') := by simp [h1, h2, h3, h4, h5]
  rw [if_neg h1, if_neg h2, if_neg h3, if_neg h4, if_neg h5, if_neg h0]
  by_cases h6 : Special c
  · have h6' := h6
    unfold Special at h6'
    rw [if_pos h6', if_pos h6]
    unfold hexEscape
    simp only [List.cons_append, List.nil_append]
    rw [strUnits.eq_3, hex4_hexEscape (by have := special_small h6; omega)]
    rfl
  · have h6' := h6
    unfold Special at h6'
    rw [if_neg h6', if_neg h6]
    exact strUnits_plain h1 h2 (fun h => h6 (.inl h)) t

theorem strUnits_quote (s : List Char) (t : List Char) : strUnits (s.flatMap quoteChar ++ '"' :: t) = some (s.map unitOf, t) := by
  induction s with
  | nil => rfl
  | cons c s ih =>
    rw [List.flatMap_cons, List.append_assoc, strUnits_quoteChar, ih]
    rfl

theorem codeChar_special {c : Char} (h : Special c) : codeChar c.toNat = c := by
  unfold codeChar
  have := special_small h
  rw [if_neg (by omega), Char.ofNat_toNat]

theorem unitChars_units (s : List Char) : unitChars (s.map unitOf) = s := by
  induction s with
  | nil => rfl
  | cons c s ih =>
    rw [List.map_cons]
    by_cases h1 : c = '"' ∨ c = '\\' ∨ c = '\n' ∨ c = '\r' ∨ c = '\t'
    · have e : unitOf c = .char c := by unfold unitOf; rw [if_pos h1]
      rw [e, unitChars, ih]
    by_cases h2 : Special c
    · have e : unitOf c = .code c.toNat := by unfold unitOf; rw [if_neg h1, if_pos h2]
      have hsm := special_small h2
      rw [e]
      have key : ∀ us, unitChars us = s → unitChars (.code c.toNat :: us) = c :: s := by
        intro us hus
        rw [unitChars.eq_def]
        split
        · contradiction
        · simp_all
        · rename_i heq
          injection heq with e1 e2
          injection e1 with e1
          subst e1 e2
          rw [if_neg (by omega), hus, codeChar_special h2]
        · rename_i heq
          injection heq with e1 e2
          injection e1 with e1
          subst e1 e2
          rw [hus, codeChar_special h2]
      exact key _ ih
    · have e : unitOf c = .char c := by unfold unitOf; rw [if_neg h1, if_neg h2]
      rw [e, unitChars, ih]

/-- a quoted string is read back. -/
theorem pstring_quote (s : String) (t : List Char) : pstring (s.toList.flatMap quoteChar ++ '"' :: t) = some (s, t) := by
  unfold pstring
  rw [strUnits_quote]
  show some (String.ofList (unitChars (s.toList.map unitOf)), t) = _
  rw [unitChars_units, String.ofList_toList]

theorem quote_append (s : String) (t : List Char) : quote s ++ t = '"' :: (s.toList.flatMap quoteChar ++ '"' :: t) := by
  unfold quote; simp

/-- what may follow a value: nothing, or a character that is not part of a number. -/
def Delim (t : List Char) : Prop := ∀ c r, t = c :: r → c = ',' ∨ c = ']' ∨ c = '}' ∨ c = ' ' ∨ c = '\t' ∨ c = '\n' ∨ c = '\r'

theorem isDigit_iff {c : Char} : isDigit c = true ↔ '0' ≤ c ∧ c ≤ '9' := by
  unfold isDigit
  simp only [decide_eq_true_eq]
  exact Iff.rfl

/-- nothing, or a character that is not a digit. -/
def NoDigit (t : List Char) : Prop := ∀ c r, t = c :: r → isDigit c = false

theorem pdigits_append {ds t : List Char} (h : Digits ds) (ht : NoDigit t) : pdigits (ds ++ t) = some (ds, t) := by
  have h1 : ∀ ds : List Char, (∀ c ∈ ds, isDigit c = true) → (ds ++ t).takeWhile isDigit = ds ∧ (ds ++ t).dropWhile isDigit = t := by
    intro ds
    induction ds with
    | nil =>
      intro _
      cases t with
      | nil => exact ⟨rfl, rfl⟩
      | cons c r => simp [ht c r rfl]
    | cons c ds ih =>
      intro hd
      have hc := hd c (by simp)
      obtain ⟨i1, i2⟩ := ih fun x hx => hd x (by simp [hx])
      simp [hc, i1, i2]
  obtain ⟨e1, e2⟩ := h1 ds fun c hc => isDigit_iff.2 (h.2 c hc)
  unfold pdigits
  rw [e1, e2, if_neg]
  simp [h.1]

theorem delim_noDigit {t : List Char} (h : Delim t) : NoDigit t := by
  intro c r e
  rcases h c r e with rfl | rfl | rfl | rfl | rfl | rfl | rfl <;> decide

theorem pexp_append {e t : List Char} (h : IsExp e) (ht : Delim t) : pexp (e ++ t) = some (e, t) := by
  rcases h with rfl | ⟨c, sg, ds, hc, hsg, hd, rfl⟩
  · cases t with
    | nil => rfl
    | cons c r =>
      show pexp (c :: r) = _
      unfold pexp
      simp only
      rw [if_neg]
      rcases ht c r rfl with rfl | rfl | rfl | rfl | rfl | rfl | rfl <;> decide
  · have hpd := pdigits_append hd (delim_noDigit ht)
    obtain ⟨d, ds', rfl⟩ := List.exists_cons_of_ne_nil hd.1
    have hdd := isDigit_iff.2 (hd.2 d (by simp))
    have hne : ¬ (d = '+' ∨ d = '-') := by rintro (rfl | rfl) <;> revert hdd <;> decide
    rcases hsg with rfl | rfl | rfl
    · show pexp (c :: d :: (ds' ++ t)) = _
      unfold pexp
      simp only
      rw [if_pos hc, if_neg hne]
      have : pdigits (d :: (ds' ++ t)) = some (d :: ds', t) := hpd
      rw [this]; rfl
    · show pexp (c :: '+' :: (d :: ds' ++ t)) = _
      unfold pexp
      simp only
      rw [if_pos hc, if_pos (by decide), hpd]; rfl
    · show pexp (c :: '-' :: (d :: ds' ++ t)) = _
      unfold pexp
      simp only
      rw [if_pos hc, if_pos (by decide), hpd]; rfl

theorem exp_head {e t : List Char} (h : IsExp e) (ht : Delim t) {c : Char} {r : List Char} (he : e ++ t = c :: r) : isDigit c = false ∧ c ≠ '.' := by
  rcases h with rfl | ⟨c', sg, ds, hc, -, -, rfl⟩
  · rcases ht c r he with rfl | rfl | rfl | rfl | rfl | rfl | rfl <;> decide
  · injection he with e1 _
    subst e1
    rcases hc with rfl | rfl <;> decide

theorem pfrac_append {f e t : List Char} (h : IsFrac f) (he : IsExp e) (ht : Delim t) : pfrac (f ++ (e ++ t)) = some (f, e ++ t) := by
  rcases h with rfl | ⟨ds, hd, rfl⟩
  · cases hc : e ++ t with
    | nil => rfl
    | cons c r =>
      have := (exp_head he ht hc).2
      show pfrac (c :: r) = _
      unfold pfrac
      split
      · rename_i heq; injection heq with e1; exact absurd e1 this
      · rfl
  · show pfrac ('.' :: (ds ++ (e ++ t))) = _
    unfold pfrac
    simp only
    rw [pdigits_append hd fun c r hc => (exp_head he ht hc).1]
    rfl

theorem frac_head {f e t : List Char} (h : IsFrac f) (he : IsExp e) (ht : Delim t) : NoDigit (f ++ (e ++ t)) := by
  rcases h with rfl | ⟨ds, -, rfl⟩
  · exact fun c r hc => (exp_head he ht hc).1
  · intro c r hc
    injection hc with e1
    subst e1; decide

theorem pint_append {i s : List Char} (h : IsInt i) (hs : NoDigit s) : pint (i ++ s) = some (i, s) := by
  rcases h with rfl | ⟨hd, h0⟩
  · rfl
  · obtain ⟨d, ds, rfl⟩ := List.exists_cons_of_ne_nil hd.1
    have hp := pdigits_append hd hs
    show pint (d :: (ds ++ s)) = _
    unfold pint
    split
    · rename_i heq
      injection heq with e1
      subst e1
      simp at h0
    · exact hp

/-- a number is read up to what follows it. -/
theorem pnumber_append {lit t : List Char} (h : IsNumber lit) (ht : Delim t) : pnumber (lit ++ t) = some (lit, t) := by
  obtain ⟨sg, i, f, e, hsg, hi, hf, he, rfl⟩ := h
  have h1 := pint_append hi (frac_head hf he ht)
  have h2 := pfrac_append hf he ht
  have h3 := pexp_append he ht
  rcases hsg with rfl | rfl
  · have hd : ∀ r, i ++ (f ++ (e ++ t)) ≠ '-' :: r := by
      intro r hr
      rcases hi with rfl | ⟨⟨hne, hd⟩, -⟩
      · exact absurd hr (by simp)
      · obtain ⟨d, ds, rfl⟩ := List.exists_cons_of_ne_nil hne
        injection hr with e1
        have := hd d (by simp)
        subst e1
        revert this; decide
    have key : ∀ s, (∀ r, s ≠ '-' :: r) → pnumber s = (pint s).bind fun p => (pfrac p.2).bind fun q => (pexp q.2).bind fun w =>
        some ([] ++ p.1 ++ q.1 ++ w.1, w.2) := by
      intro s hs
      unfold pnumber
      cases s with
      | nil => rfl
      | cons c r =>
        by_cases hc : c = '-'
        · subst hc; exact absurd rfl (hs r)
        · split
          rename_i heq
          split at heq
          · rename_i h; injection h with h; exact absurd h hc
          · injection heq with a b; subst a b; rfl
    have e0 : [] ++ (i ++ (f ++ e)) ++ t = i ++ (f ++ (e ++ t)) := by simp
    rw [e0, key _ hd, h1]
    simp only [Option.bind_some, h2, h3]
    simp
  · have e0 : ['-'] ++ (i ++ (f ++ e)) ++ t = '-' :: (i ++ (f ++ (e ++ t))) := by simp
    rw [e0]
    have key : ∀ r, pnumber ('-' :: r) = (pint r).bind fun p => (pfrac p.2).bind fun q => (pexp q.2).bind fun w =>
        some (['-'] ++ p.1 ++ q.1 ++ w.1, w.2) := fun r => rfl
    rw [key, h1]
    simp only [Option.bind_some, h2, h3]
    simp

end Json

mutual
/-- the numbers of a value are JSON literals. -/
def JVal.Valid : JVal → Prop
  | .num lit => Json.IsNumber lit
  | .arr es => es.Valid
  | .obj ms => ms.Valid
  | _ => True
def JElems.Valid : JElems → Prop
  | .nil => True
  | .cons v es => v.Valid ∧ es.Valid
def JMems.Valid : JMems → Prop
  | .nil => True
  | .cons _ v ms => v.Valid ∧ ms.Valid
end

namespace Json

theorem ws_of {c : Char} {t : List Char} (h : isWs c = false) : ws (c :: t) = c :: t := by unfold ws; simp [h]

/-- a text of a value begins with a character that is not white space nor a closing bracket. -/
theorem render_head (v : JVal) (hv : v.Valid) : ∃ c r, render v = c :: r ∧ isWs c = false ∧ c ≠ ']' ∧ c ≠ '}' := by
  cases v with
  | null => exact ⟨_, _, rfl, by decide, by decide, by decide⟩
  | bool b => cases b <;> exact ⟨_, _, rfl, by decide, by decide, by decide⟩
  | str s => exact ⟨_, _, rfl, by decide, by decide, by decide⟩
  | arr es => cases es <;> exact ⟨_, _, rfl, by decide, by decide, by decide⟩
  | obj ms => cases ms <;> exact ⟨_, _, rfl, by decide, by decide, by decide⟩
  | num lit =>
    obtain ⟨sg, i, f, e, hsg, hi, -, -, rfl⟩ := hv
    rcases hsg with rfl | rfl
    · have : ∃ d ds, i = d :: ds ∧ isDigit d = true := by
        rcases hi with rfl | ⟨⟨hne, hd⟩, -⟩
        · exact ⟨_, _, rfl, by decide⟩
        · obtain ⟨d, ds, rfl⟩ := List.exists_cons_of_ne_nil hne
          exact ⟨d, ds, rfl, isDigit_iff.2 (hd d (by simp))⟩
      obtain ⟨d, ds, rfl, hd⟩ := this
      refine ⟨d, ds ++ (f ++ e), rfl, ?_, ?_, ?_⟩
      · have h0 : ∀ x : Char, isWs x = true → isDigit x = false := by
          intro x hx
          unfold isWs at hx
          simp only [decide_eq_true_eq] at hx
          rcases hx with rfl | rfl | rfl | rfl <;> decide
        cases hc : isWs d with
        | false => rfl
        | true => rw [h0 d hc] at hd; cases hd
      · rintro rfl; revert hd; decide
      · rintro rfl; revert hd; decide
    · exact ⟨'-', i ++ (f ++ e), rfl, by decide, by decide, by decide⟩

theorem ws_renderElems (es : JElems) (t : List Char) : ws (renderElems es ++ t) = renderElems es ++ t := by
  cases es <;> exact ws_of (by decide)

theorem ws_renderMems (ms : JMems) (t : List Char) : ws (renderMems ms ++ t) = renderMems ms ++ t := by
  cases ms <;> exact ws_of (by decide)

theorem delim_renderElems (es : JElems) (t : List Char) : Delim (renderElems es ++ t) := by
  cases es with
  | nil => intro c r h; injection h with h; exact .inr (.inl h.symm)
  | cons v es => intro c r h; injection h with h; exact .inl h.symm

theorem delim_renderMems (ms : JMems) (t : List Char) : Delim (renderMems ms ++ t) := by
  cases ms with
  | nil => intro c r h; injection h with h; exact .inr (.inr (.inl h.symm))
  | cons k v ms => intro c r h; injection h with h; exact .inl h.symm

theorem ws_render {v : JVal} (hv : v.Valid) (t : List Char) : ws (render v ++ t) = render v ++ t := by
  obtain ⟨c, r, e, h, -, -⟩ := render_head v hv
  rw [e]; exact ws_of h

/-- reading a number is the last case. -/
theorem pvalue_number {lit : List Char} (h : IsNumber lit) {t : List Char} (ht : Delim t) (fuel : Nat) : pvalue (fuel + 1) (lit ++ t) = some (.num lit, t) := by
  have hp := pnumber_append h ht
  have hhead : ∃ c r, lit ++ t = c :: r ∧ (c = '-' ∨ isDigit c = true) := by
    obtain ⟨sg, i, f, e, hsg, hi, -, -, rfl⟩ := h
    rcases hsg with rfl | rfl
    · rcases hi with rfl | ⟨⟨hne, hd⟩, -⟩
      · exact ⟨'0', _, rfl, .inr (by decide)⟩
      · obtain ⟨d, ds, rfl⟩ := List.exists_cons_of_ne_nil hne
        exact ⟨d, _, rfl, .inr (isDigit_iff.2 (hd d (by simp)))⟩
    · exact ⟨'-', _, rfl, .inl rfl⟩
  obtain ⟨c, r, e, hc⟩ := hhead
  rw [e] at hp ⊢
  unfold pvalue
  split
  · rename_i heq; injection heq with e1; subst e1; exact absurd hc (by decide)
  · rename_i heq; injection heq with e1; subst e1; exact absurd hc (by decide)
  · rename_i heq; injection heq with e1; subst e1; exact absurd hc (by decide)
  · rename_i heq; injection heq with e1; subst e1; exact absurd hc (by decide)
  · rename_i heq; injection heq with e1; subst e1; exact absurd hc (by decide)
  · rename_i heq; injection heq with e1; subst e1; exact absurd hc (by decide)
  · rw [hp]; rfl

mutual
/-- a written value is read back. -/
theorem pvalue_render : ∀ (v : JVal), v.Valid → ∀ (t : List Char), Delim t → ∀ fuel, (render v).length < fuel → pvalue fuel (render v ++ t) = some (v, t)
  | .null, _, t, _, fuel + 1, _ => rfl
  | .bool true, _, t, _, fuel + 1, _ => rfl
  | .bool false, _, t, _, fuel + 1, _ => rfl
  | .num lit, hv, t, ht, fuel + 1, _ => pvalue_number hv ht fuel
  | .str s, _, t, _, fuel + 1, _ => by
    show pvalue (fuel + 1) (quote s ++ t) = _
    rw [quote_append]
    unfold pvalue
    simp only
    rw [pstring_quote]; rfl
  | .arr .nil, _, t, _, fuel + 1, _ => rfl
  | .arr (.cons v es), hv, t, _, fuel + 1, hf => by
    have hr := pelems_render v es hv.1 hv.2 t fuel (by
      have : (render (.arr (.cons v es))).length = (render v).length + (renderElems es).length + 1 := by simp [render]
      omega)
    obtain ⟨c, r, e, hws, hne, -⟩ := render_head v hv.1
    show pvalue (fuel + 1) ('[' :: ((render v ++ renderElems es) ++ t)) = _
    rw [List.append_assoc]
    unfold pvalue
    simp only
    rw [ws_render hv.1, e] 
    rw [e] at hr
    simp only [List.cons_append] at hr ⊢
    split
    · rename_i heq; injection heq with e1; exact absurd e1 hne
    · rw [hr]; rfl
  | .obj .nil, _, t, _, fuel + 1, _ => rfl
  | .obj (.cons k v ms), hv, t, _, fuel + 1, hf => by
    have hr := pmembers_render k v ms hv.1 hv.2 t fuel (by
      have : (render (.obj (.cons k v ms))).length = (quote k).length + (render v).length + (renderMems ms).length + 2 := by simp [render]; omega
      omega)
    show pvalue (fuel + 1) ('{' :: ((quote k ++ ':' :: (render v ++ renderMems ms)) ++ t)) = _
    have e : (quote k ++ ':' :: (render v ++ renderMems ms)) ++ t = quote k ++ (':' :: (render v ++ (renderMems ms ++ t))) := by simp
    rw [e]
    unfold pvalue
    simp only
    rw [quote_append] at hr ⊢
    rw [ws_of (by decide)]
    split
    · rename_i heq; injection heq with e1; exact absurd e1 (by decide)
    · rw [hr]; rfl
/-- the elements of an array. -/
theorem pelems_render : ∀ (v : JVal) (es : JElems), v.Valid → es.Valid → ∀ (t : List Char) (fuel : Nat), (render v).length + (renderElems es).length < fuel →
    pelems fuel (render v ++ (renderElems es ++ t)) = some (.cons v es, t)
  | v, es, hv, hes, t, fuel + 1, hf => by
    have h1 : 1 ≤ (renderElems es).length := by cases es <;> simp [renderElems]
    unfold pelems
    rw [pvalue_render v hv (renderElems es ++ t) (delim_renderElems es t) fuel (by omega)]
    dsimp only [bind, Option.bind]
    rw [ws_renderElems]
    cases es with
    | nil => rfl
    | cons v' es' =>
      have hr := pelems_render v' es' hes.1 hes.2 t fuel (by simp [renderElems] at hf; omega)
      have e : renderElems (.cons v' es') ++ t = ',' :: (render v' ++ (renderElems es' ++ t)) := by simp [renderElems]
      rw [e]
      simp only
      rw [ws_render hes.1, hr]; rfl
/-- the members of an object. -/
theorem pmembers_render : ∀ (k : String) (v : JVal) (ms : JMems), v.Valid → ms.Valid → ∀ (t : List Char) (fuel : Nat),
    (quote k).length + (render v).length + (renderMems ms).length < fuel →
    pmembers fuel (quote k ++ (':' :: (render v ++ (renderMems ms ++ t)))) = some (.cons k v ms, t)
  | k, v, ms, hv, hms, t, fuel + 1, hf => by
    have hq : 2 ≤ (quote k).length := by simp [quote]
    have h1 : 1 ≤ (renderMems ms).length := by cases ms <;> simp [renderMems]
    rw [quote_append]
    unfold pmembers
    simp only
    rw [pstring_quote]
    dsimp only [bind, Option.bind]
    rw [ws_of (by decide)]
    split
    case h_2 hn => exact absurd rfl (hn _)
    rename_i heq
    injection heq with _ e2
    subst e2
    rw [ws_render hv, pvalue_render v hv (renderMems ms ++ t) (delim_renderMems ms t) fuel (by omega)]
    dsimp only
    rw [ws_renderMems]
    cases ms with
    | nil => rfl
    | cons k' v' ms' =>
      have hr := pmembers_render k' v' ms' hms.1 hms.2 t fuel (by simp [renderMems] at hf; omega)
      have e : renderMems (.cons k' v' ms') ++ t = ',' :: (quote k' ++ (':' :: (render v' ++ (renderMems ms' ++ t)))) := by simp [renderMems]
      have hw : ws (quote k' ++ (':' :: (render v' ++ (renderMems ms' ++ t)))) = quote k' ++ (':' :: (render v' ++ (renderMems ms' ++ t))) := by
        rw [quote_append]; exact ws_of (by decide)
      rw [e]
      show Option.bind (pmembers fuel (ws (quote k' ++ (':' :: (render v' ++ (renderMems ms' ++ t))))))
        (fun p : JMems × List Char => some (JMems.cons k v p.1, p.2)) = _
      rw [hw, hr]; rfl
end

/-- a written value is read back, also with a newline after it. -/
theorem parseText_render (v : JVal) (hv : v.Valid) (t : List Char) (ht : t = [] ∨ t = ['\n']) : parseText (render v ++ t) = some v := by
  have hd : Delim t := by
    rcases ht with rfl | rfl
    · intro c r h; cases h
    · intro c r h; injection h with h; exact .inr (.inr (.inr (.inr (.inr (.inl h.symm)))))
  unfold parseText
  rw [ws_render hv, pvalue_render v hv t hd _ (by simp; omega)]
  rcases ht with rfl | rfl <;> rfl

theorem parse_render (v : JVal) (hv : v.Valid) (hd : v.depth ≤ maxDepth) (t : List Char) (ht : t = [] ∨ t = ['\n']) : parse (render v ++ t) = some v := by
  unfold parse
  rw [parseText_render v hv t ht]
  show (if v.depth ≤ maxDepth then some v else none) = _
  rw [if_pos hd]

end Json
end Goir
