import Verif.Model.Strconv
import Verif.Spec.Decimal
import Verif.Lemmas.Float64
import Mathlib.Data.Nat.Digits.Defs
import Mathlib.Tactic.Linarith
import Mathlib.Tactic.Positivity
import Mathlib.Tactic.FieldSimp
import Mathlib.Tactic.NormNum
import Mathlib.Tactic.IntervalCases
/-!
# Facts about numbers as text
-/
namespace Goir
namespace Strconv
open Spec Json R53

/-! ### digits -/

theorem digitsVal_go (ds : List Char) (n : Nat) : ds.foldl (fun n c => 10 * n + (c.toNat - '0'.toNat)) n = n * 10 ^ ds.length + digitsVal ds := by
  unfold digitsVal
  induction ds generalizing n with
  | nil => simp
  | cons c r ih =>
    simp only [List.foldl_cons, List.length_cons]
    rw [ih, ih (10 * 0 + _)]
    ring

theorem digitsVal_append (a b : List Char) : digitsVal (a ++ b) = digitsVal a * 10 ^ b.length + digitsVal b := by
  rw [digitsVal, List.foldl_append, digitsVal_go]; rfl

theorem digitsVal_zeros (n : Nat) : digitsVal (List.replicate n '0') = 0 := by
  induction n with
  | zero => rfl
  | succ n ih =>
    have : List.replicate (n+1) '0' = ['0'] ++ List.replicate n '0' := rfl
    rw [this, digitsVal_append, ih]
    have e2 : digitsVal ['0'] = 0 := by decide
    rw [e2]; simp

theorem toDigits_step {d : Nat} (h : 10 ≤ d) : Nat.toDigits 10 d = Nat.toDigits 10 (d / 10) ++ [Nat.digitChar (d % 10)] := by
  exact Nat.toDigits_of_base_le (by norm_num) h

theorem toDigits_lt {d : Nat} (h : d < 10) : Nat.toDigits 10 d = [Nat.digitChar d] := Nat.toDigits_of_lt_base h

theorem digitChar_val {d : Nat} (h : d < 10) : (Nat.digitChar d).toNat = 48 + d ∧ '0' ≤ Nat.digitChar d ∧ Nat.digitChar d ≤ '9' := by
  interval_cases d <;> decide

theorem digitsVal_toDigits (d : Nat) : digitsVal (Nat.toDigits 10 d) = d := by
  induction d using Nat.strong_induction_on with
  | _ d ih =>
    rcases Nat.lt_or_ge d 10 with h | h
    · rw [toDigits_lt h]; simp [digitsVal, (digitChar_val h).1]
    · rw [toDigits_step h, digitsVal_append, ih (d / 10) (by omega)]
      have := (digitChar_val (Nat.mod_lt d (by norm_num : 10 > 0))).1
      simp only [digitsVal, List.foldl_cons, List.foldl_nil, this, List.length_singleton, pow_one]
      have : '0'.toNat = 48 := rfl
      rw [this]; omega

theorem digits_toDigits (d : Nat) : Json.Digits (Nat.toDigits 10 d) := by
  induction d using Nat.strong_induction_on with
  | _ d ih =>
    rcases Nat.lt_or_ge d 10 with h | h
    · rw [toDigits_lt h]; exact ⟨by simp, by simpa using (digitChar_val h).2⟩
    · rw [toDigits_step h]
      refine ⟨by simp, fun c hc => ?_⟩
      rcases List.mem_append.1 hc with hc | hc
      · exact (ih (d / 10) (by omega)).2 c hc
      · rw [List.mem_singleton.1 hc]; exact (digitChar_val (Nat.mod_lt d (by norm_num))).2

theorem head_toDigits {d : Nat} (h : 0 < d) : (Nat.toDigits 10 d).head? ≠ some '0' := by
  induction d using Nat.strong_induction_on with
  | _ d ih =>
    rcases Nat.lt_or_ge d 10 with h' | h'
    · rw [toDigits_lt h']; interval_cases d <;> decide
    · rw [toDigits_step h']
      have := ih (d / 10) (by omega) (by omega)
      have hn := (digits_toDigits (d / 10)).1
      cases hc : Nat.toDigits 10 (d / 10) with
      | nil => exact absurd hc hn
      | cons a b => rw [hc] at this; simpa using this

theorem isInt_toDigits (d : Nat) : IsInt (Nat.toDigits 10 d) := by
  rcases Nat.eq_zero_or_pos d with rfl | h
  · left; rfl
  · exact .inr ⟨digits_toDigits d, head_toDigits h⟩

theorem length_toDigits_pos (d : Nat) : 0 < (Nat.toDigits 10 d).length := List.length_pos_iff.2 (digits_toDigits d).1

/-- the number of digits. -/
theorem lt_pow_length (d : Nat) : d < 10 ^ (Nat.toDigits 10 d).length := by
  induction d using Nat.strong_induction_on with
  | _ d ih =>
    rcases Nat.lt_or_ge d 10 with h | h
    · rw [toDigits_lt h]; simpa using h
    · rw [toDigits_step h, List.length_append, List.length_singleton, pow_succ]
      have := ih (d / 10) (by omega); omega

theorem length_le_of_lt {d n : Nat} (hn : 0 < n) (h : d < 10 ^ n) : (Nat.toDigits 10 d).length ≤ n := by
  induction d using Nat.strong_induction_on generalizing n with
  | _ d ih =>
    rcases Nat.lt_or_ge d 10 with h' | h'
    · rw [toDigits_lt h']; exact hn
    · rw [toDigits_step h', List.length_append, List.length_singleton]
      obtain ⟨k, rfl⟩ : ∃ k, n = k + 1 := ⟨n - 1, by omega⟩
      rw [pow_succ] at h
      have hk : 0 < k := by
        rcases Nat.eq_zero_or_pos k with rfl | hk
        · simp at h; omega
        · exact hk
      have := ih (d / 10) (by omega) hk (by omega)
      omega

/-! ### what the formats stand for -/

theorem Digits.append {a b : List Char} (ha : Json.Digits a) (hb : ∀ c ∈ b, '0' ≤ c ∧ c ≤ '9') : Json.Digits (a ++ b) :=
  ⟨by simp [ha.1], fun c hc => (List.mem_append.1 hc).elim (ha.2 c) (hb c)⟩

theorem zeros_digits (n : Nat) : ∀ c ∈ List.replicate n '0', '0' ≤ c ∧ c ≤ '9' := by
  intro c hc; rw [(List.mem_replicate.1 hc).2]; decide

/-- a number whose text begins like its digits. -/
theorem isInt_take {ds : List Char} (h : IsInt ds) (h0 : ds.head? ≠ some '0') {n : Nat} (hn : 0 < n) : IsInt (ds.take n) := by
  rcases h with rfl | ⟨h1, h2⟩
  · exact absurd rfl h0
  · cases ds with
    | nil => exact absurd rfl h1.1
    | cons c r =>
      obtain ⟨k, rfl⟩ : ∃ k, n = k + 1 := ⟨n - 1, by omega⟩
      refine .inr ⟨⟨by simp, fun x hx => h1.2 x (List.take_subset _ _ hx)⟩, by simpa using h0⟩

theorem denotes_fmtF {d : Nat} (hd : 0 < d) (e : Int) : Denotes (fmtF (Nat.toDigits 10 d) ((Nat.toDigits 10 d).length + e)) false (d * 10 ^ e) := by
  have hv := digitsVal_toDigits d
  have hD := digits_toDigits d
  have h0 := head_toDigits hd
  have hl := length_toDigits_pos d
  generalize hds : Nat.toDigits 10 d = ds at *
  unfold fmtF
  split
  · rename_i h
    refine ⟨['0'], '.' :: (List.replicate (-((ds.length : Int) + e)).toNat '0' ++ ds), [], digitsVal ds / 10 ^ ((-((ds.length : Int) + e)).toNat + ds.length), 0, by simp, .inl rfl, .inr ⟨_, ?_, rfl, ?_⟩, .inl ⟨rfl, rfl⟩, ?_⟩
    · exact ⟨by simp [hD.1], fun c hc => (List.mem_append.1 hc).elim (zeros_digits _ c) (hD.2 c)⟩
    · rw [digitsVal_append, digitsVal_zeros, List.length_append, List.length_replicate]; simp
    · have e1 : e = -(((-((ds.length : Int) + e)).toNat + ds.length : Nat) : Int) := by push_cast; omega
      have e2 : digitsVal ['0'] = 0 := by decide
      rw [e2, hv]
      conv_lhs => rw [e1, zpow_neg, zpow_natCast]
      simp [div_eq_mul_inv]
  · split
    · rename_i h1 h2
      refine ⟨ds ++ List.replicate ((ds.length : Int) + e - ds.length).toNat '0', [], [], 0, 0, by simp, .inr ⟨Digits.append hD (zeros_digits _), ?_⟩, .inl ⟨rfl, rfl⟩, .inl ⟨rfl, rfl⟩, ?_⟩
      · cases ds with
        | nil => exact absurd rfl hD.1
        | cons c r => simpa using h0
      · rw [digitsVal_append, digitsVal_zeros, List.length_replicate, hv]
        have : e = (((ds.length : Int) + e - ds.length).toNat : Int) := by omega
        conv_lhs => rw [this, zpow_natCast]
        push_cast; simp
    · rename_i h1 h2
      have hk : ((ds.length : Int) + e).toNat < ds.length := by omega
      have hk0 : 0 < ((ds.length : Int) + e).toNat := by omega
      set k := ((ds.length : Int) + e).toNat with hkk
      refine ⟨ds.take k, '.' :: ds.drop k, [], digitsVal (ds.drop k) / 10 ^ (ds.drop k).length, 0, by simp, isInt_take (hds ▸ isInt_toDigits d) h0 hk0, .inr ⟨_, ⟨?_, ?_⟩, rfl, rfl⟩, .inl ⟨rfl, rfl⟩, ?_⟩
      · intro h; have := congrArg List.length h; simp at this; omega
      · exact fun c hc => hD.2 c (List.drop_subset _ _ hc)
      · have e1 : e = -((ds.drop k).length : Int) := by rw [List.length_drop]; omega
        have e2 : (d : ℚ) = digitsVal (ds.take k) * 10 ^ (ds.drop k).length + digitsVal (ds.drop k) := by
          rw [← hv]
          conv_lhs => rw [← List.take_append_drop k ds, digitsVal_append]
          push_cast; ring
        rw [e2, e1, zpow_neg, zpow_natCast]
        have : (10:ℚ) ^ (ds.drop k).length ≠ 0 := by positivity
        field_simp

theorem expIs_sign {exp : Int} {ds : List Char} (hd : Json.Digits ds) (hv : digitsVal ds = exp.natAbs) : ExpIs ('e' :: (if exp < 0 then '-' else '+') :: ds) exp := by
  refine .inr ⟨'e', [if exp < 0 then '-' else '+'], ds, .inl rfl, hd, rfl, ?_⟩
  split
  · right; exact ⟨rfl, by omega⟩
  · left; exact ⟨.inr rfl, by omega⟩

theorem expIs_fmtExp (exp : Int) : ExpIs (fmtExp exp) exp := by
  unfold fmtExp
  refine expIs_sign ?_ ?_
  · split
    · exact ⟨by simp, fun c hc => (List.mem_cons.1 hc).elim (fun h => by subst h; decide) ((digits_toDigits _).2 c)⟩
    · exact digits_toDigits _
  · split
    · have : ∀ l, digitsVal ('0' :: l) = digitsVal l := fun l => by
        have : '0' :: l = ['0'] ++ l := rfl
        rw [this, digitsVal_append]
        have e2 : digitsVal ['0'] = 0 := by decide
        rw [e2]; simp
      rw [this, digitsVal_toDigits]
    · exact digitsVal_toDigits _

/-- the digits in front of an exponent. -/
theorem denotes_e {d : Nat} (hd : 0 < d) {e : Int} {x : List Char} (hx : ExpIs x ((Nat.toDigits 10 d).length + e - 1)) :
    Denotes ((Nat.toDigits 10 d).take 1 ++ ((if (Nat.toDigits 10 d).length ≤ 1 then [] else '.' :: (Nat.toDigits 10 d).drop 1) ++ x)) false (d * 10 ^ e) := by
  have hv := digitsVal_toDigits d
  have hD := digits_toDigits d
  have h0 := head_toDigits hd
  have hl := length_toDigits_pos d
  generalize hds : Nat.toDigits 10 d = ds at *
  have e1 : (d : ℚ) = digitsVal (ds.take 1) * 10 ^ (ds.drop 1).length + digitsVal (ds.drop 1) := by
    rw [← hv]
    conv_lhs => rw [← List.take_append_drop 1 ds, digitsVal_append]
    push_cast; ring
  have e2 : e = ((ds.length : Int) + e - 1) + -((ds.drop 1).length : Int) := by rw [List.length_drop]; omega
  refine ⟨ds.take 1, if ds.length ≤ 1 then [] else '.' :: ds.drop 1, x, digitsVal (ds.drop 1) / 10 ^ (ds.drop 1).length, _, by simp, isInt_take (hds ▸ isInt_toDigits d) h0 (by norm_num), ?_, hx, ?_⟩
  · split
    · rename_i h
      have : ds.drop 1 = [] := List.drop_eq_nil_iff.2 h
      left; rw [this]; exact ⟨rfl, by simp [digitsVal]⟩
    · rename_i h
      right
      refine ⟨ds.drop 1, ⟨?_, fun c hc => hD.2 c (List.drop_subset _ _ hc)⟩, rfl, rfl⟩
      intro h'; exact h (List.drop_eq_nil_iff.1 h')
  · conv_lhs => rw [e2, zpow_add₀ (by norm_num), e1, zpow_neg, zpow_natCast]
    have : (10:ℚ) ^ (ds.drop 1).length ≠ 0 := by positivity
    field_simp

theorem denotes_fmtE {d : Nat} (hd : 0 < d) (e : Int) : Denotes (fmtE (Nat.toDigits 10 d) ((Nat.toDigits 10 d).length + e)) false (d * 10 ^ e) :=
  denotes_e hd (expIs_fmtExp _)

theorem cleanExp_cases (p : List Char) {sg : Char} {ds : List Char} (hs : sg = '-' ∨ sg = '+') (hd : Json.Digits ds) :
    cleanExp (p ++ 'e' :: sg :: ds) = p ++ 'e' :: sg :: ds ∨ ∃ c, ds = ['0', c] ∧ cleanExp (p ++ 'e' :: sg :: ds) = p ++ 'e' :: sg :: [c] := by
  unfold cleanExp
  split
  · rename_i x r h
    right
    have h' : p ++ 'e' :: sg :: ds = r.reverse ++ ['e', '-', '0', x] := by
      have := congrArg List.reverse h
      simpa using this
    obtain ⟨h1, h2⟩ := hd
    rcases List.eq_nil_or_concat ds with rfl | ⟨ds1, c1, rfl⟩
    · exact absurd rfl h1
    rcases List.eq_nil_or_concat ds1 with rfl | ⟨ds2, c2, rfl⟩
    · exfalso
      have e : (p ++ ['e']) ++ [sg, c1] = (r.reverse ++ ['e', '-']) ++ ['0', x] := by simpa using h'
      have := (List.append_inj_right' e rfl)
      rcases hs with rfl | rfl <;> simp at this
    rcases List.eq_nil_or_concat ds2 with rfl | ⟨ds3, c3, rfl⟩
    · have e : p ++ ['e', sg, c2, c1] = r.reverse ++ ['e', '-', '0', x] := by simpa using h'
      have e1 := List.append_inj_right' e rfl
      have e2 := List.append_inj_left' e rfl
      simp only [List.cons.injEq, and_true, true_and] at e1
      obtain ⟨rfl, rfl, rfl⟩ := e1
      exact ⟨c1, by simp, by rw [e2]; simp⟩
    · exfalso
      have e : (p ++ 'e' :: sg :: ds3) ++ [c3, c2, c1] = (r.reverse ++ ['e']) ++ ['-', '0', x] := by simpa using h'
      have e1 := List.append_inj_right' e rfl
      simp only [List.cons.injEq, and_true] at e1
      have := h2 c3 (by simp)
      rw [e1.1] at this
      exact absurd this (by decide)
  · left; rfl

theorem denotes_clean {d : Nat} (hd : 0 < d) (e : Int) : Denotes (cleanExp (fmtE (Nat.toDigits 10 d) ((Nat.toDigits 10 d).length + e))) false (d * 10 ^ e) := by
  set exp := ((Nat.toDigits 10 d).length : Int) + e - 1 with hexp
  set p := (Nat.toDigits 10 d).take 1 ++ (if (Nat.toDigits 10 d).length ≤ 1 then [] else '.' :: (Nat.toDigits 10 d).drop 1) with hp
  have h1 : fmtE (Nat.toDigits 10 d) ((Nat.toDigits 10 d).length + e) = p ++ fmtExp exp := by rw [hp, fmtE, List.append_assoc]
  have hE := expIs_fmtExp exp
  have key : ∀ x, ExpIs x exp → Denotes (p ++ x) false (d * 10 ^ e) := fun x hx => by
    rw [hp, List.append_assoc]; exact denotes_e hd hx
  rw [h1]
  have hdg : ∃ ds, fmtExp exp = 'e' :: (if exp < 0 then '-' else '+') :: ds ∧ Json.Digits ds ∧ digitsVal ds = exp.natAbs := by
    refine ⟨_, rfl, ?_, ?_⟩
    · split
      · exact ⟨by simp, fun c hc => (List.mem_cons.1 hc).elim (fun h => by subst h; decide) ((digits_toDigits _).2 c)⟩
      · exact digits_toDigits _
    · split
      · have : ∀ l, digitsVal ('0' :: l) = digitsVal l := fun l => by
          have : '0' :: l = ['0'] ++ l := rfl
          rw [this, digitsVal_append]
          have e2 : digitsVal ['0'] = 0 := by decide
          rw [e2]; simp
        rw [this, digitsVal_toDigits]
      · exact digitsVal_toDigits _
  obtain ⟨ds, h2, h3, h4⟩ := hdg
  rw [h2]
  have hs : (if exp < 0 then '-' else '+') = '-' ∨ (if exp < 0 then '-' else '+') = '+' := by split <;> simp
  rcases cleanExp_cases p hs h3 with h | ⟨c, rfl, h⟩
  · rw [h, ← h2]; exact key _ hE
  · rw [h]
    refine key _ (expIs_sign ⟨by simp, fun x hx => h3.2 x (by simp at hx; simp [hx])⟩ ?_)
    rw [← h4]
    have : ['0', c] = ['0'] ++ [c] := rfl
    rw [this, digitsVal_append]
    have e2 : digitsVal ['0'] = 0 := by decide
    rw [e2]; simp

/-! ### reading -/

theorem isDigit_iff {c : Char} : isDigit c = true ↔ '0' ≤ c ∧ c ≤ '9' := by simp [isDigit]

theorem mantissa_digits {ds : List Char} (h : ∀ c ∈ ds, '0' ≤ c ∧ c ≤ '9') (r : List Char) (dot : Bool) (m f : Nat) :
    mantissa (ds ++ r) dot m f = mantissa r dot (m * 10 ^ ds.length + digitsVal ds) (if dot then f + ds.length else f) := by
  induction ds generalizing m f with
  | nil => simp [digitsVal]
  | cons c t ih =>
    have hc := isDigit_iff.2 (h c (by simp))
    rw [List.cons_append, mantissa, if_pos hc, ih (fun x hx => h x (by simp [hx]))]
    have e : digitsVal (c :: t) = (c.toNat - 48) * 10 ^ t.length + digitsVal t := by
      have : c :: t = [c] ++ t := rfl
      rw [this, digitsVal_append]; simp [digitsVal]
    congr 1
    · rw [e, List.length_cons]; ring
    · cases dot <;> simp; omega

theorem mantissa_stop {r : List Char} (h : ∀ c t, r = c :: t → c = 'e' ∨ c = 'E') (dot : Bool) (m f : Nat) : mantissa r dot m f = (m, f, r) := by
  cases r with
  | nil => rfl
  | cons c t =>
    have h1 : isDigit c = false := by rcases h c t rfl with rfl | rfl <;> decide
    have h2 : c ≠ '.' := by rcases h c t rfl with rfl | rfl <;> decide
    rw [mantissa, if_neg (by simp [h1]), if_neg (by simp [h2])]

/-- the exponent as it is read, from the one that is meant: the same below 10000, and otherwise at least 10000. -/
theorem exponentDigits_spec {ds : List Char} (h : ∀ c ∈ ds, '0' ≤ c ∧ c ≤ '9') (e : Nat) :
    (exponentDigits ds e = e * 10 ^ ds.length + digitsVal ds) ∨ (10000 ≤ exponentDigits ds e ∧ exponentDigits ds e ≤ e * 10 ^ ds.length + digitsVal ds) := by
  induction ds generalizing e with
  | nil => left; simp [exponentDigits, digitsVal]
  | cons c t ih =>
    have hc := isDigit_iff.2 (h c (by simp))
    have e' : digitsVal (c :: t) = (c.toNat - 48) * 10 ^ t.length + digitsVal t := by
      have : c :: t = [c] ++ t := rfl
      rw [this, digitsVal_append]; simp [digitsVal]
    have hp : 1 ≤ 10 ^ t.length := Nat.one_le_pow _ _ (by norm_num)
    have ht := fun x hx => h x (List.mem_cons_of_mem c hx)
    rw [exponentDigits, if_pos hc, e', List.length_cons, pow_succ]
    split
    · have := ih ht (e * 10 + (c.toNat - 48))
      have a : e * (10 ^ t.length * 10) + ((c.toNat - 48) * 10 ^ t.length + digitsVal t) = (e * 10 + (c.toNat - 48)) * 10 ^ t.length + digitsVal t := by ring
      rw [a]; exact this
    · rename_i he
      have stay : ∀ (t : List Char) (e : Nat), 10000 ≤ e → exponentDigits t e = e := by
        intro t
        induction t with
        | nil => intro e _; rfl
        | cons c t ih => intro e he; rw [exponentDigits]; split <;> [(rw [if_neg (by omega)]; exact ih e he); rfl]
      right
      rw [stay t e (by omega)]
      refine ⟨by omega, ?_⟩
      nlinarith

/-- what the first loop of `readFloat` finds in a literal. -/
theorem mantissa_spec {lit : List Char} {neg : Bool} {q : ℚ} (h : Denotes lit neg q) :
    ∃ (m fr : Nat) (e : List Char) (k : Int), decide (lit.head? = some '-') = neg ∧ mantissa (if lit.head? = some '-' then lit.tail else lit) false 0 0 = (m, fr, e) ∧ ExpIs e k ∧
      q = (m : ℚ) * 10 ^ (k - fr) ∧ m < 10 ^ lit.length ∧ fr ≤ lit.length := by
  obtain ⟨i, f, e, fq, k, rfl, hi, hf, he, rfl⟩ := h
  have hid : (∀ c ∈ i, '0' ≤ c ∧ c ≤ '9') ∧ i ≠ [] := by
    rcases hi with rfl | ⟨h1, -⟩
    · exact ⟨fun c hc => by rw [List.mem_singleton.1 hc]; decide, by simp⟩
    · exact ⟨h1.2, h1.1⟩
  -- the sign
  have hn : ((if neg then ['-'] else []) ++ (i ++ (f ++ e))).head? = some '-' ↔ neg = true := by
    cases neg with
    | true => simp
    | false =>
      cases i with
      | nil => exact absurd rfl hid.2
      | cons c t =>
        have := hid.1 c (by simp)
        simp only [Bool.false_eq_true, if_false, List.nil_append, List.cons_append, List.head?_cons, Option.some.injEq, iff_false]
        rintro rfl
        exact absurd this (by decide)
  have ht : (if ((if neg then ['-'] else []) ++ (i ++ (f ++ e))).head? = some '-' then ((if neg then ['-'] else []) ++ (i ++ (f ++ e))).tail else (if neg then ['-'] else []) ++ (i ++ (f ++ e))) = i ++ (f ++ e) := by
    cases neg <;> simp [hn]
    intro h
    exact absurd (hn.1 (by simpa using h)) (by simp)
  -- the exponent
  have hstop : ∀ c t, e = c :: t → c = 'e' ∨ c = 'E' := by
    intro c t hc
    rcases he with ⟨rfl, -⟩ | ⟨c', sg, ds, h1, -, rfl, -⟩
    · cases hc
    · cases hc; exact h1
  -- the digits
  have fin : ∃ (m fr : Nat), mantissa (i ++ (f ++ e)) false 0 0 = (m, fr, e) ∧ (digitsVal i + fq : ℚ) = m / 10 ^ fr ∧ m < 10 ^ (i ++ (f ++ e)).length ∧ fr ≤ (i ++ (f ++ e)).length := by
    have dlt : ∀ ds : List Char, (∀ c ∈ ds, '0' ≤ c ∧ c ≤ '9') → digitsVal ds < 10 ^ ds.length := by
      intro ds
      induction ds with
      | nil => intro _; simp [digitsVal]
      | cons c t ih =>
        intro h
        have e' : digitsVal (c :: t) = (c.toNat - 48) * 10 ^ t.length + digitsVal t := by
          have : c :: t = [c] ++ t := rfl
          rw [this, digitsVal_append]; simp [digitsVal]
        have h9 : c.toNat ≤ 57 := (h c (by simp)).2
        have := ih fun x hx => h x (by simp [hx])
        have h9' : c.toNat - 48 ≤ 9 := by omega
        have := Nat.mul_le_mul_right (10 ^ t.length) h9'
        rw [e', List.length_cons, pow_succ]; omega
    rw [mantissa_digits hid.1]
    simp only [zero_mul, zero_add, Bool.false_eq_true, if_false]
    rcases hf with ⟨rfl, rfl⟩ | ⟨ds, hds, rfl, rfl⟩
    · refine ⟨digitsVal i, 0, by rw [List.nil_append, mantissa_stop hstop], by simp, ?_, Nat.zero_le _⟩
      exact lt_of_lt_of_le (dlt i hid.1) (Nat.pow_le_pow_right (by norm_num) (by simp))
    · refine ⟨digitsVal i * 10 ^ ds.length + digitsVal ds, ds.length, ?_, ?_, ?_, ?_⟩
      · rw [List.cons_append, mantissa, if_neg (by decide), if_pos (by simp), mantissa_digits hds.2, mantissa_stop hstop]; simp
      · push_cast
        have : (10:ℚ) ^ ds.length ≠ 0 := by positivity
        field_simp
      · have a := dlt (i ++ ds) (fun c hc => (List.mem_append.1 hc).elim (hid.1 c) (hds.2 c))
        rw [digitsVal_append] at a
        exact lt_of_lt_of_le a (Nat.pow_le_pow_right (by norm_num) (by simp; omega))
      · simp; omega
  obtain ⟨m, fr, f1, f2, f3, f4⟩ := fin
  have hlen : (i ++ (f ++ e)).length ≤ ((if neg then ['-'] else []) ++ (i ++ (f ++ e))).length := by simp
  refine ⟨m, fr, e, k, ?_, by rw [ht, f1], he, ?_, lt_of_lt_of_le f3 (Nat.pow_le_pow_right (by norm_num) hlen), f4.trans hlen⟩
  · have : ∀ (P : Prop) [Decidable P], (P ↔ neg = true) → decide P = neg := by intro P _ h; cases neg <;> simp [h]
    exact this _ hn
  · rw [f2, zpow_sub₀ (by norm_num), zpow_natCast]; ring

theorem exponent_spec {e : List Char} {k : Int} (he : ExpIs e k) : exponent e = k ∨ (10000 ≤ exponent e ∧ exponent e ≤ k) ∨ (exponent e ≤ -10000 ∧ k ≤ exponent e) := by
  rcases he with ⟨rfl, rfl⟩ | ⟨c, sg, ds, h1, h2, rfl, h3⟩
  · left; rfl
  · have sp := exponentDigits_spec h2.2 0
    simp only [zero_mul, zero_add] at sp
    rw [exponent, if_pos h1]
    rcases h3 with ⟨h4, rfl⟩ | ⟨rfl, rfl⟩
    · have : signedExp (sg ++ ds) = (exponentDigits ds 0 : Int) := by
        rcases h4 with rfl | rfl
        · cases ds with
          | nil => rfl
          | cons a b =>
            have ha := h2.2 a (by simp)
            rw [List.nil_append, signedExp, if_neg (by rintro rfl; exact absurd ha (by decide)), if_neg (by rintro rfl; exact absurd ha (by decide))]
        · rfl
      rw [this]
      rcases sp with sp | sp
      · left; rw [sp]
      · right; left; omega
    · have : signedExp (['-'] ++ ds) = -(exponentDigits ds 0 : Int) := rfl
      rw [this]
      rcases sp with sp | sp
      · left; rw [sp]
      · right; right
        omega

theorem readFloat_spec {lit : List Char} {neg : Bool} {q : ℚ} (h : Denotes lit neg q) :
    ∃ (m f : Nat) (k k' : Int), q = (m : ℚ) * 10 ^ (k - f) ∧ readFloat lit = (neg, (m : ℚ) * 10 ^ (k' - f)) ∧ m < 10 ^ lit.length ∧ f ≤ lit.length ∧
      (k' = k ∨ (10000 ≤ k' ∧ k' ≤ k) ∨ (k' ≤ -10000 ∧ k ≤ k')) := by
  obtain ⟨m, fr, e, k, h1, h2, h3, h4, h5, h6⟩ := mantissa_spec h
  refine ⟨m, fr, k, exponent e, h4, ?_, h5, h6, exponent_spec h3⟩
  unfold readFloat
  simp only [decide_eq_true_eq, h1, h2]

theorem expIs_unique {e : List Char} {k k' : Int} (h : ExpIs e k) (h' : ExpIs e k') : k = k' := by
  rcases h with ⟨rfl, rfl⟩ | ⟨c, sg, ds, h1, h2, rfl, h3⟩ <;> rcases h' with ⟨h, rfl⟩ | ⟨c', sg', ds', h1', h2', h, h3'⟩
  · rfl
  · cases h
  · cases h
  · simp only [List.cons.injEq] at h
    obtain ⟨rfl, h⟩ := h
    have hd : ∀ {ds : List Char} {c : Char} {r : List Char}, Json.Digits ds → ds = c :: r → c ≠ '-' ∧ c ≠ '+' := by
      rintro ds c r hd rfl
      have := hd.2 c (by simp)
      constructor <;> (rintro rfl; exact absurd this (by decide))
    rcases h3 with ⟨rfl | rfl, rfl⟩ | ⟨rfl, rfl⟩ <;> rcases h3' with ⟨rfl | rfl, rfl⟩ | ⟨rfl, rfl⟩ <;> simp only [List.nil_append, List.cons_append, List.cons.injEq, true_and] at h
    · rw [h]
    · exact absurd rfl (hd h2 h).2
    · exact absurd rfl (hd h2 h).1
    · exact absurd rfl (hd h2' h.symm).2
    · rw [h]
    · exact absurd h.1 (by decide)
    · exact absurd rfl (hd h2' h.symm).1
    · exact absurd h.1 (by decide)
    · rw [h]

/-- a literal stands for one number only. -/
theorem denotes_unique {lit : List Char} {neg neg' : Bool} {q q' : ℚ} (h : Denotes lit neg q) (h' : Denotes lit neg' q') : neg = neg' ∧ q = q' := by
  obtain ⟨m, fr, e, k, h1, h2, h3, h4, -, -⟩ := mantissa_spec h
  obtain ⟨m', fr', e', k', h1', h2', h3', h4', -, -⟩ := mantissa_spec h'
  rw [h2] at h2'
  simp only [Prod.mk.injEq] at h2'
  obtain ⟨rfl, rfl, rfl⟩ := h2'
  exact ⟨h1.symm.trans h1', by rw [h4, h4', expIs_unique h3 h3']⟩

end Strconv
end Goir
