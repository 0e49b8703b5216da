import Verif.Lemmas.Json
/-!
# The parser accepts exactly the texts of the grammar
-/
namespace Goir
namespace Json

/-! ## white space -/

theorem isWs_iff {c : Char} : isWs c = true ↔ (c = ' ' ∨ c = '\t' ∨ c = '\n' ∨ c = '\r') := by
  unfold isWs; simp only [decide_eq_true_eq]

theorem ws_append {w : List Char} (hw : IsSpace w) (s : List Char) : ws (w ++ s) = ws s := by
  induction w with
  | nil => rfl
  | cons c w ih =>
    have hc := isWs_iff.2 (hw c (List.mem_cons_self ..))
    have := ih fun x hx => hw x (List.mem_cons_of_mem _ hx)
    unfold ws at this ⊢
    rw [List.cons_append, List.dropWhile_cons, if_pos hc, this]

theorem ws_split (s : List Char) : ∃ w, IsSpace w ∧ s = w ++ ws s := by
  refine ⟨s.takeWhile isWs, fun c hc => isWs_iff.1 ?_, (List.takeWhile_append_dropWhile).symm⟩
  induction s with
  | nil => cases hc
  | cons d s ih =>
    rw [List.takeWhile_cons] at hc
    split at hc
    · rename_i hd
      rcases List.mem_cons.1 hc with rfl | hc
      · exact hd
      · exact ih hc
    · cases hc

theorem ws_all {w : List Char} (hw : IsSpace w) : ws w = [] := by
  have := ws_append hw []
  rwa [List.append_nil] at this

theorem isSpace_append {a b : List Char} (ha : IsSpace a) (hb : IsSpace b) : IsSpace (a ++ b) := by
  intro c hc
  rcases List.mem_append.1 hc with h | h
  · exact ha c h
  · exact hb c h

theorem space_of_ws {s : List Char} (h : (ws s).isEmpty = true) : IsSpace s := by
  obtain ⟨w, hw, e⟩ := ws_split s
  rw [List.isEmpty_iff.1 h, List.append_nil] at e
  rw [e]; exact hw

theorem delim_space {w t : List Char} (hw : IsSpace w) (ht : Delim t) : Delim (w ++ t) := by
  intro c r h
  cases w with
  | nil => exact ht c r h
  | cons d w =>
    injection h with h
    subst h
    exact .inr (.inr (.inr (hw d (List.mem_cons_self ..))))

/-! ## strings -/

theorem hexVal_iff {c : Char} {n : Nat} : hexVal c = some n ↔ IsHex c n := by
  constructor
  · intro h
    have hc : c = Char.ofNat c.toNat := (Char.ofNat_toNat c).symm
    unfold hexVal at h
    split at h
    · rename_i h1
      injection h with h
      have h2 : c = Char.ofNat (48 + n) := by rw [hc]; congr 1; omega
      have h3 : n < 10 := by omega
      have : ∀ n, n < 10 → "0123456789abcdef".toList[n]? = some (Char.ofNat (48 + n)) := by decide
      exact .inl (by rw [h2]; exact this n h3)
    split at h
    · rename_i h1
      injection h with h
      have h2 : c = Char.ofNat (97 + (n - 10)) := by rw [hc]; congr 1; omega
      have h3 : n - 10 < 6 := by omega
      have : ∀ m, m < 6 → "0123456789abcdef".toList[m + 10]? = some (Char.ofNat (97 + m)) := by decide
      have h4 := this _ h3
      rw [Nat.sub_add_cancel (by omega)] at h4
      exact .inl (by rw [h2]; exact h4)
    split at h
    · rename_i h1
      injection h with h
      have h2 : c = Char.ofNat (65 + (n - 10)) := by rw [hc]; congr 1; omega
      have h3 : n - 10 < 6 := by omega
      have : ∀ m, m < 6 → "0123456789ABCDEF".toList[m + 10]? = some (Char.ofNat (65 + m)) := by decide
      have h4 := this _ h3
      rw [Nat.sub_add_cancel (by omega)] at h4
      exact .inr (by rw [h2]; exact h4)
    · cases h
  · intro h
    have key : ∀ l : List Char, l.length = 16 → (∀ m, m < 16 → (l[m]?).bind hexVal = some m) → l[n]? = some c → hexVal c = some n := by
      intro l hl hm hn
      have hlt : n < 16 := by
        rw [← hl]
        exact (List.getElem?_eq_some_iff.1 hn).1
      have := hm n hlt
      rw [hn] at this
      exact this
    rcases h with h | h
    · exact key _ (by decide) (by decide) h
    · exact key _ (by decide) (by decide) h

theorem escChar_iff {e c : Char} : escChar e = some c ↔ (e, c) ∈ escapes := by
  unfold escChar escapes
  constructor
  · intro h
    repeat' split at h
    all_goals first
      | (rename_i he; subst he; injection h with h; subst h; decide)
      | cases h
  · intro h
    simp only [List.mem_cons, Prod.mk.injEq, List.not_mem_nil, or_false] at h
    rcases h with ⟨rfl, rfl⟩ | ⟨rfl, rfl⟩ | ⟨rfl, rfl⟩ | ⟨rfl, rfl⟩ | ⟨rfl, rfl⟩ | ⟨rfl, rfl⟩ | ⟨rfl, rfl⟩ | ⟨rfl, rfl⟩ <;> rfl

theorem hex4_some {a b c d : Char} {n : Nat} (h : hex4 a b c d = some n) :
    ∃ x y z w, IsHex a x ∧ IsHex b y ∧ IsHex c z ∧ IsHex d w ∧ n = x * 0x1000 + y * 0x100 + z * 0x10 + w := by
  unfold hex4 at h
  cases ha : hexVal a with
  | none => rw [ha] at h; cases h
  | some x =>
  cases hb : hexVal b with
  | none => rw [ha, hb] at h; cases h
  | some y =>
  cases hc : hexVal c with
  | none => rw [ha, hb, hc] at h; cases h
  | some z =>
  cases hd : hexVal d with
  | none => rw [ha, hb, hc, hd] at h; cases h
  | some w =>
    rw [ha, hb, hc, hd] at h
    have h : some ((x * 16 + y) * 256 + z * 16 + w) = some n := h
    injection h with h
    exact ⟨x, y, z, w, hexVal_iff.1 ha, hexVal_iff.1 hb, hexVal_iff.1 hc, hexVal_iff.1 hd, by omega⟩

theorem hex4_of {a b c d : Char} {x y z w : Nat} (ha : IsHex a x) (hb : IsHex b y) (hc : IsHex c z) (hd : IsHex d w) :
    hex4 a b c d = some (x * 0x1000 + y * 0x100 + z * 0x10 + w) := by
  unfold hex4
  rw [hexVal_iff.2 ha, hexVal_iff.2 hb, hexVal_iff.2 hc, hexVal_iff.2 hd]
  have e : (x * 16 + y) * 256 + z * 16 + w = x * 0x1000 + y * 0x100 + z * 0x10 + w := by omega
  rw [← e]; rfl

theorem escape_not_u {c : Char} : ('u', c) ∉ escapes := by
  unfold escapes; simp

theorem strUnits_escape {e c : Char} (h : (e, c) ∈ escapes) (t : List Char) :
    strUnits ('\\' :: e :: t) = (strUnits t).bind fun p => some (.char c :: p.1, p.2) := by
  have hu : e ≠ 'u' := by rintro rfl; exact escape_not_u h
  rw [strUnits.eq_def]
  split
  · rename_i heq; cases heq
  · rename_i heq; injection heq with e1; exact absurd e1 (by decide)
  · rename_i heq; injection heq with _ e2; injection e2 with e2; exact absurd e2 hu
  · rename_i heq
    injection heq with _ e2
    injection e2 with e2 e3
    subst e2 e3
    rw [escChar_iff.2 h]; rfl
  · rename_i h1 h2 h3 heq
    injection heq with e1 e2
    subst e1 e2
    exact (h3 _ _ rfl rfl).elim

theorem strUnits_code {a b c d : Char} {n : Nat} (h : hex4 a b c d = some n) (t : List Char) :
    strUnits ('\\' :: 'u' :: a :: b :: c :: d :: t) = (strUnits t).bind fun p => some (.code n :: p.1, p.2) := by
  rw [strUnits]
  simp only [h]
  rfl

theorem strUnits_of {us : List SUnit} {t : List Char} (h : IsString.Units us t) (r : List Char) : strUnits (t ++ '"' :: r) = some (us, r) := by
  induction us generalizing t with
  | nil => have h : t = [] := h; subst h; rfl
  | cons u us ih =>
    obtain ⟨a, b, hu, hb, rfl⟩ := h
    have hi := ih hb
    cases hu with
    | plain h1 h2 h3 =>
      show strUnits (_ :: (b ++ '"' :: r)) = _
      rw [strUnits_plain h1 h2 (by omega), hi]; rfl
    | escape he =>
      show strUnits ('\\' :: _ :: (b ++ '"' :: r)) = _
      rw [strUnits_escape he, hi]; rfl
    | code ha hb hc hd =>
      show strUnits ('\\' :: 'u' :: _ :: _ :: _ :: _ :: (b ++ '"' :: r)) = _
      rw [strUnits_code (hex4_of ha hb hc hd), hi]; rfl

theorem strUnits_sound (s : List Char) : ∀ us r, strUnits s = some (us, r) → ∃ t, IsString.Units us t ∧ s = t ++ '"' :: r := by
  fun_induction strUnits s with
  | case1 => intro us r h; cases h
  | case2 q => intro us r h; cases h; exact ⟨[], rfl, rfl⟩
  | case3 a b c d q ih =>
    intro us r h
    cases hn : hex4 a b c d with
    | none => rw [hn] at h; cases h
    | some n =>
      rw [hn] at h
      cases hq : strUnits q with
      | none => rw [hq] at h; cases h
      | some p =>
        rw [hq] at h
        have h : some (SUnit.code n :: p.1, p.2) = some (us, r) := h
        injection h with h
        injection h with h1 h2
        subst h1 h2
        obtain ⟨t, ht, e⟩ := ih p.1 p.2 hq
        obtain ⟨x, y, z, w, ha, hb, hc, hd, rfl⟩ := hex4_some hn
        exact ⟨_, ⟨_, t, .code ha hb hc hd, ht, rfl⟩, by rw [e]; rfl⟩
  | case4 e q hne ih =>
    intro us r h
    cases hn : escChar e with
    | none => rw [hn] at h; cases h
    | some c =>
      rw [hn] at h
      cases hq : strUnits q with
      | none => rw [hq] at h; cases h
      | some p =>
        rw [hq] at h
        have h : some (SUnit.char c :: p.1, p.2) = some (us, r) := h
        injection h with h
        injection h with h1 h2
        subst h1 h2
        obtain ⟨t, ht, e'⟩ := ih p.1 p.2 hq
        exact ⟨_, ⟨_, t, .escape (escChar_iff.1 hn), ht, rfl⟩, by rw [e']; rfl⟩
  | case5 c q hc => intro us r h; cases h
  | case6 c q h1 h2 h3 h4 ih =>
    intro us r h
    cases hq : strUnits q with
    | none => rw [hq] at h; cases h
    | some p =>
      rw [hq] at h
      have h : some (SUnit.char c :: p.1, p.2) = some (us, r) := h
      injection h with h
      injection h with e1 e2
      subst e1 e2
      obtain ⟨t, ht, e'⟩ := ih p.1 p.2 hq
      exact ⟨_, ⟨_, t, .plain h1 (fun e => h4 (.inr e)) (by have := fun h => h4 (.inl h); omega), ht, rfl⟩, by rw [e']; rfl⟩

theorem hex_lt {c : Char} {n : Nat} (h : IsHex c n) : n < 16 := by
  rcases h with h | h
  · exact (List.getElem?_eq_some_iff.1 h).1
  · exact (List.getElem?_eq_some_iff.1 h).1

/-- the codes have four digits. -/
def Small (us : List SUnit) : Prop := ∀ n, .code n ∈ us → n < 65536

theorem units_small {us : List SUnit} {t : List Char} (h : IsString.Units us t) : Small us := by
  induction us generalizing t with
  | nil => intro n hn; cases hn
  | cons u us ih =>
    obtain ⟨a, b, hu, hb, rfl⟩ := h
    intro n hn
    rcases List.mem_cons.1 hn with rfl | hn
    · cases hu with
      | code ha hb hc hd =>
        have := hex_lt ha; have := hex_lt hb; have := hex_lt hc; have := hex_lt hd
        omega
    · exact ih hb n hn

theorem toNat_ofNat {n : Nat} (h : n < 0xD800 ∨ (0xDFFF < n ∧ n < 0x110000)) : (Char.ofNat n).toNat = n := by
  have hv : n.isValidChar := h
  unfold Char.ofNat
  rw [dif_pos hv]
  rfl

theorem unitChars_of {us : List SUnit} {cs : List Char} (h : Means us cs) : unitChars us = cs := by
  induction h with
  | nil => rfl
  | char h ih => rw [unitChars, ih]
  | @code n c us cs h1 h2 hc h ih =>
    have hcc : codeChar n = c := by
      unfold codeChar
      unfold High Low at *
      rw [if_neg (by omega), ← hc, Char.ofNat_toNat]
    cases us with
    | nil => rw [unitChars, hcc, ih]; simp
    | cons u us =>
      cases u with
      | char d => rw [unitChars, hcc, ih]; simp
      | code l =>
        rw [unitChars, if_neg, hcc, ih]
        unfold High Low at *
        omega
  | @pair h l c us cs hh hl hc ht ih =>
    rw [unitChars, if_pos ⟨hh.1, hh.2, hl.1, hl.2⟩, ih]
    have : 0x10000 + (h - 0xD800) * 1024 + (l - 0xDC00) = c.toNat := hc.symm
    rw [this, Char.ofNat_toNat]
  | @half n us cs h1 h2 h ih =>
    have hcc : codeChar n = '\uFFFD' := by
      unfold codeChar
      unfold High Low at *
      rw [if_pos (by omega)]
    cases us with
    | nil => rw [unitChars, hcc, ih]; simp
    | cons u us =>
      cases u with
      | char d => rw [unitChars, hcc, ih]; simp
      | code l =>
        rw [unitChars, if_neg, hcc, ih]
        rintro ⟨a, b, c, d⟩
        exact h2 ⟨⟨a, b⟩, l, us, rfl, c, d⟩

theorem means_code {n : Nat} {us : List SUnit} (hn : n < 65536) (h2 : ¬ (High n ∧ ∃ l us', us = .code l :: us' ∧ Low l)) (h : Means us (unitChars us)) :
    Means (.code n :: us) (codeChar n :: unitChars us) := by
  by_cases hs : 0xD800 ≤ n ∧ n ≤ 0xDFFF
  · unfold codeChar
    rw [if_pos hs]
    exact .half (by unfold High Low; omega) h2 h
  · unfold codeChar
    rw [if_neg hs]
    exact .code (by unfold High; omega) (by unfold Low; omega) (toNat_ofNat (by omega)) h

theorem means_unitChars (us : List SUnit) (hs : Small us) : Means us (unitChars us) := by
  fun_induction unitChars us with
  | case1 => exact .nil
  | case2 c us ih => exact .char (ih fun n hn => hs n (List.mem_cons_of_mem _ hn))
  | case3 h l us hp ih =>
    refine .pair ⟨hp.1, hp.2.1⟩ ⟨hp.2.2.1, hp.2.2.2⟩ (toNat_ofNat (by omega)) (ih fun n hn => hs n (List.mem_cons_of_mem _ (List.mem_cons_of_mem _ hn)))
  | case4 h l us hp ih =>
    refine means_code (hs h (List.mem_cons_self ..)) ?_ (ih fun n hn => hs n (List.mem_cons_of_mem _ hn))
    rintro ⟨a, l', us', e, b⟩
    injection e with e
    injection e with e
    subst e
    exact hp ⟨a.1, a.2, b.1, b.2⟩
  | case5 n us hne ih =>
    refine means_code (hs n (List.mem_cons_self ..)) ?_ (ih fun n hn => hs n (List.mem_cons_of_mem _ hn))
    rintro ⟨-, l', us', e, -⟩
    exact hne l' us' e

theorem pstring_of {s : String} {t : List Char} (h : IsString s t) (r : List Char) : pstring (t ++ '"' :: r) = some (s, r) := by
  obtain ⟨us, hu, hm⟩ := h
  unfold pstring
  rw [strUnits_of hu r]
  show some (String.ofList (unitChars us), r) = _
  rw [unitChars_of hm, String.ofList_toList]

theorem pstring_sound {q : List Char} {s : String} {r : List Char} (h : pstring q = some (s, r)) : ∃ t, IsString s t ∧ q = t ++ '"' :: r := by
  unfold pstring at h
  cases hq : strUnits q with
  | none => rw [hq] at h; cases h
  | some p =>
    rw [hq] at h
    have h : some (String.ofList (unitChars p.1), p.2) = some (s, r) := h
    injection h with h
    injection h with h1 h2
    obtain ⟨t, ht, e⟩ := strUnits_sound q p.1 p.2 hq
    refine ⟨t, ⟨p.1, ht, ?_⟩, by rw [e, h2]⟩
    rw [← h1, String.toList_ofList]
    exact means_unitChars _ (units_small ht)


/-! ## numbers -/

theorem pdigits_sound {s ds r : List Char} (h : pdigits s = some (ds, r)) : Digits ds ∧ s = ds ++ r := by
  unfold pdigits at h
  split at h
  · cases h
  · rename_i hne
    injection h with h
    injection h with h1 h2
    subst h1 h2
    refine ⟨⟨fun e => hne (by rw [e]; rfl), fun c hc => isDigit_iff.1 ?_⟩, (List.takeWhile_append_dropWhile).symm⟩
    clear hne
    induction s with
    | nil => cases hc
    | cons d s ih =>
      rw [List.takeWhile_cons] at hc
      split at hc
      · rename_i hd
        rcases List.mem_cons.1 hc with rfl | hc
        · exact hd
        · exact ih hc
      · cases hc

theorem pint_sound {s i r : List Char} (h : pint s = some (i, r)) : IsInt i ∧ s = i ++ r := by
  unfold pint at h
  split at h
  · injection h with h
    injection h with h1 h2
    subst h1 h2
    exact ⟨.inl rfl, rfl⟩
  · rename_i hn
    obtain ⟨h1, h2⟩ := pdigits_sound h
    refine ⟨.inr ⟨h1, ?_⟩, h2⟩
    intro h0
    cases i with
    | nil => cases h0
    | cons c i =>
      injection h0 with h0
      subst h0
      exact hn (i ++ r) h2

theorem pfrac_sound {s f r : List Char} (h : pfrac s = some (f, r)) : IsFrac f ∧ s = f ++ r := by
  unfold pfrac at h
  split at h
  · rename_i q
    cases hq : pdigits q with
    | none => rw [hq] at h; cases h
    | some p =>
      rw [hq] at h
      have h : some ('.' :: p.1, p.2) = some (f, r) := h
      injection h with h
      injection h with h1 h2
      subst h1 h2
      obtain ⟨h1, h2⟩ := pdigits_sound hq
      exact ⟨.inr ⟨_, h1, rfl⟩, by rw [h2]; rfl⟩
  · injection h with h
    injection h with h1 h2
    subst h1 h2
    exact ⟨.inl rfl, rfl⟩

theorem pexp_sound {s e r : List Char} (h : pexp s = some (e, r)) : IsExp e ∧ s = e ++ r := by
  unfold pexp at h
  split at h
  · rename_i c q
    split at h
    · rename_i hc
      split at h
      · rename_i sg q'
        split at h
        · rename_i hsg
          cases hq : pdigits q' with
          | none => rw [hq] at h; cases h
          | some p =>
            rw [hq] at h
            have h : some (c :: sg :: p.1, p.2) = some (e, r) := h
            injection h with h
            injection h with h1 h2
            subst h1 h2
            obtain ⟨h1, h2⟩ := pdigits_sound hq
            refine ⟨.inr ⟨c, [sg], p.1, hc, ?_, h1, rfl⟩, by rw [h2]; rfl⟩
            rcases hsg with rfl | rfl
            · exact .inr (.inl rfl)
            · exact .inr (.inr rfl)
        · cases hq : pdigits (sg :: q') with
          | none => rw [hq] at h; cases h
          | some p =>
            rw [hq] at h
            have h : some (c :: p.1, p.2) = some (e, r) := h
            injection h with h
            injection h with h1 h2
            subst h1 h2
            obtain ⟨h1, h2⟩ := pdigits_sound hq
            exact ⟨.inr ⟨c, [], p.1, hc, .inl rfl, h1, rfl⟩, by rw [h2]; rfl⟩
      · cases h
    · injection h with h
      injection h with h1 h2
      subst h1 h2
      exact ⟨.inl rfl, rfl⟩
  · injection h with h
    injection h with h1 h2
    subst h1 h2
    exact ⟨.inl rfl, rfl⟩

theorem pnumber_sound {s lit r : List Char} (h : pnumber s = some (lit, r)) : IsNumber lit ∧ s = lit ++ r := by
  have key : ∀ sg q, (sg = [] ∨ sg = ['-']) → ((pint q).bind fun p => (pfrac p.2).bind fun f => (pexp f.2).bind fun w => some (sg ++ p.1 ++ f.1 ++ w.1, w.2)) = some (lit, r) →
      IsNumber lit ∧ sg ++ q = lit ++ r := by
    intro sg q hsg h
    cases hp : pint q with
    | none => rw [hp] at h; cases h
    | some p =>
    rw [hp] at h
    simp only [Option.bind_some] at h
    cases hf : pfrac p.2 with
    | none => rw [hf] at h; cases h
    | some f =>
    rw [hf] at h
    simp only [Option.bind_some] at h
    cases he : pexp f.2 with
    | none => rw [he] at h; cases h
    | some w =>
    rw [he] at h
    simp only [Option.bind_some] at h
    injection h with h
    injection h with h1 h2
    obtain ⟨a1, a2⟩ := pint_sound hp
    obtain ⟨b1, b2⟩ := pfrac_sound hf
    obtain ⟨c1, c2⟩ := pexp_sound he
    subst h1 h2
    refine ⟨⟨sg, p.1, f.1, w.1, hsg, a1, b1, c1, by simp⟩, ?_⟩
    rw [a2, b2, c2]; simp
  unfold pnumber at h
  split at h
  rename_i heq
  split at heq
  · injection heq with e1 e2
    subst e1 e2
    exact key ['-'] _ (.inr rfl) h
  · injection heq with e1 e2
    subst e1 e2
    exact key [] _ (.inl rfl) h

/-! ## values -/

theorem value_head {v : JVal} {t : List Char} (h : IsValue v t) : ∃ c r, t = c :: r ∧ isWs c = false ∧ c ≠ ']' ∧ c ≠ '}' := by
  cases h with
  | num h => exact render_head (.num t) h
  | _ => exact ⟨_, _, rfl, by decide, by decide, by decide⟩

theorem ws_value {v : JVal} {t : List Char} (h : IsValue v t) (r : List Char) : ws (t ++ r) = t ++ r := by
  obtain ⟨c, q, rfl, hc, -, -⟩ := value_head h
  exact ws_of hc

theorem delim_cons {c : Char} (h : c = ',' ∨ c = ']' ∨ c = '}') (t : List Char) : Delim (c :: t) := by
  intro d r e
  injection e with e
  subst e
  rcases h with h | h | h
  · exact .inl h
  · exact .inr (.inl h)
  · exact .inr (.inr (.inl h))

theorem elems_head {es : JElems} {t : List Char} (h : IsElems es t) (r : List Char) : ∃ c q, ws (t ++ r) = c :: q ∧ c ≠ ']' := by
  cases h with
  | last hw hv hw' =>
    obtain ⟨c, q, rfl, hc, hn, -⟩ := value_head hv
    rw [List.append_assoc, ws_append hw, List.append_assoc]
    exact ⟨c, _, ws_of hc, hn⟩
  | more hw hv hw' hr =>
    obtain ⟨c, q, rfl, hc, hn, -⟩ := value_head hv
    rw [List.append_assoc, ws_append hw, List.append_assoc]
    exact ⟨c, _, ws_of hc, hn⟩

theorem mems_head {ms : JMems} {t : List Char} (h : IsMems ms t) (r : List Char) : ∃ q, ws (t ++ r) = '"' :: q := by
  cases h with
  | last hm =>
    cases hm with
    | mk hw hs hw1 hw2 hv hw3 =>
      rw [List.append_assoc, ws_append hw]
      exact ⟨_, ws_of (by decide)⟩
  | more hm hr =>
    cases hm with
    | mk hw hs hw1 hw2 hv hw3 =>
      rw [List.append_assoc, List.append_assoc, ws_append hw]
      exact ⟨_, ws_of (by decide)⟩

theorem parser_of (fuel : Nat) :
    (∀ v t, IsValue v t → t.length < fuel → ∀ r, Delim r → pvalue fuel (t ++ r) = some (v, r)) ∧
    (∀ es t, IsElems es t → t.length + 1 < fuel → ∀ r, pelems fuel (ws (t ++ ']' :: r)) = some (es, r)) ∧
    (∀ ms t, IsMems ms t → t.length + 1 < fuel → ∀ r, pmembers fuel (ws (t ++ '}' :: r)) = some (ms, r)) := by
  induction fuel with
  | zero => exact ⟨fun _ _ _ h => absurd h (Nat.not_lt_zero _), fun _ _ _ h => absurd h (Nat.not_lt_zero _), fun _ _ _ h => absurd h (Nat.not_lt_zero _)⟩
  | succ fuel ih =>
    obtain ⟨iv, ie, im⟩ := ih
    refine ⟨?_, ?_, ?_⟩
    · intro v t h hl r hr
      cases h with
      | null => rfl
      | true => rfl
      | false => rfl
      | num h => exact pvalue_number h hr fuel
      | @str s t h =>
        have e : '"' :: (t ++ ['"']) ++ r = '"' :: (t ++ '"' :: r) := by simp
        rw [e]
        unfold pvalue
        simp only
        rw [pstring_of h]; rfl
      | @arrNil w hw =>
        have e : '[' :: (w ++ [']']) ++ r = '[' :: (w ++ ']' :: r) := by simp
        rw [e]
        unfold pvalue
        simp only
        rw [ws_append hw, ws_of (by decide)]
        rfl
      | @arr es t h =>
        have e : '[' :: (t ++ [']']) ++ r = '[' :: (t ++ ']' :: r) := by simp
        have hi := ie es t h (by simp at hl; omega) r
        obtain ⟨c, q, hc, hn⟩ := elems_head h (']' :: r)
        rw [e]
        unfold pvalue
        simp only
        rw [hc] at hi ⊢
        split
        · rename_i heq; injection heq with e1; exact absurd e1 hn
        · rw [hi]; rfl
      | @objNil w hw =>
        have e : '{' :: (w ++ ['}']) ++ r = '{' :: (w ++ '}' :: r) := by simp
        rw [e]
        unfold pvalue
        simp only
        rw [ws_append hw, ws_of (by decide)]
        rfl
      | @obj ms t h =>
        have e : '{' :: (t ++ ['}']) ++ r = '{' :: (t ++ '}' :: r) := by simp
        have hi := im ms t h (by simp at hl; omega) r
        obtain ⟨q, hc⟩ := mems_head h ('}' :: r)
        rw [e]
        unfold pvalue
        simp only
        rw [hc] at hi ⊢
        split
        · rename_i heq; injection heq with e1; exact absurd e1 (by decide)
        · rw [hi]; rfl
    · intro es t h hl r
      cases h with
      | @last v w t w' hw hv hw' =>
        have e : w ++ (t ++ w') ++ ']' :: r = w ++ (t ++ (w' ++ ']' :: r)) := by simp
        rw [e, ws_append hw, ws_value hv]
        unfold pelems
        rw [iv v t hv (by simp at hl; omega) (w' ++ ']' :: r) (delim_space hw' (delim_cons (.inr (.inl rfl)) r))]
        dsimp only [bind, Option.bind]
        rw [ws_append hw', ws_of (by decide)]
        rfl
      | @more v es w t w' q hw hv hw' hq =>
        have e : w ++ (t ++ (w' ++ ',' :: q)) ++ ']' :: r = w ++ (t ++ (w' ++ ',' :: (q ++ ']' :: r))) := by simp
        rw [e, ws_append hw, ws_value hv]
        unfold pelems
        rw [iv v t hv (by simp at hl; omega) (w' ++ ',' :: (q ++ ']' :: r)) (delim_space hw' (delim_cons (.inl rfl) _))]
        dsimp only [bind, Option.bind]
        rw [ws_append hw', ws_of (by decide)]
        show Option.bind (pelems fuel (ws (q ++ ']' :: r))) (fun p => some (JElems.cons v p.1, p.2)) = _
        rw [ie es q hq (by simp at hl; omega) r]
        rfl
    · intro ms t h hl r
      have key : ∀ k v m, IsMember k v m → m.length + 1 < fuel + 1 → ∀ c q, (c = ',' ∨ c = '}') → ∃ r1 r2 r3, ws (m ++ c :: q) = '"' :: r1 ∧ pstring r1 = some (k, r2) ∧
          ws r2 = ':' :: r3 ∧ ∃ r4, pvalue fuel (ws r3) = some (v, r4) ∧ ws r4 = c :: q := by
        intro k v m hm hlm c q hc
        cases hm with
        | @mk _ _ w s w1 w2 t w3 hw hs hw1 hw2 hv hw3 =>
          have e : w ++ '"' :: (s ++ '"' :: (w1 ++ ':' :: (w2 ++ (t ++ w3)))) ++ c :: q =
              w ++ '"' :: (s ++ '"' :: (w1 ++ ':' :: (w2 ++ (t ++ (w3 ++ c :: q))))) := by simp
          rw [e, ws_append hw, ws_of (by decide)]
          refine ⟨_, _, w2 ++ (t ++ (w3 ++ c :: q)), rfl, pstring_of hs _, ?_, w3 ++ c :: q, ?_, ?_⟩
          · rw [ws_append hw1, ws_of (by decide)]
          · rw [ws_append hw2, ws_value hv]
            refine iv v t hv (by simp at hlm; omega) _ (delim_space hw3 (delim_cons ?_ q))
            rcases hc with hc | hc
            · exact .inl hc
            · exact .inr (.inr hc)
          · rw [ws_append hw3]
            rcases hc with rfl | rfl <;> exact ws_of (by decide)
      cases h with
      | @last k v m hm =>
        obtain ⟨r1, r2, r3, h1, h2, h3, r4, h4, h5⟩ := key k v t hm hl '}' r (.inr rfl)
        rw [h1]
        unfold pmembers
        simp only
        rw [h2]
        dsimp only [bind, Option.bind]
        rw [h3]
        simp only [h4, h5]
      | @more k v ms m q hm hq =>
        obtain ⟨r1, r2, r3, h1, h2, h3, r4, h4, h5⟩ := key k v m hm (by simp at hl; omega) ',' (q ++ '}' :: r) (.inl rfl)
        have e : m ++ ',' :: q ++ '}' :: r = m ++ ',' :: (q ++ '}' :: r) := by simp
        rw [e, h1]
        unfold pmembers
        simp only
        rw [h2]
        dsimp only [bind, Option.bind]
        rw [h3]
        simp only [h4, h5]
        rw [im ms q hq (by simp at hl; omega) r]
        rfl

/-- the parser reads every text of a value. -/
theorem parseText_of {v : JVal} {s : List Char} (h : IsText v s) : parseText s = some v := by
  obtain ⟨w, t, w', hw, hv, hw', rfl⟩ := h
  unfold parseText
  rw [ws_append hw, ws_value hv]
  have hd : Delim w' := by
    have := delim_space hw' (t := []) (fun c r h => by cases h)
    rwa [List.append_nil] at this
  rw [(parser_of _).1 v t hv (by simp; omega) w' hd]
  dsimp only [bind, Option.bind]
  rw [ws_all hw']
  rfl

theorem elems_space {es : JElems} {t w : List Char} (h : IsElems es t) (hw : IsSpace w) : IsElems es (w ++ t) := by
  cases h with
  | last h1 h2 h3 => rw [← List.append_assoc]; exact .last (isSpace_append hw h1) h2 h3
  | more h1 h2 h3 h4 => rw [← List.append_assoc]; exact .more (isSpace_append hw h1) h2 h3 h4

theorem member_space {k : String} {v : JVal} {t w : List Char} (h : IsMember k v t) (hw : IsSpace w) : IsMember k v (w ++ t) := by
  cases h with
  | mk h1 h2 h3 h4 h5 h6 => rw [← List.append_assoc]; exact .mk (isSpace_append hw h1) h2 h3 h4 h5 h6

theorem mems_space {ms : JMems} {t w : List Char} (h : IsMems ms t) (hw : IsSpace w) : IsMems ms (w ++ t) := by
  cases h with
  | last h => exact .last (member_space h hw)
  | more h h' => rw [← List.append_assoc]; exact .more (member_space h hw) h'

theorem prefix_split {name s : List Char} (h : name.isPrefixOf s = true) : s = name ++ s.drop name.length := by
  obtain ⟨t, rfl⟩ := List.isPrefixOf_iff_prefix.1 h
  simp

theorem pname_sound {name s r : List Char} {u v : JVal} (h : pname name u s = some (v, r)) : v = u ∧ s = name ++ r := by
  unfold pname at h
  split at h
  · rename_i hp
    injection h with h
    injection h with h1 h2
    subst h1 h2
    exact ⟨rfl, prefix_split hp⟩
  · cases h

theorem parser_sound (fuel : Nat) :
    (∀ s v r, pvalue fuel s = some (v, r) → ∃ t, IsValue v t ∧ s = t ++ r) ∧
    (∀ s es r, pelems fuel s = some (es, r) → ∃ t, IsElems es t ∧ s = t ++ ']' :: r) ∧
    (∀ s ms r, pmembers fuel s = some (ms, r) → ∃ t, IsMems ms t ∧ s = t ++ '}' :: r) := by
  induction fuel with
  | zero => exact ⟨fun _ _ _ h => by simp [pvalue] at h, fun _ _ _ h => by simp [pelems] at h, fun _ _ _ h => by simp [pmembers] at h⟩
  | succ fuel ih =>
    obtain ⟨iv, ie, im⟩ := ih
    refine ⟨?_, ?_, ?_⟩
    · intro s v r h
      unfold pvalue at h
      split at h
      · rename_i q
        cases hp : pstring q with
        | none => rw [hp] at h; cases h
        | some p =>
          rw [hp] at h
          have h : some (JVal.str p.1, p.2) = some (v, r) := h
          injection h with h
          injection h with h1 h2
          subst h1 h2
          obtain ⟨t, ht, e⟩ := pstring_sound hp
          exact ⟨_, .str ht, by rw [e]; simp⟩
      · rename_i q
        obtain ⟨w, hw, e⟩ := ws_split q
        split at h
        · rename_i rest hq
          injection h with h
          injection h with h1 h2
          subst h1 h2
          exact ⟨_, .objNil hw, by rw [e, hq]; simp⟩
        · cases hp : pmembers fuel (ws q) with
          | none => rw [hp] at h; cases h
          | some p =>
            rw [hp] at h
            have h : some (JVal.obj p.1, p.2) = some (v, r) := h
            injection h with h
            injection h with h1 h2
            subst h1 h2
            obtain ⟨t, ht, e'⟩ := im _ _ _ hp
            exact ⟨_, .obj (mems_space ht hw), by rw [e, e']; simp⟩
      · rename_i q
        obtain ⟨w, hw, e⟩ := ws_split q
        split at h
        · rename_i rest hq
          injection h with h
          injection h with h1 h2
          subst h1 h2
          exact ⟨_, .arrNil hw, by rw [e, hq]; simp⟩
        · cases hp : pelems fuel (ws q) with
          | none => rw [hp] at h; cases h
          | some p =>
            rw [hp] at h
            have h : some (JVal.arr p.1, p.2) = some (v, r) := h
            injection h with h
            injection h with h1 h2
            subst h1 h2
            obtain ⟨t, ht, e'⟩ := ie _ _ _ hp
            exact ⟨_, .arr (elems_space ht hw), by rw [e, e']; simp⟩
      · obtain ⟨rfl, e⟩ := pname_sound h; exact ⟨_, .true, e⟩
      · obtain ⟨rfl, e⟩ := pname_sound h; exact ⟨_, .false, e⟩
      · obtain ⟨rfl, e⟩ := pname_sound h; exact ⟨_, .null, e⟩
      · cases hp : pnumber s with
        | none => rw [hp] at h; cases h
        | some p =>
          rw [hp] at h
          have h : some (JVal.num p.1, p.2) = some (v, r) := h
          injection h with h
          injection h with h1 h2
          subst h1 h2
          obtain ⟨ht, e⟩ := pnumber_sound hp
          exact ⟨_, .num ht, e⟩
    · intro s es r h
      unfold pelems at h
      cases hp : pvalue fuel s with
      | none => rw [hp] at h; cases h
      | some p =>
        rw [hp] at h
        dsimp only [bind, Option.bind] at h
        obtain ⟨t, ht, e⟩ := iv _ _ _ hp
        obtain ⟨w, hw, e2⟩ := ws_split p.2
        split at h
        · rename_i q hq
          cases hr : pelems fuel (ws q) with
          | none => rw [hr] at h; cases h
          | some p' =>
            rw [hr] at h
            have h : some (JElems.cons p.1 p'.1, p'.2) = some (es, r) := h
            injection h with h
            injection h with h1 h2
            subst h1 h2
            obtain ⟨w2, hw2, e4⟩ := ws_split q
            obtain ⟨t', ht', e3⟩ := ie _ _ _ hr
            refine ⟨_, .more (w := []) (fun c hc => by cases hc) ht hw (elems_space ht' hw2), ?_⟩
            rw [e, e2, hq, e4, e3]; simp
        · rename_i q hq
          injection h with h
          injection h with h1 h2
          subst h1 h2
          refine ⟨_, .last (w := []) (fun c hc => by cases hc) ht hw, ?_⟩
          rw [e, e2, hq]; simp
        · cases h
    · intro s ms r h
      unfold pmembers at h
      split at h
      · rename_i q
        cases hp : pstring q with
        | none => rw [hp] at h; cases h
        | some p =>
          rw [hp] at h
          dsimp only [bind, Option.bind] at h
          obtain ⟨t, ht, e⟩ := pstring_sound hp
          obtain ⟨w1, hw1, e1⟩ := ws_split p.2
          split at h
          · rename_i q1 hq1
            obtain ⟨w2, hw2, e2⟩ := ws_split q1
            cases hv : pvalue fuel (ws q1) with
            | none => rw [hv] at h; cases h
            | some pv =>
              rw [hv] at h
              dsimp only at h
              obtain ⟨tv, htv, e3⟩ := iv _ _ _ hv
              obtain ⟨w3, hw3, e4⟩ := ws_split pv.2
              have hm : IsMember p.1 pv.1 ([] ++ '"' :: (t ++ '"' :: (w1 ++ ':' :: (w2 ++ (tv ++ w3))))) :=
                .mk (fun c hc => by cases hc) ht hw1 hw2 htv hw3
              split at h
              · rename_i q2 hq2
                cases hr : pmembers fuel (ws q2) with
                | none => rw [hr] at h; cases h
                | some p' =>
                  rw [hr] at h
                  have h : some (JMems.cons p.1 pv.1 p'.1, p'.2) = some (ms, r) := h
                  injection h with h
                  injection h with h1 h2
                  subst h1 h2
                  obtain ⟨w4, hw4, e5⟩ := ws_split q2
                  obtain ⟨t', ht', e6⟩ := im _ _ _ hr
                  refine ⟨_, .more hm (mems_space ht' hw4), ?_⟩
                  rw [e, e1, hq1, e2, e3, e4, hq2, e5, e6]; simp
              · rename_i q2 hq2
                injection h with h
                injection h with h1 h2
                subst h1 h2
                refine ⟨_, .last hm, ?_⟩
                rw [e, e1, hq1, e2, e3, e4, hq2]; simp
              · cases h
          · cases h
      · cases h

/-- a text is a value's if and only if the parser reads the value from it. -/
theorem parseText_iff {s : List Char} {v : JVal} : parseText s = some v ↔ IsText v s := by
  refine ⟨fun h => ?_, parseText_of⟩
  unfold parseText at h
  cases hp : pvalue (2 * s.length + 2) (ws s) with
  | none => rw [hp] at h; cases h
  | some p =>
    rw [hp] at h
    dsimp only [bind, Option.bind] at h
    split at h
    · rename_i hw
      injection h with h
      subst h
      obtain ⟨w, hw', e⟩ := ws_split s
      obtain ⟨t, ht, e'⟩ := (parser_sound _).1 _ _ _ hp
      exact ⟨w, t, p.2, hw', ht, space_of_ws hw, by rw [e, e']⟩
    · cases h

/-- the texts that json.Unmarshal accepts: those of values that are not nested too deep. -/
theorem parse_iff {s : List Char} {v : JVal} : parse s = some v ↔ IsText v s ∧ v.depth ≤ maxDepth := by
  rw [← parseText_iff]
  unfold parse
  cases h : parseText s with
  | none => exact ⟨(fun h => by cases h), (fun h => by cases h.1)⟩
  | some w =>
    show (if w.depth ≤ maxDepth then some w else none) = some v ↔ _
    split
    · rename_i hw
      exact ⟨(fun h => by injection h with h; subst h; exact ⟨rfl, hw⟩), fun h => h.1⟩
    · rename_i hw
      exact ⟨(fun h => by cases h), (fun h => by obtain ⟨h1, h2⟩ := h; injection h1 with h1; subst h1; exact absurd h2 hw)⟩

theorem parse_of {v : JVal} {s : List Char} (h : IsText v s) (hd : v.depth ≤ maxDepth) : parse s = some v := parse_iff.2 ⟨h, hd⟩

end Json
end Goir
