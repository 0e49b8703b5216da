import Verif.Model.HttpBytes
import Verif.Spec.HttpBytes
import Verif.Props.Bind
import Verif.Props.Http
import Mathlib.Tactic.IntervalCases
/-!
# C114, C115: GET /nir in bytes
-/
namespace Goir
namespace Http
open Spec Json

/-! ### the answer -/

theorem valid_elems {vs : List JVal} (h : ∀ v ∈ vs, v.Valid) : (elemsOf vs).Valid := by
  induction vs with
  | nil => trivial
  | cons v vs ih => exact ⟨h v (by simp), ih fun x hx => h x (by simp [hx])⟩

theorem elements_elemsOf (vs : List JVal) : elements (elemsOf vs) = vs := by
  induction vs with
  | nil => rfl
  | cons v vs ih => simp [elemsOf, elements, ih]

theorem digits_valid : IsNumber (Nat.toDigits 10 0) ∧ IsNumber (Nat.toDigits 10 10) := by
  constructor
  · exact ⟨[], ['0'], [], [], Or.inl rfl, Or.inl rfl, Or.inl rfl, Or.inl rfl, rfl⟩
  · refine ⟨[], ['1', '0'], [], [], Or.inl rfl, Or.inr ⟨⟨by simp, ?_⟩, by simp⟩, Or.inl rfl, Or.inl rfl, rfl⟩
    decide

/-- a printer as strconv is: the text of a finite number is a JSON number. -/
def Printer.Ok {F : Type} (pr : Printer F) : Prop := ∀ x, pr.finite x = true → IsNumber (pr.text x)

theorem tells_render {F : Type} {pr : Printer F} (hp : pr.Ok) (duration : String) (r : Response F) (ht : r.total = 0 ∨ r.total = 10) (hs : r.semanticSearch = false)
    (hf : ∀ x ∈ r.queryResults, pr.finite x.2 = true) :
    Tells (Collection.utf8 (render (responseJson pr duration r))) r.total r.algorithm
      (if r.queryResults.isEmpty then none else some (r.queryResults.map fun x => (x.1, pr.text x.2))) := by
  have hv : (responseJson pr duration r).Valid := by
    refine ⟨?_, trivial, trivial, trivial, ?_, trivial⟩
    · rcases ht with h | h <;> rw [h]
      · exact digits_valid.1
      · exact digits_valid.2
    · split
      · trivial
      · refine valid_elems ?_
        intro v hv
        obtain ⟨x, hx, rfl⟩ := List.mem_map.1 hv
        exact ⟨hp x.2 (hf x hx), ⟨trivial, trivial, trivial, trivial⟩, trivial⟩
  refine ⟨_, responseJson pr duration r, Collection.decodes_utf8 _, parseText_iff.1 (by simpa using parseText_render _ hv [] (Or.inl rfl)), rfl, rfl, by rw [← hs]; rfl, ?_⟩
  by_cases he : r.queryResults.isEmpty = true
  · simp [he, responseJson, member, JMems.toList, List.find?]
  · simp only [he, Bool.false_eq_true, if_false]
    refine ⟨elemsOf (r.queryResults.map (resultJson pr)), by simp [he, responseJson, member, JMems.toList, List.find?], ?_⟩
    rw [elements_elemsOf, List.map_map, List.map_map]
    apply List.map_congr_left
    intro x _
    simp [resultJson, member, JMems.toList, List.find?]

/-- the answer to the result of a search. -/
theorem respond_tells {F : Type} {pr : Printer F} (hp : pr.Ok) (duration : String) (rs : Scores F) :
    (rs = [] → ∃ body, (respond rs).map (reply pr duration) = some (200, body) ∧ Tells body 0 "B25F" none) ∧
    (10 ≤ rs.length → (∀ x ∈ rs.take 10, pr.finite x.2 = true) →
      ∃ body, (respond rs).map (reply pr duration) = some (200, body) ∧ Tells body 10 "BM25" (some ((rs.take 10).map fun x => (x.1, pr.text x.2)))) ∧
    (10 ≤ rs.length → (∃ x ∈ rs.take 10, pr.finite x.2 = false) → (respond rs).map (reply pr duration) = some (200, [])) ∧
    (1 ≤ rs.length → rs.length ≤ 9 → (respond rs).map (reply pr duration) = none) := by
  refine ⟨?_, ?_, ?_, ?_⟩
  · rintro rfl
    refine ⟨_, rfl, ?_⟩
    have := tells_render hp duration (F := F) { total := 0, algorithm := "B25F", semanticSearch := false, queryResults := [] } (Or.inl rfl) rfl (by simp)
    exact this
  · intro h10 hf
    have hne : ¬ rs.length = 0 := by omega
    have hres : respond rs = some { total := 10, algorithm := "BM25", semanticSearch := false, queryResults := rs.take 10 } := by
      simp [respond, hne, sliceTo, h10]
    have hall : (rs.take 10).all (fun x => pr.finite x.2) = true := by rw [List.all_eq_true]; exact hf
    refine ⟨Collection.utf8 (render (responseJson pr duration { total := 10, algorithm := "BM25", semanticSearch := false, queryResults := rs.take 10 })), ?_, ?_⟩
    · rw [hres]; simp [reply, marshal, hall]
    · have := tells_render hp duration { total := 10, algorithm := "BM25", semanticSearch := false, queryResults := rs.take 10 } (Or.inr rfl) rfl hf
      have he : (rs.take 10).isEmpty = false := by
        cases rs with
        | nil => simp at h10
        | cons a l => rfl
      simpa [he] using this
  · rintro h10 ⟨x, hx, hfx⟩
    have hne : ¬ rs.length = 0 := by omega
    have hres : respond rs = some { total := 10, algorithm := "BM25", semanticSearch := false, queryResults := rs.take 10 } := by
      simp [respond, hne, sliceTo, h10]
    have hall : ¬ (rs.take 10).all (fun x => pr.finite x.2) = true := by
      rw [List.all_eq_true]; intro h; rw [h x hx] at hfx; simp at hfx
    rw [hres]; simp only [Option.map_some, reply, marshal, if_neg hall]; rfl
  · intro h1 h9
    rw [(c69_any_number_of_hits_refuted rs).2 ⟨h1, h9⟩]; rfl

/-- **C114** The answer of GET /nir, byte for byte, for every result of the search: with no hit a JSON text that says total 0 and null results; with ten or more, the
first ten all finite, one that says total 10 and has exactly the first ten, in order; with ten or more, one of the first ten not finite, an empty body with status
200; with one to nine, no answer. -/
theorem c114_answer {F : Type} [GoFloat F] (env : TextEnv) {pr : Printer F} (hp : pr.Ok) (st : Reads) (cpus : Nat) (raw : List UInt8) {out : Option (Nat × List UInt8)}
    (h : GetsBytes env pr st cpus raw out) :
    ∃ rs, SState.Returns st (queries (termsOf env (queryText raw))) cpus rs ∧
      (rs = [] → ∃ body, out = some (200, body) ∧ Tells body 0 "B25F" none) ∧
      (10 ≤ rs.length → (∀ x ∈ rs.take 10, pr.finite x.2 = true) →
        ∃ body, out = some (200, body) ∧ Tells body 10 "BM25" (some ((rs.take 10).map fun x => (x.1, pr.text x.2)))) ∧
      (10 ≤ rs.length → (∃ x ∈ rs.take 10, pr.finite x.2 = false) → out = some (200, [])) ∧
      (1 ≤ rs.length → rs.length ≤ 9 → out = none) := by
  obtain ⟨r, duration, ⟨terms, rs, ht, hr, rfl⟩, rfl⟩ := h
  rw [preprocessing_some] at ht
  obtain rfl := Option.some.inj ht
  exact ⟨rs, hr, respond_tells hp duration rs⟩

/-- what a body tells is unambiguous. -/
theorem c114_unique {body : List UInt8} {t t' : Nat} {a a' : String} {r r' : Option (List (String × List Char))} (h : Tells body t a r) (h' : Tells body t' a' r') :
    Nat.toDigits 10 t = Nat.toDigits 10 t' ∧ a = a' ∧ r = r' := by
  obtain ⟨cs, v, h1, h2, h3, h4, -, h5⟩ := h
  obtain ⟨cs', v', h1', h2', h3', h4', -, h5'⟩ := h'
  have : cs = cs' := by rw [← Collection.chars_of_decodes h1, ← Collection.chars_of_decodes h1']
  subst this
  have hvv : v = v' := by
    have a := parseText_iff.2 h2
    rw [parseText_iff.2 h2'] at a; exact (Option.some.inj a).symm
  subst hvv
  rw [h3] at h3'; rw [h4] at h4'
  simp only [Option.some.injEq, JVal.num.injEq, JVal.str.injEq] at h3' h4'
  refine ⟨h3', h4', ?_⟩
  cases r with
  | none => cases r' with
    | none => rfl
    | some rs => obtain ⟨es, h6, -⟩ := h5'; simp only at h5; rw [h5] at h6; simp at h6
  | some rs => cases r' with
    | none => obtain ⟨es, h6, -⟩ := h5; simp only at h5'; rw [h5'] at h6; simp at h6
    | some rs' =>
      obtain ⟨es, h6, h7⟩ := h5
      obtain ⟨es', h6', h7'⟩ := h5'
      rw [h6] at h6'; simp only [Option.some.injEq, JVal.arr.injEq] at h6'; subst h6'
      rw [h7] at h7'
      congr 1
      have inj : Function.Injective (fun r : String × List Char => (some (JVal.str r.1), some (JVal.num r.2))) := by
        rintro ⟨a, b⟩ ⟨c, d⟩ h; simpa using h
      exact inj.list_map h7'

/-! ### the question -/

theorem digit_unhex {i : Nat} {x : UInt8} (h : HexOf.Digit i x) : ∃ y, unhex x = some y ∧ y.toNat = i := by
  have hi : i < 16 := by
    unfold HexOf.Digit at h
    by_contra hc
    rw [List.getElem?_eq_none (by simpa using hc), List.getElem?_eq_none (by simpa using hc)] at h
    simp at h
  unfold HexOf.Digit at h
  interval_cases i <;> (simp at h; first | (subst h; exact ⟨_, rfl, rfl⟩) | (rcases h with h | h <;> (subst h; exact ⟨_, rfl, rfl⟩)))

theorem unhex_digit {x y : UInt8} (h : unhex x = some y) : HexOf.Digit y.toNat x := by
  have hx : x = UInt8.ofNat x.toNat := by simp
  unfold unhex at h
  simp only [UInt8.le_iff_toNat_le] at h
  generalize x.toNat = n at hx h
  split at h
  · rename_i hr
    obtain ⟨h1, h2⟩ := hr
    change 48 ≤ n at h1; change n ≤ 57 at h2
    interval_cases n <;> (subst hx; obtain rfl := Option.some.inj h; left; rfl)
  · split at h
    · rename_i hr
      obtain ⟨h1, h2⟩ := hr
      change 97 ≤ n at h1; change n ≤ 102 at h2
      interval_cases n <;> (subst hx; obtain rfl := Option.some.inj h; left; rfl)
    · split at h
      · rename_i hr
        obtain ⟨h1, h2⟩ := hr
        change 65 ≤ n at h1; change n ≤ 70 at h2
        interval_cases n <;> (subst hx; obtain rfl := Option.some.inj h; right; rfl)
      · simp at h

theorem unhex_byte {b x y i j : UInt8} (hx : unhex x = some i) (hy : unhex y = some j) : b = i * 16 + j ↔ b.toNat = i.toNat * 16 + j.toNat := by
  have hi : i.toNat < 16 := by
    have := unhex_digit hx
    by_contra hc
    unfold HexOf.Digit at this
    rw [List.getElem?_eq_none (by simpa using hc), List.getElem?_eq_none (by simpa using hc)] at this
    simp at this
  have hj : j.toNat < 16 := by
    have := unhex_digit hy
    by_contra hc
    unfold HexOf.Digit at this
    rw [List.getElem?_eq_none (by simpa using hc), List.getElem?_eq_none (by simpa using hc)] at this
    simp at this
  rw [← UInt8.toNat_inj, UInt8.toNat_add, UInt8.toNat_mul]
  have : (16 : UInt8).toNat = 16 := rfl
  rw [this, Nat.mod_eq_of_lt (by omega : i.toNat * 16 < 2 ^ 8), Nat.mod_eq_of_lt (by omega)]

theorem unescape_other {c : UInt8} (h1 : c ≠ 37) (h2 : c ≠ 43) (r : List UInt8) : unescape (c :: r) = (unescape r).bind fun t => some (c :: t) := by
  rw [unescape.eq_def (c :: r)]
  split
  · rename_i h; simp at h
  · rename_i h; exact absurd (List.cons.inj h).1 h1
  · rename_i h; exact absurd (List.cons.inj h).1 h2
  · rename_i h; obtain ⟨rfl, rfl⟩ := List.cons.inj h; rfl

theorem unescape_of {bs e : List UInt8} (h : UrlEncodes bs e) : unescape e = some bs := by
  induction h with
  | nil => rfl
  | plain h1 h2 _ _ _ ih => rw [unescape_other h1 h2, ih]; rfl
  | space _ ih => show unescape (43 :: _) = _; simp only [unescape, ih]; rfl
  | percent hx _ ih =>
    obtain ⟨i, j, hb, hi, hj⟩ := hx
    obtain ⟨i', hi', rfl⟩ := digit_unhex hi
    obtain ⟨j', hj', rfl⟩ := digit_unhex hj
    show unescape (37 :: _ :: _ :: _) = _
    simp only [unescape, hi', hj', ih, (unhex_byte hi' hj').2 hb]; rfl

theorem unescape_sound (e : List UInt8) (ha : (38 : UInt8) ∉ e) (hs : (59 : UInt8) ∉ e) : ∀ bs, unescape e = some bs → UrlEncodes bs e := by
  fun_induction unescape e with
  | case1 => intro bs h; obtain rfl := Option.some.inj h; exact .nil
  | case2 a b r ih =>
    intro bs h
    simp only [Option.bind_eq_bind, Option.bind_eq_some_iff, pure, Option.some.injEq] at h
    obtain ⟨x, hx, y, hy, t, ht, rfl⟩ := h
    simp only [List.mem_cons, not_or] at ha hs
    exact .percent ⟨x.toNat, y.toNat, (unhex_byte hx hy).1 rfl, unhex_digit hx, unhex_digit hy⟩ (ih ha.2.2.2 hs.2.2.2 t ht)
  | case3 => intro bs h; simp at h
  | case4 r ih =>
    intro bs h
    simp only [Option.bind_eq_bind, Option.bind_eq_some_iff, pure, Option.some.injEq] at h
    obtain ⟨t, ht, rfl⟩ := h
    simp only [List.mem_cons, not_or] at ha hs
    exact .space (ih ha.2 hs.2 t ht)
  | case5 c r h1 h2 ih =>
    intro bs h
    simp only [Option.bind_eq_bind, Option.bind_eq_some_iff, pure, Option.some.injEq] at h
    obtain ⟨t, ht, rfl⟩ := h
    simp only [List.mem_cons, not_or] at ha hs
    exact .plain (fun e => h1 e) (fun e => h2 e) (fun e => ha.1 e.symm) (fun e => hs.1 e.symm) (ih ha.2 hs.2 t ht)

theorem encodes_clean {bs e : List UInt8} (h : UrlEncodes bs e) : (38 : UInt8) ∉ e ∧ (59 : UInt8) ∉ e := by
  induction h with
  | nil => simp
  | plain _ _ h3 h4 _ ih => simp only [List.mem_cons, not_or]; exact ⟨⟨fun e => h3 e.symm, ih.1⟩, fun e => h4 e.symm, ih.2⟩
  | space _ ih => simp only [List.mem_cons, not_or]; exact ⟨⟨by decide, ih.1⟩, by decide, ih.2⟩
  | percent hx _ ih =>
    obtain ⟨i, j, -, hi, hj⟩ := hx
    have dig : ∀ {i : Nat} {x : UInt8}, HexOf.Digit i x → x ≠ 38 ∧ x ≠ 59 := by
      intro i x hd
      obtain ⟨y, hy, -⟩ := digit_unhex hd
      exact ⟨by rintro rfl; simp [unhex] at hy, by rintro rfl; simp [unhex] at hy⟩
    simp only [List.mem_cons, not_or]
    exact ⟨⟨by decide, fun e => (dig hi).1 e.symm, fun e => (dig hj).1 e.symm, ih.1⟩, by decide, fun e => (dig hi).2 e.symm, fun e => (dig hj).2 e.symm, ih.2⟩

theorem cut_of {sep : UInt8} {a : List UInt8} (h : sep ∉ a) (b : List UInt8) : cut sep (a ++ sep :: b) = (a, b) := by
  induction a with
  | nil => simp [cut]
  | cons c a ih =>
    simp only [List.mem_cons, not_or] at h
    simp only [List.cons_append, cut, if_neg (fun e => h.1 (Eq.symm e) : ¬ c = sep), ih h.2]

theorem cut_none {sep : UInt8} {a : List UInt8} (h : sep ∉ a) : cut sep a = (a, []) := by
  induction a with
  | nil => rfl
  | cons c a ih =>
    simp only [List.mem_cons, not_or] at h
    simp only [cut, if_neg (fun e => h.1 (Eq.symm e) : ¬ c = sep), ih h.2]

theorem cut_cases (sep : UInt8) (a : List UInt8) :
    sep ∉ (cut sep a).1 ∧ ((a = (cut sep a).1 ∧ (cut sep a).2 = []) ∨ a = (cut sep a).1 ++ sep :: (cut sep a).2) := by
  induction a with
  | nil => simp [cut]
  | cons c a ih =>
    unfold cut
    split
    · rename_i h; subst h; simp
    · rename_i h
      simp only [List.mem_cons, not_or, List.cons_append, List.cons.injEq, true_and]
      exact ⟨⟨fun e => h e.symm, ih.1⟩, ih.2⟩

theorem pair_nil : pair [] = none := by simp [pair]

/-- the pairs of parameters joined with `&`. -/
theorem parseQuery_join (ps : List (List UInt8)) (h : ∀ p ∈ ps, (38 : UInt8) ∉ p) : parseQuery (joinParams ps) = ps.filterMap pair := by
  induction ps with
  | nil => simp [joinParams, parseQuery]
  | cons p ps ih =>
    have hp := h p (by simp)
    have step : ∀ q, parseQuery (p ++ 38 :: q) = (pair p).toList ++ parseQuery q := by
      intro q
      obtain ⟨c, r, hcr⟩ : ∃ c r, p ++ 38 :: q = c :: r := by cases p <;> simp
      rw [hcr, parseQuery, ← hcr, cut_of hp]
      simp only
      cases pair p <;> simp
    cases ps with
    | nil =>
      simp only [joinParams]
      cases p with
      | nil => simp [parseQuery, pair_nil]
      | cons c r =>
        rw [parseQuery, cut_none hp]
        simp only [List.filterMap_cons, List.filterMap_nil]
        have : parseQuery [] = [] := by rw [parseQuery]
        cases pair (c :: r) <;> simp [this]
    | cons p' ps =>
      show parseQuery (p ++ 38 :: joinParams (p' :: ps)) = _
      rw [step, ih fun x hx => h x (by simp [hx])]
      cases hpp : pair p <;> simp [List.filterMap_cons, hpp]

theorem pair_of {p bs : List UInt8} (h : ForQuery p bs) : pair p = some (queryKey, bs) := by
  obtain ⟨k, v, hp, h61, hk, hv⟩ := h
  have hk0 : k.isEmpty = false := by
    cases hk <;> rfl
  have hcut : cut 61 p = (k, v) := by
    rcases hp with rfl | ⟨rfl, rfl⟩
    · exact cut_of h61 v
    · exact cut_none h61
  have h59 : (59 : UInt8) ∉ p := by
    rcases hp with rfl | ⟨rfl, rfl⟩
    · simp only [List.mem_append, List.mem_cons, not_or]; exact ⟨(encodes_clean hk).2, by decide, (encodes_clean hv).2⟩
    · exact (encodes_clean hk).2
  have hne : p.isEmpty = false := by
    rcases hp with rfl | ⟨rfl, rfl⟩
    · cases k <;> rfl
    · exact hk0
  unfold pair
  rw [if_neg (by simpa using h59), if_neg (by simp [hne])]
  simp only [hcut, unescape_of hk, unescape_of hv]; rfl

theorem forQuery_of {p bs : List UInt8} (h38 : (38 : UInt8) ∉ p) (h : pair p = some (queryKey, bs)) : ForQuery p bs := by
  unfold pair at h
  split at h
  · simp at h
  · split at h
    · simp at h
    · rename_i hs _
      have hs' : (59 : UInt8) ∉ p := by simpa using hs
      simp only [Option.bind_eq_bind, Option.bind_eq_some_iff, pure, Option.some.injEq, Prod.mk.injEq] at h
      obtain ⟨k', hk', v', hv', hk, rfl⟩ := h
      rw [hk] at hk'
      have hc := cut_cases 61 p
      have hsub : ∀ x, x ∈ (cut 61 p).1 → x ∈ p := by
        intro x hx
        rcases hc.2 with e | e
        · rw [e.1]; exact hx
        · rw [e]; simp [hx]
      have hsub2 : ∀ x, x ∈ (cut 61 p).2 → x ∈ p := by
        intro x hx
        rcases hc.2 with e | e
        · rw [e.2] at hx; simp at hx
        · rw [e]; simp [hx]
      refine ⟨(cut 61 p).1, (cut 61 p).2, hc.2.symm, hc.1,
        unescape_sound _ (fun hm => h38 (hsub _ hm)) (fun hm => hs' (hsub _ hm)) _ hk',
        unescape_sound _ (fun hm => h38 (hsub2 _ hm)) (fun hm => hs' (hsub2 _ hm)) _ hv'⟩

theorem other_iff {p : List UInt8} (h38 : (38 : UInt8) ∉ p) : Other p ↔ ∀ kv, pair p = some kv → kv.1 ≠ queryKey := by
  constructor
  · rintro h ⟨k, v⟩ hp rfl; exact h.2 v (forQuery_of h38 hp)
  · intro h; exact ⟨h38, fun bs hq => h _ (pair_of hq) rfl⟩

theorem find_others {ps : List (List UInt8)} (h : ∀ p ∈ ps, Other p) : (ps.filterMap pair).find? (fun kv => decide (kv.1 = queryKey)) = none := by
  rw [List.find?_eq_none]
  intro kv hm
  obtain ⟨p, hp, hpp⟩ := List.mem_filterMap.1 hm
  simpa using (other_iff (h p hp).1).1 (h p hp) kv hpp

theorem forQuery_clean {p bs : List UInt8} (h : ForQuery p bs) : (38 : UInt8) ∉ p := by
  obtain ⟨k, v, hp, h61, hk, hv⟩ := h
  rcases hp with rfl | ⟨rfl, rfl⟩
  · simp only [List.mem_append, List.mem_cons, not_or]; exact ⟨(encodes_clean hk).1, by decide, (encodes_clean hv).1⟩
  · exact (encodes_clean hk).1

theorem valuesGet_asks {raw bs : List UInt8} (h : Asks raw bs) : valuesGet (parseQuery raw) queryKey = bs := by
  rcases h with ⟨before, p, after, hb, hp, ha, rfl⟩ | ⟨rfl, ps, hps, rfl⟩
  · rw [parseQuery_join, List.filterMap_append, List.filterMap_cons, pair_of hp]
    · simp [valuesGet, List.find?_append, find_others hb]
    · intro x hx
      rcases List.mem_append.1 hx with hx | hx
      · exact (hb x hx).1
      · rcases List.mem_cons.1 hx with rfl | hx
        · exact forQuery_clean hp
        · exact ha x hx
  · rw [parseQuery_join _ fun p hp => (hps p hp).1]
    simp only [valuesGet, find_others hps, Option.map_none, Option.getD_none]

/-- **C115** What GET /nir searches for is what the client asked, whatever else is in the query string and however the client encoded the name and the text: the
text that the bytes of the first parameter for `query` mean, or the empty text. -/
theorem c115_query {raw bs : List UInt8} {q : String} (h : Asks raw bs) (hq : Decodes bs q.toList) : queryText raw = q := by
  rw [queryText, valuesGet_asks h, Collection.chars_of_decodes hq]; simp

/-- the bytes between the `&`s. -/
def parts : List UInt8 → List (List UInt8)
  | [] => [[]]
  | c :: r => if c = 38 then [] :: parts r else
    match parts r with
    | p :: ps => (c :: p) :: ps
    | [] => [[c]]

theorem parts_spec (raw : List UInt8) : parts raw ≠ [] ∧ (∀ p ∈ parts raw, (38 : UInt8) ∉ p) ∧ joinParams (parts raw) = raw := by
  induction raw with
  | nil => simp [parts, joinParams]
  | cons c r ih =>
    obtain ⟨h1, h2, h3⟩ := ih
    unfold parts
    split
    · rename_i hc; subst hc
      refine ⟨by simp, ?_, ?_⟩
      · intro p hp
        rcases List.mem_cons.1 hp with rfl | hp
        · simp
        · exact h2 p hp
      · cases hp : parts r with
        | nil => exact absurd hp h1
        | cons p ps => rw [hp] at h3; show [] ++ 38 :: joinParams (p :: ps) = _; rw [h3]; rfl
    · rename_i hc
      cases hp : parts r with
      | nil => exact absurd hp h1
      | cons p ps =>
        rw [hp] at h2 h3
        refine ⟨by simp, ?_, ?_⟩
        · intro x hx
          rcases List.mem_cons.1 hx with rfl | hx
          · simp only [List.mem_cons, not_or]; exact ⟨fun e => hc e.symm, h2 p (by simp)⟩
          · exact h2 x (by simp [hx])
        · cases ps with
          | nil => simp only [joinParams] at h3 ⊢; rw [h3]
          | cons p' ps => simp only [joinParams] at h3 ⊢; rw [← h3]; rfl

/-- **C115** Every query string asks something, and only one thing. -/
theorem c115_total (raw : List UInt8) : ∃! bs, Asks raw bs := by
  obtain ⟨-, h2, h3⟩ := parts_spec raw
  have huniq : ∀ bs, Asks raw bs → bs = valuesGet (parseQuery raw) queryKey := fun bs h => (valuesGet_asks h).symm
  suffices h : ∃ bs, Asks raw bs by
    obtain ⟨bs, h⟩ := h
    exact ⟨bs, h, fun y hy => by rw [huniq y hy, huniq bs h]⟩
  have key : ∀ ps : List (List UInt8), (∀ p ∈ ps, (38 : UInt8) ∉ p) →
      (∀ p ∈ ps, Other p) ∨ ∃ before p after bs, ps = before ++ p :: after ∧ (∀ p ∈ before, Other p) ∧ ForQuery p bs := by
    intro ps
    induction ps with
    | nil => intro _; left; simp
    | cons p ps ih =>
      intro h
      by_cases hp : Other p
      · rcases ih fun x hx => h x (by simp [hx]) with ho | ⟨b, x, a, bs, rfl, hb, hx⟩
        · left; intro x hx
          rcases List.mem_cons.1 hx with rfl | hx
          · exact hp
          · exact ho x hx
        · right
          refine ⟨p :: b, x, a, bs, rfl, ?_, hx⟩
          intro y hy
          rcases List.mem_cons.1 hy with rfl | hy
          · exact hp
          · exact hb y hy
      · right
        have : ∃ bs, ForQuery p bs := by
          by_contra hc
          exact hp ⟨h p (by simp), fun bs hb => hc ⟨bs, hb⟩⟩
        obtain ⟨bs, hbs⟩ := this
        exact ⟨[], p, ps, bs, rfl, by simp, hbs⟩
  rcases key _ h2 with h | ⟨b, p, a, bs, e, hb, hp⟩
  · exact ⟨[], Or.inr ⟨rfl, _, h, h3.symm⟩⟩
  · refine ⟨bs, Or.inl ⟨b, p, a, hb, hp, ?_, by rw [← e]; exact h3.symm⟩⟩
    intro x hx; exact h2 x (by rw [e]; simp [hx])

/-- the query string `a=1&que%72y=r+%C3%A9&query=z` asks for `r é`. -/
example : Asks ("a=1&que%72y=r+%C3%A9&query=z".toList.map Char.toUInt8) ("r é".toList.flatMap String.utf8EncodeChar) := by
  refine Or.inl ⟨["a=1".toList.map Char.toUInt8], "que%72y=r+%C3%A9".toList.map Char.toUInt8, ["query=z".toList.map Char.toUInt8], ?_, ?_, ?_, rfl⟩
  · intro p hp
    simp only [List.mem_singleton] at hp
    subst hp
    rw [other_iff (by decide)]
    intro kv hkv
    have : pair ("a=1".toList.map Char.toUInt8) = some ([97], [49]) := by rfl
    rw [this] at hkv
    obtain rfl := Option.some.inj hkv
    decide
  · exact forQuery_of (by decide) rfl
  · decide

end Http
end Goir
