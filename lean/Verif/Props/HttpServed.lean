import Verif.Props.HttpBytes
import Verif.Props.DiskSearch
import Verif.Props.NaN
/-!
# C114: bytes in, bytes out

POST requests as bodies of bytes, then a GET request as a query string of bytes, answered with bytes; on a memory store and on a disk store.
-/
namespace Goir
namespace Http
open Spec Json

/-- the documents that the client wants: those of the accepted requests with a title or a text that shares a term with `q`. -/
def Wanted (env : TextEnv) (bodies : List (List UInt8)) (q : String) (d : String) : Prop :=
  ∃ body ∈ bodies, ∃ s doc, Decodes body s ∧ Carries s doc ∧ doc.id = d ∧ d ≠ "" ∧ ∃ t ∈ termsOf env q, t ∈ termsOf env doc.title ∨ t ∈ termsOf env doc.text

/-- the answer to a client that wants the documents `W`: if there are none, a body that says so; if there are ten or more, a body with ten different ones of
them; if there are one to nine, none at all (the defect of C69). -/
def Answered (W : String → Prop) (out : Option (Nat × List UInt8)) : Prop :=
  ((∀ d, ¬ W d) → ∃ body, out = some (200, body) ∧ Tells body 0 "B25F" none) ∧
  ((∃ ds : List String, ds.Nodup ∧ ds.length = 10 ∧ ∀ d ∈ ds, W d) → ∃ body rs, out = some (200, body) ∧ Tells body 10 "BM25" (some rs) ∧
    rs.length = 10 ∧ (rs.map Prod.fst).Nodup ∧ ∀ r ∈ rs, W r.1) ∧
  ((∃ d, W d) → (¬ ∃ ds : List String, ds.Nodup ∧ ds.length = 10 ∧ ∀ d ∈ ds, W d) → out = none)

theorem answered {F : Type} [GoFloat F] (env : TextEnv) {pr : Printer F} (hp : pr.Ok) {st : Reads} (hst : st.Consistent) {cpus : Nat} {raw bs : List UInt8} {q : String}
    (ha : Asks raw bs) (hq : Decodes bs q.toList) {W : String → Prop}
    (hW : ∀ rs : Scores F, SState.Returns st (queries (termsOf env q)) cpus rs → (∀ d, d ∈ rs.map Prod.fst ↔ W d) ∧ ∀ x ∈ rs, pr.finite x.2 = true)
    {out : Option (Nat × List UInt8)} (h : GetsBytes env pr st cpus raw out) : Answered W out := by
  obtain ⟨rs, hr, h0, h10, -, h9⟩ := c114_answer env hp st cpus raw h
  rw [c115_query ha hq] at hr
  obtain ⟨hd, hf⟩ := hW rs hr
  have nd := (c59_result hst _ cpus hr).1
  have hlen : ∀ ds : List String, ds.Nodup → (∀ d ∈ ds, W d) → ds.length ≤ rs.length := by
    intro ds hnd hds
    have : ds.Subperm (rs.map Prod.fst) := List.subperm_of_subset hnd fun d hd' => (hd d).2 (hds d hd')
    simpa using this.length_le
  refine ⟨?_, ?_, ?_⟩
  · intro hno
    apply h0
    rcases rs with _ | ⟨x, rs⟩
    · rfl
    · exact absurd ((hd x.1).1 (by simp)) (hno _)
  · rintro ⟨ds, hnd, hl, hds⟩
    have h10' : 10 ≤ rs.length := hl ▸ hlen ds hnd hds
    obtain ⟨body, h1, h2⟩ := h10 h10' fun x hx => hf x (List.mem_of_mem_take hx)
    refine ⟨body, _, h1, h2, by simp [h10'], ?_, ?_⟩
    · rw [List.map_map]
      show ((rs.take 10).map Prod.fst).Nodup
      rw [List.map_take]; exact (List.take_sublist _ _).nodup nd
    · intro r hr'
      obtain ⟨x, hx, rfl⟩ := List.mem_map.1 hr'
      exact (hd x.1).1 (List.mem_map_of_mem (List.mem_of_mem_take hx))
  · rintro ⟨d, hd'⟩ hno
    apply h9
    · have := hlen [d] (by simp) (by simpa using hd'); simpa using this
    · by_contra hc
      apply hno
      refine ⟨(rs.map Prod.fst).take 10, (List.take_sublist _ _).nodup nd, by simp; omega, ?_⟩
      intro x hx
      exact (hd x).1 (List.mem_of_mem_take hx)

theorem wanted_iff (env : TextEnv) (bodies : List (List UInt8)) (q d : String) : Wanted env bodies q d ↔
    ∃ doc, some doc ∈ bodies.map shouldBindJSON ∧ doc.id = d ∧ d ≠ "" ∧ ∃ t ∈ termsOf env q, t ∈ termsOf env doc.title ∨ t ∈ termsOf env doc.text := by
  constructor
  · rintro ⟨s, hs', _, doc, hu, hc, hid, hne, hx⟩
    exact ⟨doc, List.mem_map.2 ⟨s, hs', bind_carries hu hc⟩, hid, hne, hx⟩
  · rintro ⟨doc, hmem, hid, hne, hx⟩
    obtain ⟨s, hs', e⟩ := List.mem_map.1 hmem
    exact ⟨s, hs', _, doc, Collection.decodes_chars _, carries_bind (Collection.decodes_chars _) e (by rw [hid]; exact hne), hid, hne, hx⟩

theorem posted_finite (env : TextEnv) (bodies : List (Option Document)) (q : String) (cpus : Nat) {l : Scores XReal}
    (hl : SState.Returns (Memory.run (bodies.flatMap (callsOf env))).reads (queries (termsOf env q)) cpus l) : ∀ x ∈ l, ∃ y, x.2 = .fin y := by
  rintro ⟨d, x⟩ hx
  have h := c68_finite_partial _ (c68_http_finite env bodies).1 (c68_http_finite env bodies).2 (queries (F := ℝ) (termsOf env q)) cpus (l := l) (by
    have e : (queries (F := ℝ) (termsOf env q)).map (fun q => (⟨q.fieldName, .fin q.boost, q.terms⟩ : Query XReal)) = queries (termsOf env q) := rfl
    rw [e]; exact hl) d x
  exact ⟨_, (h.1 hx).2⟩

/-- **C114 (memory store).** For all bodies of POST requests and every query string: the bytes answered to GET /nir are as `Answered` says for the documents that the
client wants (scores over the reals with infinities and NaN). -/
theorem c114_memory (env : TextEnv) {pr : Printer XReal} (hp : pr.Ok) (hfin : ∀ y, pr.finite (.fin y) = true) (bodies : List (List UInt8)) :
    ∃ m, serveBodies env bodies = some m ∧ ∀ (raw bs : List UInt8) (q : String), Asks raw bs → Decodes bs q.toList →
      ∀ cpus out, GetsBytes env pr m.reads cpus raw out → Answered (Wanted env bodies q) out := by
  obtain ⟨m, hm, hs⟩ := c110_searchable (F := XReal) env bodies
  have hrun : m = Memory.run ((bodies.map shouldBindJSON).flatMap (callsOf env)) := by
    have e := servePosts_eq env (bodies.map shouldBindJSON)
    have e' : servePosts env (bodies.map shouldBindJSON) = serveBodies env bodies := by
      unfold serveBodies servePosts; rw [List.foldlM_map]; rfl
    rw [e', hm] at e; exact Option.some.inj e
  refine ⟨m, hm, fun raw bs q ha hq cpus out h => answered env hp (hrun ▸ memory_consistent _) ha hq (fun rs hr => ⟨fun d => hs q cpus rs hr d, ?_⟩) h⟩
  intro x hx
  obtain ⟨y, hy⟩ := posted_finite env _ q cpus (hrun ▸ hr) x hx
  rw [hy]; exact hfin y

/-- **C114 (disk store).** The same for the disk store that main uses: if the saves made are those of the requests, the cache is large enough and no save is half
done. -/
theorem c114_disk (env : TextEnv) {pr : Printer XReal} (hp : pr.Ok) (hfin : ∀ y, pr.finite (.fin y) = true) (bodies : List (List UInt8)) {as : List Disk.Act} {s : Disk}
    (h : Disk.run {} (.open_ :: as) = some s) (ho : Disk.Act.open_ ∉ as) (hb : Disk.calls as = (bodies.map shouldBindJSON).flatMap (callsOf env)) (hi : s.idle = true)
    (hn : CacheSuffices as) (raw bs : List UInt8) (q : String) (ha : Asks raw bs) (hq : Decodes bs q.toList) (cpus : Nat) (out : Option (Nat × List UInt8))
    (hg : GetsBytes env pr s.reads cpus raw out) : Answered (Wanted env bodies q) out := by
  have gv : GoValues (Disk.calls as) := by rw [hb]; exact (c68_http_finite env _).1
  have hs : ∀ op ∈ Disk.calls as, op.isSave = true := by rw [hb]; exact (c68_http_finite env _).2.1
  obtain ⟨h1, h2⟩ := disk_reads_like_memory h ho gv hs hi hn
  refine answered env hp h2 ha hq (fun rs hr => ⟨fun d => ?_, fun x hx => ?_⟩) hg
  · rw [wanted_iff]; exact c78_http env _ h ho hb hi hn q hr d
  · obtain ⟨l', h3, h4⟩ := h1.search h2 (memory_consistent _) _ (cpus' := 1) (by omega) hr
    rw [hb] at h3
    obtain ⟨y, hy⟩ := posted_finite env _ q 1 h3 x (h4.mem_iff.2 hx)
    rw [hy]; exact hfin y

/-! ### the answer to a POST -/

/-- the body is a JSON object with this one number. -/
def TellsNumber (body : List UInt8) (name : String) (n : Nat) : Prop :=
  ∃ text v, Decodes body text ∧ IsText v text ∧ member v name = some (.num (Nat.toDigits 10 n))

theorem number_valid : IsNumber (Nat.toDigits 10 201) ∧ IsNumber (Nat.toDigits 10 400) := by
  constructor
  · refine ⟨[], ['2', '0', '1'], [], [], Or.inl rfl, Or.inr ⟨⟨by simp, ?_⟩, by simp⟩, Or.inl rfl, Or.inl rfl, rfl⟩
    decide
  · refine ⟨[], ['4', '0', '0'], [], [], Or.inl rfl, Or.inr ⟨⟨by simp, ?_⟩, by simp⟩, Or.inl rfl, Or.inl rfl, rfl⟩
    decide

theorem tells_h (name : String) (v : JVal) (hv : v.Valid) :
    ∃ text w, Decodes (ginH name v) text ∧ IsText w text ∧ member w name = some v := by
  have hw : (JVal.obj (.cons name v .nil)).Valid := ⟨hv, trivial⟩
  refine ⟨_, _, Collection.decodes_utf8 _, parseText_iff.1 (by simpa using parseText_render _ hw [] (Or.inl rfl)), ?_⟩
  simp [member, JMems.toList]

/-- **C114 (POST)** Exactly the bodies that carry a document with an id are answered 201 and a JSON object that says `success`: 201; exactly those change the store. A
document without an id is answered 400 and `Invalid document`: 400, anything else 400 and `error` with the message. -/
theorem c114_post (env : TextEnv) (h : List StoreOp) (err : String) {body : List UInt8} {s : List Char} (hu : Decodes body s) :
    ∃ m status out, postBytes env (Memory.run h) err body = some (m, status, out) ∧
      ((∃ doc, Carries s doc ∧ doc.id ≠ "") → status = 201 ∧ TellsNumber out "success" 201) ∧
      ((¬ ∃ doc, Carries s doc ∧ doc.id ≠ "") → status = 400 ∧ m = Memory.run h ∧
        (TellsNumber out "Invalid document" 400 ∨ ∃ text v, Decodes out text ∧ IsText v text ∧ member v "error" = some (.str err))) ∧
      (∀ doc, Carries s doc → doc.id = "" → TellsNumber out "Invalid document" 400) := by
  cases hb : shouldBindJSON body with
  | none =>
    refine ⟨Memory.run h, 400, ginH "error" (.str err), by simp [postBytes, hb, post], ?_, ?_, ?_⟩
    · rintro ⟨doc, hc, -⟩; rw [bind_carries hu hc] at hb; simp at hb
    · intro _; exact ⟨rfl, rfl, Or.inr (tells_h _ _ trivial)⟩
    · intro doc hc; rw [bind_carries hu hc] at hb; simp at hb
  | some doc =>
    by_cases hid : doc.id = ""
    · refine ⟨Memory.run h, 400, ginH "Invalid document" (.num (Nat.toDigits 10 400)), by simp [postBytes, hb, post, isNotDocumentComplete, hid], ?_, ?_, ?_⟩
      · rintro ⟨doc', hc, hne⟩
        rw [bind_carries hu hc] at hb
        obtain rfl := Option.some.inj hb
        exact absurd hid hne
      · intro _; exact ⟨rfl, rfl, Or.inl (tells_h _ _ number_valid.2)⟩
      · intro _ _ _; exact tells_h _ _ number_valid.2
    · have hp := post_eq env h (some doc)
      simp only [hid, if_false] at hp
      refine ⟨Memory.run (h ++ callsOf env (some doc)), 201, ginH "success" (.num (Nat.toDigits 10 201)), by simp only [postBytes, hb, hp, Option.map_some, isNotDocumentComplete, beq_iff_eq, hid, if_false], ?_, ?_, ?_⟩
      · intro _; exact ⟨rfl, tells_h _ _ number_valid.1⟩
      · intro hno; exact absurd ⟨doc, carries_bind hu hb hid, hid⟩ hno
      · intro doc' hc hid'
        rw [bind_carries hu hc] at hb
        obtain rfl := Option.some.inj hb
        exact absurd hid' hid

/-! ### a client -/

/-- the body of a request for a document, as a client that uses a JSON library sends it. -/
def bodyOf (id title text : String) : List UInt8 :=
  Collection.utf8 (render (.obj (.cons "id" (.str id) (.cons "title" (.str title) (.cons "text" (.str text) .nil)))))

/-- … it carries that document, whatever the texts are. -/
theorem bodyOf_carries (id title text : String) (hid : id ≠ "") : ∃ s, Decodes (bodyOf id title text) s ∧ Carries s ⟨id, title, text⟩ := by
  refine ⟨_, Collection.decodes_utf8 _, carries_bind (Collection.decodes_utf8 _) ?_ hid⟩
  have hv : (JVal.obj (.cons "id" (.str id) (.cons "title" (.str title) (.cons "text" (.str text) .nil)))).Valid := ⟨trivial, trivial, trivial, trivial⟩
  unfold shouldBindJSON
  rw [Collection.chars_utf8]
  have hws := ws_render hv []
  have hpv := pvalue_render _ hv [] (by intro c r h; simp at h)
  simp only [List.append_nil] at hws hpv
  simp only [hws]
  rw [hpv _ (by omega)]
  simp only [Option.bind_eq_bind, Option.bind_some]
  have hd : ¬ (JVal.obj (.cons "id" (.str id) (.cons "title" (.str title) (.cons "text" (.str text) .nil)))).depth > maxDepth := by
    simp [JVal.depth, JMems.depth, maxDepth]
  rw [if_neg hd]
  have h1 : fieldFor docFields "id" = some .id := by decide
  have h2 : fieldFor docFields "title" = some .title := by decide
  have h3 : fieldFor docFields "text" = some .text := by decide
  simp [decode, h1, h2, h3, Document.setField]

/-- ten requests of a client, and a question for which it wants all ten documents. -/
example : ∃ (bodies : List (List UInt8)) (ds : List String), ds.Nodup ∧ ds.length = 10 ∧ ∀ d ∈ ds, Wanted demoEnv bodies "red" d := by
  refine ⟨["0", "1", "2", "3", "4", "5", "6", "7", "8", "9"].map (fun i => bodyOf i "" "red"), ["0", "1", "2", "3", "4", "5", "6", "7", "8", "9"], by decide, rfl, ?_⟩
  intro d hd
  have hne : d ≠ "" := by rintro rfl; revert hd; decide
  obtain ⟨s, h1, h2⟩ := bodyOf_carries d "" "red" hne
  have hr : "red" ∈ termsOf demoEnv "red" := by decide
  exact ⟨_, List.mem_map.2 ⟨d, hd, rfl⟩, s, _, h1, h2, rfl, hne, "red", hr, Or.inr hr⟩

/-- a printer that meets the hypotheses. -/
example : ∃ pr : Printer XReal, pr.Ok ∧ (∀ y, pr.finite (.fin y) = true) ∧ pr.finite .nan = false :=
  ⟨⟨fun x => match x with | .fin _ => true | _ => false, fun _ => ['0']⟩,
    fun _ _ => ⟨[], ['0'], [], [], Or.inl rfl, Or.inl rfl, Or.inl rfl, Or.inl rfl, rfl⟩, fun _ => rfl, rfl⟩

end Http
end Goir
