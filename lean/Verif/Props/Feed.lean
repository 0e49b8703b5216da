import Verif.Spec.Feed
import Verif.Props.Collection
import Verif.Props.Text
/-!
# C123: from the feed to the file of the collection
-/
namespace Goir
namespace Collection
namespace Feed
open Spec

theorem data_append (body : List XNode) : ∀ s : String, ∃ r : List Char, TextIs body r ∧
    (body.foldl dataStep s).toList = s.toList ++ r := by
  induction body with
  | nil => exact fun s => ⟨[], .nil, by simp⟩
  | cons n body ih =>
    intro s
    cases n with
    | text t =>
      obtain ⟨r, h1, h2⟩ := ih (s ++ t)
      refine ⟨_, .text t h1, ?_⟩
      rw [List.foldl_cons, dataStep, h2, String.toList_append, List.append_assoc]
    | elem k b =>
      obtain ⟨r, h1, h2⟩ := ih s
      exact ⟨r, .elem k b h1, by rw [List.foldl_cons, dataStep, h2]⟩

theorem textIs_data (body : List XNode) : TextIs body (data body).toList := by
  obtain ⟨r, h1, h2⟩ := data_append body ""
  unfold data
  rw [h2]; simpa using h1

theorem textIs_unique {body : List XNode} {s s' : List Char} (h : TextIs body s) (h' : TextIs body s') : s = s' := by
  induction h generalizing s' with
  | nil => cases h'; rfl
  | text t _ ih => cases h' with | text _ h' => rw [ih h']
  | elem k b _ ih => cases h' with | elem _ _ h' => exact ih h'

/-- reading the elements with one name into a string: the last one stays. -/
def readStep (name : String) (a : String) : XNode → String
  | .text _ => a
  | .elem k b => if k = name then data b else a

/-- … all of them. -/
def reads (name : String) (init : String) (body : List XNode) : String := body.foldl (readStep name) init

theorem reads_snoc (name init : String) (body : List XNode) (n : XNode) :
    reads name init (body ++ [n]) = readStep name (reads name init body) n := by
  unfold reads; rw [List.foldl_append]; rfl

theorem reads_append (name init : String) (b c : List XNode) : reads name init (b ++ c) = reads name (reads name init b) c := List.foldl_append ..

theorem says_unique {body : List XNode} {name s s' : String} (h : Says body name s) (h' : Says body name s') : s = s' := by
  have child : ∀ {b}, LastChild body name b → Child body name b := by
    rintro b ⟨x, y, e, -⟩; unfold Child; rw [e]; simp
  rcases h with ⟨b, h1, h2⟩ | ⟨h1, rfl⟩ <;> rcases h' with ⟨b', h1', h2'⟩ | ⟨h1', rfl⟩
  · have : b = b' := by
      obtain ⟨x, y, e, hy⟩ := h1
      obtain ⟨x', y', e', hy'⟩ := h1'
      rw [e] at e'
      rcases List.append_eq_append_iff.1 e' with ⟨w, h3, h4⟩ | ⟨w, h3, h4⟩
      · cases w with
        | nil => simp at h4; exact h4.1
        | cons a w =>
          simp at h4
          exact absurd (h4.2 ▸ (by simp)) (hy b')
      · cases w with
        | nil => simp at h4; exact h4.1.symm
        | cons a w =>
          simp at h4
          exact absurd (h4.2 ▸ (by simp)) (hy' b)
    subst this
    exact String.toList_inj.1 (textIs_unique h2 h2')
  · exact absurd (child h1) (h1' b)
  · exact absurd (child h1') (h1 b')
  · rfl

theorem says_reads (name : String) (body : List XNode) : Says body name (reads name "" body) := by
  induction body using List.reverseRecOn with
  | nil => exact .inr ⟨(fun b h => by cases h), rfl⟩
  | append_singleton body n ih =>
    rw [reads_snoc]
    have keep : (∀ b, n ≠ .elem name b) → Says (body ++ [n]) name (reads name "" body) := by
      intro hn
      rcases ih with ⟨b, ⟨x, y, e, hy⟩, h2⟩ | ⟨h1, h2⟩
      · refine .inl ⟨b, ⟨x, y ++ [n], by rw [e]; simp, fun b' h => ?_⟩, h2⟩
        rcases List.mem_append.1 h with h | h
        · exact hy b' h
        · exact hn b' (List.mem_singleton.1 h).symm
      · refine .inr ⟨fun b h => ?_, h2⟩
        rcases List.mem_append.1 h with h | h
        · exact h1 b h
        · exact hn b (List.mem_singleton.1 h).symm
    cases n with
    | text t => exact keep (fun b => by simp)
    | elem k b =>
      rw [readStep]
      by_cases hk : k = name
      · subst hk
        simp only [if_true]
        exact .inl ⟨b, ⟨body, [], rfl, fun b' h => by cases h⟩, textIs_data b⟩
      · simp only [if_neg hk]
        exact keep (fun b' h => hk (by cases h; rfl))

/-- the contents of the elements with this name. -/
def children (name : String) : List XNode → List (List XNode)
  | [] => []
  | .text _ :: body => children name body
  | .elem k b :: body => if k = name then b :: children name body else children name body

theorem children_spec (name : String) : ∀ body, Children name body (children name body)
  | [] => .nil
  | .text t :: body => .text t (children_spec name body)
  | .elem k b :: body => by
    rw [children]
    split
    · next h => subst h; exact .here b (children_spec k body)
    · next h => exact .other k b h (children_spec name body)

theorem children_unique {name : String} {body : List XNode} {bs : List (List XNode)} (h : Children name body bs) : bs = children name body := by
  induction h with
  | nil => rfl
  | here b _ ih => rw [children, if_pos rfl, ← ih]
  | other k b hk _ ih => rw [children, if_neg hk, ← ih]
  | text t _ ih => rw [children, ← ih]

theorem author_eq (name : String) (body : List XNode) : author name body = reads "name" name body := by
  have : authorStep = readStep "name" := by funext a n; cases n <;> rfl
  unfold author reads
  rw [this]

theorem entry_eq (body : List XNode) : ∀ e : Entry, body.foldl entryStep e =
    { title := reads "title" e.title body, summary := reads "summary" e.summary body, author := reads "name" e.author (children "author" body).flatten } := by
  induction body with
  | nil => exact fun _ => rfl
  | cons n body ih =>
    intro e
    rw [List.foldl_cons, ih]
    cases n with
    | text t => rfl
    | elem k b =>
      have cons : ∀ (name init : String), reads name init (.elem k b :: body) = reads name (if k = name then data b else init) body := fun _ _ => rfl
      simp only [cons, entryStep, children]
      by_cases h1 : k = "title"
      · subst h1; rfl
      by_cases h2 : k = "summary"
      · subst h2; rfl
      by_cases h3 : k = "author"
      · subst h3
        simp only [if_true, List.flatten_cons, reads_append, author_eq]
        rfl
      · simp only [if_neg h1, if_neg h2, if_neg h3]

/-- what is read of an entry is what it says. -/
theorem entry_makes (body : List XNode) (id : String) : Makes body { id := id, title := (entry body).title, summary := (entry body).summary, author := (entry body).author } := by
  unfold entry
  rw [entry_eq]
  exact ⟨says_reads _ _, says_reads _ _, _, children_spec _ _, says_reads _ _⟩

theorem makes_unique {body : List XNode} {d d' : Doc} (hid : d.id = d'.id) (h : Makes body d) (h' : Makes body d') : d = d' := by
  obtain ⟨h1, h2, as, h3, h4⟩ := h
  obtain ⟨h1', h2', as', h3', h4'⟩ := h'
  rw [children_unique h3] at h4
  rw [children_unique h3'] at h4'
  have a := says_unique h1 h1'
  have b := says_unique h2 h2'
  have c := says_unique h4 h4'
  cases d; cases d'
  simp_all

theorem entries_eq (body : List XNode) : ∀ es : List Entry,
    body.foldl feedStep es = es ++ (children "entry" body).map entry := by
  induction body with
  | nil => exact fun es => by simp [children]
  | cons n body ih =>
    intro es
    rw [List.foldl_cons, ih]
    cases n with
    | text t => rfl
    | elem k b =>
      rw [children, feedStep]
      by_cases h : k = "entry"
      · simp only [if_pos h]; simp
      · simp only [if_neg h]

theorem documents_spec (bs : List (List XNode)) : ∀ uuids : List String, uuids.length = bs.length →
    (documents (bs.map entry) uuids).map Doc.id = uuids ∧ List.Forall₂ Makes bs (documents (bs.map entry) uuids) := by
  induction bs with
  | nil => intro uuids h; cases uuids with | nil => exact ⟨rfl, .nil⟩ | cons => cases h
  | cons b bs ih =>
    intro uuids h
    cases uuids with
    | nil => cases h
    | cons u uuids =>
      obtain ⟨h1, h2⟩ := ih uuids (by simpa using h)
      exact ⟨by simp only [List.map_cons, documents, List.headD_cons, List.tail_cons, h1], .cons (entry_makes b u) h2⟩

/-- **C123, the file.** CriarArquivo replaces the file by one from which GetDocuments reads a document for each entry of the feed, in order, with a new id, and what the entry says: the text of its last
title, of its last summary, and the name of its last author that has one. -/
theorem c123_file (body : List XNode) (ents : List (List XNode)) (h : Children "entry" body ents) (uuids : List String) (hu : uuids.length = ents.length) (old : List UInt8) :
    ∃ file docs, criarArquivo uuids old (.document (.elem "feed" body)) = some file ∧ getDocuments file = some docs ∧ docs.map Doc.id = uuids ∧ List.Forall₂ Makes ents docs := by
  rw [children_unique h] at hu ⊢
  obtain ⟨h1, h2⟩ := documents_spec _ uuids hu
  refine ⟨_, _, ?_, (c105_round_trip _).1, h1, h2⟩
  simp only [criarArquivo, unmarshal, if_true]
  unfold entries
  rw [entries_eq]; rfl

/-- **C123, other answers**: a body that is no XML document, or whose root is no feed, leaves the file as it was; without an answer CriarArquivo panics. -/
theorem c123_other (uuids : List String) (old : List UInt8) :
    criarArquivo uuids old .failed = none ∧ criarArquivo uuids old .malformed = some old ∧
    ∀ k body, k ≠ "feed" → criarArquivo uuids old (.document (.elem k body)) = some old := by
  refine ⟨rfl, rfl, fun k body hk => ?_⟩
  simp only [criarArquivo, unmarshal, if_neg hk]

/-- the text of an entry in the field that a query names. -/
def EntryText (ent : List XNode) (id name text : String) : Prop :=
  (name = "Id" ∧ text = id) ∨ (name = "Title" ∧ Says ent "title" text) ∨ (name = "Summary" ∧ Says ent "summary" text) ∨ (name = "Author" ∧ LastAuthor ent text)

theorem forall₂_get {α β : Type} {R : α → β → Prop} {l : List α} {l' : List β} (h : List.Forall₂ R l l') (i : Nat) :
    (∀ b, l'[i]? = some b → ∃ a, l[i]? = some a ∧ R a b) ∧ (∀ a, l[i]? = some a → ∃ b, l'[i]? = some b ∧ R a b) := by
  induction h generalizing i with
  | nil => simp
  | cons h _ ih =>
    cases i with
    | zero => simpa using h
    | succ i => simpa using ih i

/-- **C123, from the feed to a search**: after CriarArquivo and after mainxcrt has indexed the file, a search returns exactly the ids of the entries that have a term of a query in the field that the query
names. -/
theorem c123_searchable {F : Type} [GoFloat F] (fmtNum : List Char → String) (numOk : List Char → Bool) (env : TextEnv) (body : List XNode) (ents : List (List XNode)) (h : Children "entry" body ents) (uuids : List String) (hu : uuids.length = ents.length)
    (hne : "" ∉ uuids) (old : List UInt8) (fresh : List String) (hf : fresh.length = ents.length) :
    ∃ file objs, criarArquivo uuids old (.document (.elem "feed" body)) = some file ∧ objects numOk fmtNum file = some objs ∧
      (∃ out, IndexesAll env Memory.new (fresh.zip objs) out) ∧
      ∀ out, IndexesAll env Memory.new (fresh.zip objs) out → ∃ m, out = some m ∧
        ∀ (query : List (Query F)) (cpus : Nat) (l : Scores F), SState.Returns m.reads query cpus l → ∀ id, id ∈ l.map Prod.fst ↔
          ∃ (i : Nat) (ent : List XNode), ents[i]? = some ent ∧ uuids[i]? = some id ∧
            ∃ q ∈ query, ∃ t ∈ q.terms, ∃ text, EntryText ent id q.fieldName text ∧ t ∈ termsOf env text := by
  have e0 := children_unique h
  obtain ⟨h1, h2⟩ := documents_spec (children "entry" body) uuids (e0 ▸ hu)
  have hlen : (documents ((children "entry" body).map entry) uuids).length = ents.length := by
    rw [e0, h2.length_eq]
  obtain ⟨objs, h3, h4, h5⟩ := c108_collection_searchable (F := F) fmtNum numOk env (documents ((children "entry" body).map entry) uuids) fresh (by rw [hf, hlen])
  refine ⟨_, objs, ?_, h3, h4, fun out ho => ?_⟩
  · simp only [criarArquivo, unmarshal, if_true]
    unfold entries
    rw [entries_eq]; rfl
  obtain ⟨m, h6, h7⟩ := h5 out ho
  refine ⟨m, h6, fun query cpus l hl id => ?_⟩
  rw [h7 query cpus l hl id]
  have hid : ∀ (i : Nat) (d : Doc), (documents ((children "entry" body).map entry) uuids)[i]? = some d → uuids[i]? = some d.id := by
    intro i d hd
    rw [← h1, List.getElem?_map, hd]; rfl
  have hno : ∀ (i : Nat) (d : Doc), (documents ((children "entry" body).map entry) uuids)[i]? = some d → d.id ≠ "" := fun i d hd e => hne (e ▸ List.mem_of_getElem? (hid i d hd))
  constructor
  · rintro ⟨i, d, uuid, hd, -, rfl, q, hq, t, ht, text, hx, hm⟩
    obtain ⟨ent, he, hmk⟩ := (forall₂_get h2 i).1 d hd
    rw [if_neg (hno i d hd)]
    refine ⟨i, ent, by rw [e0]; exact he, hid i d hd, q, hq, t, ht, text, ?_, hm⟩
    rcases hx with ⟨a, rfl⟩ | ⟨a, rfl⟩ | ⟨a, rfl⟩ | ⟨a, rfl⟩
    · exact .inl ⟨a, rfl⟩
    · exact .inr (.inl ⟨a, hmk.1⟩)
    · exact .inr (.inr (.inl ⟨a, hmk.2.1⟩))
    · exact .inr (.inr (.inr ⟨a, hmk.2.2⟩))
  · rintro ⟨i, ent, he, hi, q, hq, t, ht, text, hx, hm⟩
    obtain ⟨d, hd, hmk⟩ := (forall₂_get h2 i).2 ent (e0 ▸ he)
    have e1 : id = d.id := by have := hid i d hd; rw [hi] at this; exact Option.some.inj this
    have hlt : i < fresh.length := by
      have := (List.getElem?_eq_some_iff.1 he).1
      omega
    refine ⟨i, d, fresh[i], hd, List.getElem?_eq_getElem hlt, by rw [if_neg (hno i d hd), e1], q, hq, t, ht, text, ?_, hm⟩
    rcases hx with ⟨a, rfl⟩ | ⟨a, hs⟩ | ⟨a, hs⟩ | ⟨a, as, hs1, hs2⟩
    · exact .inl ⟨a, e1⟩
    · exact .inr (.inl ⟨a, says_unique hs hmk.1⟩)
    · exact .inr (.inr (.inl ⟨a, says_unique hs hmk.2.1⟩))
    · obtain ⟨as', h8, h9⟩ := hmk.2.2
      rw [children_unique hs1] at hs2
      rw [children_unique h8] at h9
      exact .inr (.inr (.inr ⟨a, says_unique hs2 h9⟩))

/-- an entry with two authors. -/
def twoAuthors : List XNode :=
  [.elem "title" [.text "deep"], .elem "author" [.elem "name" [.text "ada"]], .text " ", .elem "author" [.elem "name" [.text "bob"]]]

/-- **C123 refuted for authors**: of several authors of an entry only the last is in the file; a search for another one does not return the entry. -/
theorem c123_authors_refuted {F : Type} [GoFloat F] (fmtNum : List Char → String) (numOk : List Char → Bool) (uuid fresh : String) (hne : uuid ≠ "") (old : List UInt8) :
    Children "author" twoAuthors [[.elem "name" [.text "ada"]], [.elem "name" [.text "bob"]]] ∧
    ∃ file objs, criarArquivo [uuid] old (.document (.elem "feed" [.elem "entry" twoAuthors])) = some file ∧ objects numOk fmtNum file = some objs ∧
      ∀ out, IndexesAll demoEnv Memory.new ([fresh].zip objs) out → ∃ m, out = some m ∧
        (∀ cpus l, SState.Returns (F := F) m.reads [⟨"Author", GoFloat.lit 1, ["ada"]⟩] cpus l → l = []) ∧
        (∀ cpus l, SState.Returns (F := F) m.reads [⟨"Author", GoFloat.lit 1, ["bob"]⟩] cpus l → ∀ id, id ∈ l.map Prod.fst ↔ id = uuid) := by
  have hc : Children "author" twoAuthors [[.elem "name" [.text "ada"]], [.elem "name" [.text "bob"]]] :=
    .other _ _ (by decide) (.here _ (.text _ (.here _ .nil)))
  refine ⟨hc, ?_⟩
  have he : Children "entry" [.elem "entry" twoAuthors] [twoAuthors] := .here _ .nil
  obtain ⟨file, objs, h1, h2, -, h3⟩ := c123_searchable (F := F) fmtNum numOk demoEnv _ _ he [uuid] rfl (by simpa using hne.symm) old [fresh] rfl
  refine ⟨file, objs, h1, h2, fun out ho => ?_⟩
  obtain ⟨m, h4, h5⟩ := h3 out ho
  have hbob : LastAuthor twoAuthors "bob" := ⟨_, hc, .inl ⟨[.text "bob"], ⟨[.elem "name" [.text "ada"]], [], rfl, fun b h => by cases h⟩, by
    have := TextIs.text "bob" .nil
    simpa using this⟩⟩
  have only : ∀ text, LastAuthor twoAuthors text → text = "bob" := by
    rintro text ⟨as, h8, h9⟩
    obtain ⟨as', h8', h9'⟩ := hbob
    rw [children_unique h8] at h9
    rw [children_unique h8'] at h9'
    exact says_unique h9 h9'
  refine ⟨m, h4, fun cpus l hl => ?_, fun cpus l hl => ?_⟩
  · cases l with
    | nil => rfl
    | cons x l =>
      exfalso
      obtain ⟨i, ent, h6, -, q, hq, t, ht, text, hx, hm⟩ := (h5 _ cpus _ hl x.1).1 (by simp)
      simp only [List.mem_singleton] at hq
      subst hq
      simp only [List.mem_singleton] at ht
      subst ht
      cases i with
      | succ i => simp at h6
      | zero =>
        simp only [List.getElem?_cons_zero, Option.some.injEq] at h6
        subst h6
        rcases hx with ⟨a, -⟩ | ⟨a, -⟩ | ⟨a, -⟩ | ⟨-, hs⟩
        · simp at a
        · simp at a
        · simp at a
        · rw [only text hs] at hm
          revert hm; decide
  · intro id
    rw [h5 _ cpus l hl id]
    constructor
    · rintro ⟨i, ent, -, h7, -⟩
      cases i with
      | zero => simpa using h7.symm
      | succ i => simp at h7
    · rintro rfl
      exact ⟨0, _, rfl, rfl, _, List.mem_singleton.2 rfl, "bob", List.mem_singleton.2 rfl, "bob", .inr (.inr (.inr ⟨rfl, hbob⟩)), by decide⟩

end Feed
end Collection
end Goir
