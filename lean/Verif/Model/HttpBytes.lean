import Verif.Model.Bind
/-!
# The bytes of GET /nir: the query string and the body of the answer (/repo/main.go:162-213)

`c.Request.URL.Query()` is `url.ParseQuery` of net/url (Go 1.19) on the part of the request's URL after the question mark, `Values.Get` the first value for a
name; `c.JSON` of gin v1.9.1 is `json.Marshal` and a status code.  How a float64 is printed (strconv), which ones are finite and the text of the duration are
parameters.  Simplification: a query that is not UTF-8 is read with U+FFFD in place of the bytes that are not.
-/
namespace Goir
namespace Http

/-- `strings.Cut(s, sep)` for a separator of one byte: what is before and after the first one (everything and nothing if there is none). (net/url, encoding/json and gin, called at /repo/main.go:164-213) -/
def cut (sep : UInt8) : List UInt8 → List UInt8 × List UInt8
  | [] => ([], [])
  | c :: r => if c = sep then ([], r) else ((c :: (cut sep r).1), (cut sep r).2)

theorem cut_length (sep : UInt8) (s : List UInt8) : (cut sep s).2.length ≤ s.length := by
  induction s with
  | nil => simp [cut]
  | cons c r ih => unfold cut; split <;> simp only [List.length_cons] <;> omega

theorem cut_lt (sep : UInt8) (c : UInt8) (s : List UInt8) : (cut sep (c :: s)).2.length < (c :: s).length := by
  unfold cut
  split
  · simp
  · have := cut_length sep s; simp only [List.length_cons]; omega

/-- `unhex` of net/url. (net/url, encoding/json and gin, called at /repo/main.go:164-213) -/
def unhex (c : UInt8) : Option UInt8 :=
  if 48 ≤ c ∧ c ≤ 57 then some (c - 48)
  else if 97 ≤ c ∧ c ≤ 102 then some (c - 97 + 10)
  else if 65 ≤ c ∧ c ≤ 70 then some (c - 65 + 10)
  else none

/-- `url.QueryUnescape`; `none` is an error. (net/url, encoding/json and gin, called at /repo/main.go:164-213) -/
def unescape : List UInt8 → Option (List UInt8)
  | [] => some []
  | 37 :: r =>       -- '%'
    match r with
    | a :: b :: r => do
      let x ← unhex a
      let y ← unhex b
      let t ← unescape r
      return (x * 16 + y) :: t
    | _ => none
  | 43 :: r => do let t ← unescape r; return 32 :: t       -- '+'
  | c :: r => do let t ← unescape r; return c :: t

/-- one round of the loop of `url.parseQuery`: a pair, or `none` if it is skipped. (net/url, encoding/json and gin, called at /repo/main.go:164-213) -/
def pair (part : List UInt8) : Option (List UInt8 × List UInt8) :=
  if part.contains 59 then none       -- ';'
  else if part.isEmpty then none
  else do
    let (key, value) := cut 61 part       -- '='
    let key ← unescape key
    let value ← unescape value
    return (key, value)

/-- `url.ParseQuery` (errors are ignored by `URL.Query()`): the pairs in order. (net/url, encoding/json and gin, called at /repo/main.go:164-213) -/
def parseQuery (query : List UInt8) : List (List UInt8 × List UInt8) :=
  match query with
  | [] => []
  | c :: r =>
    match pair (cut 38 (c :: r)).1 with       -- '&'
    | some kv => kv :: parseQuery (cut 38 (c :: r)).2
    | none => parseQuery (cut 38 (c :: r)).2
termination_by query.length
decreasing_by all_goals exact cut_lt 38 c r

/-- `Values.Get(key)`: the first value, or nothing. (net/url, encoding/json and gin, called at /repo/main.go:164-213) -/
def valuesGet (vs : List (List UInt8 × List UInt8)) (key : List UInt8) : List UInt8 := ((vs.find? fun kv => kv.1 = key).map Prod.snd).getD []

/-- the bytes of `query`. (net/url, encoding/json and gin, called at /repo/main.go:164-213) -/
def queryKey : List UInt8 := [113, 117, 101, 114, 121]

/-- `paramPairs.Get("query")` (/repo/main.go:164-167), as text. -/
def queryText (rawQuery : List UInt8) : String := String.ofList (Collection.chars (valuesGet (parseQuery rawQuery) queryKey))

/-- how float64 values are written: which are finite and the text of those (json.Marshal fails on the others). (net/url, encoding/json and gin, called at /repo/main.go:164-213) -/
structure Printer (F : Type) where
  finite : F → Bool
  text   : F → List Char

/-- a `QueryResult` (/repo/main.go:36-40) of the handler: only the id of the document is filled in (/repo/main.go:196-203). -/
def resultJson {F : Type} (pr : Printer F) (r : String × F) : JVal :=
  .obj (.cons "similarity" (.num (pr.text r.2)) (.cons "document"
    (.obj (.cons "id" (.str r.1) (.cons "title" (.str "") (.cons "text" (.str "") .nil)))) .nil))

/-- the elements of an array. (net/url, encoding/json and gin, called at /repo/main.go:164-213) -/
def elemsOf : List JVal → JElems
  | [] => .nil
  | v :: vs => .cons v (elemsOf vs)

/-- `Result` (/repo/main.go:28-34) as JSON, fields in the order of the struct; `QueryResults` is nil if there was no hit (/repo/main.go:184-193). -/
def responseJson {F : Type} (pr : Printer F) (duration : String) (r : Response F) : JVal :=
  .obj (.cons "total" (.num (Nat.toDigits 10 r.total)) (.cons "duration" (.str duration) (.cons "algorithm" (.str r.algorithm)
    (.cons "semanticSearch" (.bool r.semanticSearch) (.cons "queryResults"
      (if r.queryResults.isEmpty then .null else .arr (elemsOf (r.queryResults.map (resultJson pr)))) .nil)))))

/-- `json.Marshal`: an error if a number is not finite. (net/url, encoding/json and gin, called at /repo/main.go:164-213) -/
def marshal {F : Type} (pr : Printer F) (duration : String) (r : Response F) : Option (List UInt8) :=
  if r.queryResults.all (fun x => pr.finite x.2) then some (Collection.utf8 (Json.render (responseJson pr duration r))) else none

/-- `c.JSON(http.StatusOK, body)` (/repo/main.go:191,212): status and body.  If Marshal fails, gin v1.9.1 notes the error in the context, where nobody looks,
and the answer is the status with an empty body. -/
def reply {F : Type} (pr : Printer F) (duration : String) (r : Response F) : Nat × List UInt8 := (200, (marshal pr duration r).getD [])

/-- a possible outcome of GET /nir?rawQuery (/repo/main.go:162-213): status and body, or `none` if the handler panics. -/
def GetsBytes {F : Type} [GoFloat F] (env : TextEnv) (pr : Printer F) (st : Reads) (cpus : Nat) (rawQuery : List UInt8) (out : Option (Nat × List UInt8)) : Prop :=
  ∃ r duration, Gets env st cpus (queryText rawQuery) r ∧ out = r.map (reply pr duration)

/-- `c.JSON` of a `gin.H` with one entry. (net/url, encoding/json and gin, called at /repo/main.go:164-213) -/
def ginH (name : String) (v : JVal) : List UInt8 := Collection.utf8 (Json.render (.obj (.cons name v .nil)))

/-- the handler of POST /nir, with the body of its answer (/repo/main.go:124-161). `err` is the text of the error of ShouldBindJSON. -/
def postBytes (env : TextEnv) (m : Memory) (err : String) (body : List UInt8) : Option (Memory × Nat × List UInt8) :=
  (post env m (shouldBindJSON body)).map fun r => (r.1, r.2,
    match shouldBindJSON body with
    | none => ginH "error" (.str err)
    | some document =>
      if isNotDocumentComplete document then ginH "Invalid document" (.num (Nat.toDigits 10 400)) else ginH "success" (.num (Nat.toDigits 10 201)))

end Http
end Goir
