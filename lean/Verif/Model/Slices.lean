import Verif.Model.Text
/-!
# Slices with identity: which filters write to the caller's array

A heap of string arrays; a slice is the address of an array (all slices in this code cover whole arrays, except those grown
by `append` in `StopWords`, modelled as one fresh array holding the final elements).
-/
namespace Goir.Slices
open Text

/-- the arrays allocated so far. (slices in /repo/filter/Lowercase.go:1-17, /repo/filter/StopWords.go:1-25, /repo/filter/ASCII.go:1-26) -/
abbrev Heap := List (List String)

/-- read a slice. (slices in /repo/filter/Lowercase.go:1-17, /repo/filter/StopWords.go:1-25, /repo/filter/ASCII.go:1-26) -/
def read (h : Heap) (r : Nat) : List String := (h[r]?).getD []

/-- `make` + fill: a fresh array. (slices in /repo/filter/Lowercase.go:1-17, /repo/filter/StopWords.go:1-25, /repo/filter/ASCII.go:1-26) -/
def alloc (h : Heap) (xs : List String) : Heap × Nat := (h ++ [xs], h.length)

/-- `Tokenize` (/repo/tokenizer/Standard.go:15-18): a fresh slice. -/
def tokenize (env : TextEnv) (h : Heap) (text : String) : Heap × Nat := alloc h (Text.tokenize env text)

/-- one iteration `text[i] = strings.ToLower(t)` of `Lowercase.Process` (/repo/filter/Lowercase.go:13-15). -/
def lowerAt (env : TextEnv) (r : Nat) (h : Heap) (i : Nat) : Heap :=
  match (read h r)[i]? with
  | some t => h.set r ((read h r).set i (toLower env t))
  | none   => h

/-- `Lowercase.Process` (/repo/filter/Lowercase.go:12-17): writes into the argument's array and returns the same slice. -/
def lowercase (env : TextEnv) (h : Heap) (r : Nat) : Heap × Nat :=
  ((List.range (read h r).length).foldl (lowerAt env r) h, r)

/-- `StopWords.Process` (/repo/filter/StopWords.go:13-25). -/
def stopWords (words : GoMap String Bool) (h : Heap) (r : Nat) : Heap × Nat := alloc h (Text.stopWords words (read h r))

/-- `Stemmer.Process` (/repo/filter/Stemmer.go:22-41). -/
def stemmer (env : TextEnv) (algorithm : Int) (h : Heap) (r : Nat) : Option (Heap × Nat) :=
  (Text.stemmer env algorithm (read h r)).map (alloc h)

/-- `ASCII.Process` (/repo/filter/ASCII.go:17-26). -/
def ascii (env : TextEnv) (h : Heap) (r : Nat) : Heap × Nat := alloc h (Text.ascii env (read h r))

/-- `main.Preprocessing` (/repo/main.go:222-228) on the heap. -/
def preprocessing (env : TextEnv) (h : Heap) (text : String) : Option (Heap × Nat) := do
  let (h, r) := tokenize env h text
  let (h, r) := lowercase env h r
  let words ← getWords "EN"
  let (h, r) := stopWords words h r
  let (h, r) ← stemmer env snowball h r
  return ascii env h r

end Goir.Slices
