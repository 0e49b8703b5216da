import Verif.Model.Metric
/-!
# Packages `tokenizer`, `filter`, `language` and `main.Preprocessing`

Strings are sequences of runes (`String` = list of `Char`); ill-formed UTF-8 is not modelled.
External functions are parameters, collected in `TextEnv`:
`unicode.IsLetter`, `unicode.IsNumber`, `unicode.ToLower` (all runewise), `porter2.Stem`, and the NFD/remove-Mn/NFC
transform.
-/
namespace Goir

/-- External functions used by the text pipeline. (unicode, porter2 and x/text, called in /repo/tokenizer/Standard.go:1-22, /repo/filter/ASCII.go:1-26, /repo/filter/Stemmer.go:1-41) -/
structure TextEnv where
  /-- `unicode.IsLetter` -/
  isLetter : Char → Bool
  /-- `unicode.IsNumber` -/
  isNumber : Char → Bool
  /-- `unicode.ToLower`; `strings.ToLower` applies it to every rune -/
  lowerRune : Char → Char
  /-- `porter2.Stem` -/
  stem : String → String
  /-- `transform.String(Chain(NFD, Remove(Mn), NFC), ·)`; `transform.String` resets the transformer first, so each word is
  transformed independently of the previous ones -/
  fold : String → String

namespace Text

/-- `isNotAlnum` (/repo/tokenizer/Standard.go:20-22). -/
def isNotAlnum (env : TextEnv) (r : Char) : Bool := !env.isLetter r && !env.isNumber r && r != '\''

/-- The loop state of Go's `strings.FieldsFunc`: the position of the current rune, the start of the current field
(`none` for Go's negative `start`), the spans found so far. (/repo/tokenizer/Standard.go:1-22) -/
structure ScanState where
  pos   : Nat
  start : Option Nat
  spans : List (Nat × Nat)

/-- One iteration of the loop of Go's `strings.FieldsFunc`. (/repo/tokenizer/Standard.go:1-22) -/
def scanStep (f : Char → Bool) (st : ScanState) (r : Char) : ScanState :=
  if f r then
    match st.start with
    | some a => ⟨st.pos + 1, none, st.spans ++ [(a, st.pos)]⟩
    | none   => ⟨st.pos + 1, none, st.spans⟩
  else
    match st.start with
    | some a => ⟨st.pos + 1, some a, st.spans⟩
    | none   => ⟨st.pos + 1, some st.pos, st.spans⟩

/-- After the loop: the last field may end at the end of the string. (/repo/tokenizer/Standard.go:1-22) -/
def scanFinish (st : ScanState) : List (Nat × Nat) :=
  match st.start with
  | some a => st.spans ++ [(a, st.pos)]
  | none   => st.spans

/-- Go's `strings.FieldsFunc` (standard library, called at /repo/tokenizer/Standard.go:16). Positions count runes, not
bytes. -/
def fieldsFunc (f : Char → Bool) (s : List Char) : List (List Char) :=
  (scanFinish (s.foldl (scanStep f) ⟨0, none, []⟩)).map fun (a, b) => (s.drop a).take (b - a)

/-- `Standard.Tokenize` (/repo/tokenizer/Standard.go:15-18). -/
def tokenize (env : TextEnv) (text : String) : List String :=
  (fieldsFunc (isNotAlnum env) text.toList).map String.ofList

/-- `strings.ToLower` (runewise). (strings, called in /repo/filter/Lowercase.go:1-17) -/
def toLower (env : TextEnv) (s : String) : String := String.ofList (s.toList.map env.lowerRune)

/-- `Lowercase.Process` as a value function (/repo/filter/Lowercase.go:12-17); the in-place write is modelled in
`Verif.Model.Slices`. -/
def lowercase (env : TextEnv) (text : List String) : List String := text.map (toLower env)

/-- `StopWords.Process` (/repo/filter/StopWords.go:13-25). -/
def stopWords (words : GoMap String Bool) (text : List String) : List String :=
  text.foldl (fun temp element => if words.getD element false then temp else temp ++ [element]) []

/-- `stemmer.Snowball` (/repo/filter/stemmer/Algorithm.go:6). -/
def snowball : Int := 1

/-- `Stemmer.Process` as a value function (/repo/filter/Stemmer.go:22-41): `none` is the panic. The goroutines are modelled
in `Verif.Model.StemmerMachine`, which is proved to compute this. -/
def stemmer (env : TextEnv) (algorithm : Int) (text : List String) : Option (List String) :=
  if algorithm ≠ snowball then none else some (text.map env.stem)

/-- `ASCII.Process` (/repo/filter/ASCII.go:17-26). -/
def ascii (env : TextEnv) (text : List String) : List String := text.map env.fold

/-- `language.StopWordsEnglish` (/repo/language/StopEnglish.go:3-37), verbatim. -/
def stopWordsEnglish : GoMap String Bool :=
  [("a", true), ("an", true), ("and", true), ("are", true), ("as", true), ("at", true), ("be", true),
   ("but", true), ("by", true), ("for", true), ("if", true), ("in", true), ("into", true), ("is", true),
   ("it", true), ("no", true), ("not", true), ("of", true), ("on", true), ("or", true), ("such", true),
   ("that", true), ("the", true), ("their", true), ("then", true), ("there", true), ("these", true),
   ("they", true), ("this", true), ("to", true), ("was", true), ("will", true), ("with", true)]

/-- `language.StopWordsPortuguese` (/repo/language/StopPortuguese.go:3-130), verbatim. -/
def stopWordsPortuguese : GoMap String Bool :=
  [("a", true), ("ainda", true), ("alem", true), ("ambas", true), ("ambos", true), ("antes", true),
   ("ao", true), ("aonde", true), ("aos", true), ("apos", true), ("aquele", true), ("aqueles", true),
   ("as", true), ("assim", true), ("com", true), ("como", true), ("contra", true), ("contudo", true),
   ("cuja", true), ("cujas", true), ("cujo", true), ("cujos", true), ("da", true), ("das", true), ("de", true),
   ("dela", true), ("dele", true), ("deles", true), ("demais", true), ("depois", true), ("desde", true),
   ("desta", true), ("deste", true), ("dispoe", true), ("dispoem", true), ("diversa", true), ("diversas", true),
   ("diversos", true), ("do", true), ("dos", true), ("durante", true), ("e", true), ("ela", true),
   ("elas", true), ("ele", true), ("eles", true), ("em", true), ("entao", true), ("entre", true),
   ("essa", true), ("essas", true), ("esse", true), ("esses", true), ("esta", true), ("estas", true),
   ("este", true), ("estes", true), ("ha", true), ("isso", true), ("isto", true), ("logo", true),
   ("mais", true), ("mas", true), ("mediante", true), ("menos", true), ("mesma", true), ("mesmas", true),
   ("mesmo", true), ("mesmos", true), ("na", true), ("nas", true), ("nao", true), ("nem", true),
   ("nesse", true), ("neste", true), ("nos", true), ("o", true), ("os", true), ("ou", true), ("outra", true),
   ("outras", true), ("outro", true), ("outros", true), ("pelas", true), ("pelo", true), ("pelos", true),
   ("perante", true), ("pois", true), ("por", true), ("porque", true), ("portanto", true), ("proprio", true),
   ("propios", true), ("quais", true), ("qual", true), ("qualquer", true), ("quando", true), ("quanto", true),
   ("que", true), ("quem", true), ("quer", true), ("se", true), ("seja", true), ("sem", true), ("sendo", true),
   ("seu", true), ("seus", true), ("sob", true), ("sobre", true), ("sua", true), ("suas", true), ("tal", true),
   ("tambem", true), ("teu", true), ("teus", true), ("toda", true), ("todas", true), ("todo", true),
   ("todos", true), ("tua", true), ("tuas", true), ("tudo", true), ("um", true), ("uma", true), ("umas", true),
   ("uns", true)]

/-- `language.GetWords` (/repo/language/Language.go:10-22); `none` is the panic. -/
def getWords (language : String) : Option (GoMap String Bool) :=
  if language = "EN" then some stopWordsEnglish
  else if language = "PT" then some stopWordsPortuguese
  else none

/-- `main.Preprocessing` (/repo/main.go:222-228). -/
def preprocessing (env : TextEnv) (text : String) : Option (List String) := do
  let r := tokenize env text
  let r := lowercase env r
  let words ← getWords "EN"
  let r := stopWords words r
  let r ← stemmer env snowball r
  return ascii env r

/-- how `POST /nir` builds a field from a text (/repo/main.go:133-156). -/
def makeField (name : String) (p : List String) : Field :=
  { name := name, length := p.length, tf := termFrequency p }

end Text
end Goir
