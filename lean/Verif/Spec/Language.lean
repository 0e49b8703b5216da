/-!
# The stop words of the supported languages, as words separated by blanks

Copied from /repo/language/StopEnglish.go and /repo/language/StopPortuguese.go by script, independently of the tables of the model.
-/
namespace Goir.Spec

/-- split at blanks. -/
def wordsOf : List Char → List Char → List (List Char)
  | acc, [] => [acc.reverse]
  | acc, c :: cs => if c = ' ' then acc.reverse :: wordsOf [] cs else wordsOf (c :: acc) cs

/-- the words of a string. -/
def words (s : String) : List String := (wordsOf [] s.toList).map String.ofList

/-- English. -/
def english : String :=
    "a an and are as at be but by for if in into is it no not of on or such that the their then there these they this to " ++
    "was will with"

/-- Portuguese. -/
def portuguese : String :=
    "a ainda alem ambas ambos antes ao aonde aos apos aquele aqueles as assim com como contra contudo cuja cujas cujo cujos " ++
    "da das de dela dele deles demais depois desde desta deste dispoe dispoem diversa diversas diversos do dos durante e " ++
    "ela elas ele eles em entao entre essa essas esse esses esta estas este estes ha isso isto logo mais mas mediante menos " ++
    "mesma mesmas mesmo mesmos na nas nao nem nesse neste nos o os ou outra outras outro outros pelas pelo pelos perante " ++
    "pois por porque portanto proprio propios quais qual qualquer quando quanto que quem quer se seja sem sendo seu seus " ++
    "sob sobre sua suas tal tambem teu teus toda todas todo todos tua tuas tudo um uma umas uns"

end Goir.Spec
