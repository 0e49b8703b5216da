import Verif.Model.Text
import Verif.Model.Machine
/-!
# The goroutines of `Stemmer.Process` (/repo/filter/Stemmer.go:22-41)
-/
namespace Goir.StemmerMachine

/-- state of one call: the loop index of the main goroutine, the launched goroutines that have not yet written (with their
arguments `i, word`), how many have written but not yet called `wg.Done`, the result slice, the `WaitGroup` counter, and
whether `wg.Wait` has returned. (/repo/filter/Stemmer.go:22-41) -/
structure State where
  next     : Nat
  pending  : List (Nat × String)
  written  : Nat
  temp     : List String
  wg       : Nat
  returned : Bool

/-- the state after `temp := make(...)`, `wg.Add(textSize)` (lines 28-32); `none` is the panic of line 25. (/repo/filter/Stemmer.go:22-41) -/
def init (algorithm : Int) (text : List String) : Option State :=
  if algorithm ≠ Text.snowball then none
  else some ⟨0, [], 0, List.replicate text.length "", text.length, false⟩

/-- one step of one goroutine. (/repo/filter/Stemmer.go:22-41) -/
inductive step (stem : String → String) (text : List String) : State → State → Prop where
  /-- `for i, word := range text { go func(...) }(i, word)` (lines 33-37) -/
  | spawn (s : State) (h : s.next < text.length) :
      step stem text s { s with next := s.next + 1, pending := s.pending ++ [(s.next, text[s.next])] }
  /-- `temp[i] = porter2.Stem(word)` (line 36), by any launched goroutine -/
  | write (s : State) (l r : List (Nat × String)) (i : Nat) (word : String) (h : s.pending = l ++ (i, word) :: r) :
      step stem text s { s with pending := l ++ r, written := s.written + 1, temp := s.temp.set i (stem word) }
  /-- `wg.Done()` (line 35) -/
  | done (s : State) (h : 0 < s.written) :
      step stem text s { s with written := s.written - 1, wg := s.wg - 1 }
  /-- `wg.Wait()` returns, `return temp` (lines 39-40) -/
  | wait (s : State) (h : s.next = text.length) (h' : s.wg = 0) (h'' : s.returned = false) :
      step stem text s { s with returned := true }

end Goir.StemmerMachine
