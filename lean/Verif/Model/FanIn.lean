import Verif.Model.Machine
/-!
# Goroutines that send the elements of their collections on one channel

The shape used twice by `InvertedIndex.Search` (/repo/index/InvertedIndex.go:50-86 and 88-112): for each item of work a goroutine
that acquires a semaphore, sends one message per element of a collection on a channel, releases the semaphore and calls Done; a
goroutine that waits for all of them and closes the channel; and the main goroutine, which receives until the channel is closed
and empty.

Simplifications: the goroutines exist from the start (in Go they are created one by one; one that is not scheduled yet behaves
the same); releasing the semaphore and `Done` are one step.
-/
namespace Goir

/-- a sending goroutine. (/repo/index/InvertedIndex.go:50-112) -/
inductive Sender (α : Type) where
  | waiting (src : List α)    -- before acquiring the semaphore; it will range over `src`
  | sending (rem : List α)    -- in its loop, `rem` still to be sent
  | done
deriving DecidableEq, Repr

/-- the goroutines, the channel and the semaphore. (/repo/index/InvertedIndex.go:50-112) -/
structure FanIn (α : Type) where
  senders : List (Sender α)
  cap     : Nat                 -- capacity of the channel
  sem     : Nat                 -- capacity of the semaphore
  chan    : List α := []        -- in the channel, oldest first
  closed  : Bool := false
  out     : List α := []        -- received by the main goroutine, in order
deriving DecidableEq, Repr

namespace FanIn
variable {α : Type}

/-- is this goroutine holding the semaphore? (/repo/index/InvertedIndex.go:50-112). -/
def holds : Sender α → Bool
  | .sending _ => true
  | _ => false

/-- one step of one goroutine. A collection is a Go map: it is ranged over in any order. (/repo/index/InvertedIndex.go:50-112) -/
inductive Step : FanIn α → FanIn α → Prop where
  /-- `semaphoreCh <- struct{}{}` (/repo/index/InvertedIndex.go:56 and 95) and the start of the range loop -/
  | acquire (s : FanIn α) (i : Nat) (src items : List α) (h : s.senders[i]? = some (.waiting src)) (hs : s.senders.countP holds < s.sem)
      (hp : items.Perm src) : Step s { s with senders := s.senders.set i (.sending items) }
  /-- a send on the buffered channel (lines 59 and 98) -/
  | send (s : FanIn α) (i : Nat) (x : α) (rem : List α) (h : s.senders[i]? = some (.sending (x :: rem))) (hc : s.chan.length < s.cap) :
      Step s { s with senders := s.senders.set i (.sending rem), chan := s.chan ++ [x] }
  /-- a send on an unbuffered channel: only together with the receive -/
  | handoff (s : FanIn α) (i : Nat) (x : α) (rem : List α) (h : s.senders[i]? = some (.sending (x :: rem))) (hc : s.cap = 0) :
      Step s { s with senders := s.senders.set i (.sending rem), out := s.out ++ [x] }
  /-- `<-semaphoreCh` and Done (lines 62 and 102, 54 and 93) -/
  | release (s : FanIn α) (i : Nat) (h : s.senders[i]? = some (.sending [])) : Step s { s with senders := s.senders.set i .done }
  /-- Wait returns, the channel is closed (lines 66-69 and 106-109) -/
  | close (s : FanIn α) (h : ∀ p ∈ s.senders, p = .done) (hc : s.closed = false) : Step s { s with closed := true }
  /-- the main goroutine receives (lines 75 and 112) -/
  | recv (s : FanIn α) (x : α) (q : List α) (h : s.chan = x :: q) : Step s { s with chan := q, out := s.out ++ [x] }

/-- the main goroutine leaves its range loop. (/repo/index/InvertedIndex.go:50-112) -/
def Finished (s : FanIn α) : Prop := s.closed = true ∧ s.chan = []

/-- at the beginning. (/repo/index/InvertedIndex.go:50-112) -/
def start (srcs : List (List α)) (cap sem : Nat) : FanIn α := { senders := srcs.map .waiting, cap := cap, sem := sem }

end FanIn
end Goir
