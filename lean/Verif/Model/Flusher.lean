import Verif.Model.SFile
import Verif.Model.GoMap
/-!
# The buffering writer goroutines of the disk store

`SaveDocumentFieldOnDisk`, `SaveNumberFieldTermOnDisk` and `SaveFieldSizeLengthOnDisc` (/repo/storage/DiskIO.go:189-306) are
the same loop: receive a message and put it in a map; when the ticker fires, for every key of the map serialize the entry, save
it with SecureSaveFile and delete the key.  `B` is the type of the map's values.

Simplification: keys are single path components, and no key is another key followed by `_temp` or `_old` (C42–C44), so each key
has its own three file names.
-/
namespace Goir

/-- where the goroutine is: in its select; in the flush loop with these keys to go; inside SecureSaveFile for key `k`. (/repo/storage/DiskIO.go:189-306) -/
inductive FlushPc where
  | idle
  | flushing (todo : List String)
  | saving (k : String) (rest : List String) (b : FB.Buf) (pc : SPc)
deriving DecidableEq, Repr

/-- the goroutine's map and its files. (/repo/storage/DiskIO.go:189-306) -/
structure Flusher (B : Type) where
  files : GoMap String SFile := []
  buf   : GoMap String B := []
  pc    : FlushPc := .idle
deriving DecidableEq, Repr

namespace Flusher
variable {B : Type}

/-- the files of a key. (/repo/storage/DiskIO.go:189-306) -/
def file (s : Flusher B) (k : String) : SFile := (s.files.get? k).getD {}

/-- the receive case (/repo/storage/DiskIO.go:200-203, 234-245, 277-281): `put` computes the new entry. -/
def recv (s : Flusher B) (k : String) (put : Option B → B) : Option (Flusher B) :=
  if s.pc = .idle then some { s with buf := s.buf.set k (put (s.buf.get? k)) } else none

/-- the ticker fires; `order` is the iteration order of the `range` loop (/repo/storage/DiskIO.go:204-206, 246-248, 282-284). -/
def tick (s : Flusher B) (order : List String) : Option (Flusher B) :=
  if s.pc = .idle ∧ order.Perm s.buf.keys then some { s with pc := .flushing order } else none

/-- one step of the flush loop (/repo/storage/DiskIO.go:206-217, 248-258, 284-302): serialize, one system call of
SecureSaveFile, delete the key, leave the loop. `none` if not flushing, or if the serializer panics (it never does). -/
def step (ser : String → B → Option FB.Buf) (s : Flusher B) : Option (Flusher B) :=
  match s.pc with
  | .idle => none
  | .flushing [] => some { s with pc := .idle }
  | .flushing (k :: rest) =>
    match s.buf.get? k with
    | none => none
    | some v =>
      match ser k v with
      | none => none
      | some b => some { s with pc := .saving k rest b .start }
  | .saving k rest _ .done => some { s with buf := s.buf.del k, pc := .flushing rest }
  | .saving k rest b pc => some { s with files := s.files.set k ((s.file k).step b pc), pc := .saving k rest b pc.next }

/-- the process dies: only the files remain. (the end of a process; no code) -/
def killed (s : Flusher B) : Flusher B := { files := s.files }

end Flusher
end Goir
