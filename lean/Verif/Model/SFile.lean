import Verif.Model.Serialize
/-!
# A file that is only written through SecureSaveFile

The three names `name`, `name_temp`, `name_old` of one SecureSaveFile target, as a value.  This is the view of
`Verif.Model.FS` that concerns one target; `Verif.Props.SFileView` relates the two (`sfile_view`).  Contents are FlatBuffers buffers
(`CompressData`/`DecompressData`, /repo/file/File.go:23-56, give back complete files; `DecompressData`
panics on an incomplete one: C117).
-/
namespace Goir

/-- content of a file as a later reader sees it. (/repo/file/File.go:135-166) -/
inductive Content where
  | torn                   -- a proper prefix of what was to be written: DecompressData panics
  | full (b : FB.Buf)
deriving DecidableEq, Repr

/-- the three names of a SecureSaveFile target. (/repo/file/File.go:135-166) -/
structure SFile where
  cur : Option Content := none
  old : Option Content := none
  tmp : Option Content := none
deriving DecidableEq, Repr

/-- where a SecureSaveFile call is; as `SavePc`, with the byte-wise write collapsed to "begun" and "complete". (/repo/file/File.go:135-166) -/
inductive SPc where
  | start | writing | written | moved | installed | done
deriving DecidableEq, Repr

/-- the point after the next system call of SecureSaveFile. (/repo/file/File.go:135-166) -/
def SPc.next : SPc → SPc
  | .start => .writing
  | .writing => .written
  | .written => .moved
  | .moved => .installed
  | .installed => .done
  | .done => .done

/-- the effect of the next system call of `SecureSaveFile(path, name, new)` (/repo/file/File.go:135-166). -/
def SFile.step (new : FB.Buf) (f : SFile) : SPc → SFile
  | .start => { f with tmp := some .torn }
  | .writing => { f with tmp := some (.full new) }
  | .written => if f.cur.isSome then { f with old := f.cur, cur := none } else f
  | .moved => { f with cur := f.tmp, tmp := none }
  | .installed => { f with old := none }
  | .done => f

end Goir
