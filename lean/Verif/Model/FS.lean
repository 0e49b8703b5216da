import Verif.Model.GoMap
/-!
# Package `file`: paths, the file system and SecureSaveFile

A path is the list of its components below the file system root.  The file system is a map from paths to nodes.
Crash model: the *process* dies between two system calls or inside a `write`, which then has written any prefix.  The kernel
and the disk survive (no power loss, no reordering of system calls), there is one process and no disk errors.
-/
namespace Goir

/-- the bytes of a file (`[]byte`, /repo/file/File.go:23-72). -/
abbrev Bytes := List UInt8
/-- a path by its components (`string`, /repo/file/File.go:58-166). -/
abbrev Path := List String

/-- a node of the file system. (the operating system and path/filepath under /repo/file/File.go:58-166) -/
inductive Node where
  | dir
  | file (content : Bytes)
deriving DecidableEq, Repr

/-- the file system (the operating system under /repo/file/File.go:58-166). -/
abbrev FS := GoMap Path Node

/-! ### filepath.Join (Go standard library), on absolute slash-separated paths -/

/-- split at every '/'. (the operating system and path/filepath under /repo/file/File.go:58-166) -/
def splitSlash : List Char → List (List Char)
  | [] => [[]]
  | c :: cs =>
    if c = '/' then [] :: splitSlash cs
    else match splitSlash cs with
      | [] => [[c]]
      | w :: ws => (c :: w) :: ws

/-- the components of a string. (the operating system and path/filepath under /repo/file/File.go:58-166) -/
def components (s : String) : List String := (splitSlash s.toList).map String.ofList

/-- one component of `filepath.Clean` on a rooted path: empty and "." vanish, ".." drops the previous component (and is
dropped at the root). (the operating system and path/filepath under /repo/file/File.go:58-166) -/
def cleanStep (acc : Path) (c : String) : Path :=
  if c = "" ∨ c = "." then acc else if c = ".." then acc.dropLast else acc ++ [c]

/-- `filepath.Join(base, s)` for a cleaned base, as used with every path in /repo/storage/DiskIO.go and
/repo/file/File.go:137-139. -/
def join (base : Path) (s : String) : Path := (components s).foldl cleanStep base

/-! ### system calls -/
namespace FS

/-- `Exists` (/repo/file/File.go:89-95).  Simplification: only "no such file" is possible, since parents are directories. -/
def exists_ (fs : FS) (p : Path) : Bool := (fs.get? p).isSome

/-- is `p` a directory? The root of the file system always is. (the operating system and path/filepath under /repo/file/File.go:58-166) -/
def isDir (fs : FS) (p : Path) : Bool := p = [] || (fs.get? p == some .dir)

/-- `open(p, O_WRONLY|O_CREATE|O_TRUNC)`, the first system call of `os.WriteFile` (/repo/file/File.go:58-64). -/
def create (fs : FS) (p : Path) : Option FS :=
  if fs.isDir p.dropLast ∧ fs.get? p ≠ some .dir ∧ p ≠ [] then some (fs.set p (.file [])) else none

/-- a `write` to the open file that has put `done` on the disk so far. (/repo/file/File.go:58-64) -/
def writeTo (fs : FS) (p : Path) (done : Bytes) : FS := fs.set p (.file done)

/-- `rename(a, b)` of a plain file (/repo/file/File.go:81-87): replaces `b` atomically. -/
def rename (fs : FS) (a b : Path) : Option FS :=
  match fs.get? a with
  | some (.file c) => if fs.isDir b.dropLast ∧ fs.get? b ≠ some .dir ∧ b ≠ [] then some ((fs.del a).set b (.file c)) else none
  | _ => none

/-- `os.Remove` of a plain file (/repo/file/File.go:97-100). -/
def remove (fs : FS) (p : Path) : Option FS :=
  match fs.get? p with
  | some (.file _) => some (fs.del p)
  | _ => none

/-- `os.ReadFile` (/repo/file/File.go:66-72). -/
def readFile (fs : FS) (p : Path) : Option Bytes :=
  match fs.get? p with
  | some (.file c) => some c
  | _ => none

/-- one level of `os.MkdirAll` (/repo/file/File.go:74-79): `none` if a file is in the way. -/
def mkdir1 (fs : FS) (q : Path) : Option FS :=
  match fs.get? q with
  | some .dir => some fs
  | some (.file _) => none
  | none => some (fs.set q .dir)

/-- `os.MkdirAll` (/repo/file/File.go:74-79): creates every missing prefix. -/
def mkdirAll (fs : FS) (p : Path) : Option FS :=
  (List.range p.length).foldlM (fun (fs : FS) i => fs.mkdir1 (p.take (i + 1))) fs

/-- the names of the directories directly below `p`: `ListDirectories` (/repo/file/File.go:118-133), which leaves out
"docs". -/
def listDirectories (fs : FS) (p : Path) : List String :=
  fs.filterMap fun e =>
    match e.1.getLast? with
    | some name => if e.2 = .dir ∧ e.1.dropLast = p ∧ name ≠ "docs" then some name else none
    | none => none

/-- the names of the plain files directly below `p`: `ListFiles` (/repo/file/File.go:102-116). -/
def listFiles (fs : FS) (p : Path) : List String :=
  fs.filterMap fun e =>
    match e.1.getLast? with
    | some name => if e.2 ≠ .dir ∧ e.1.dropLast = p then some name else none
    | none => none

end FS

/-! ### SecureSaveFile as a sequence of system calls -/

/-- where a `SecureSaveFile` call is. (/repo/file/File.go:135-166) -/
inductive SavePc where
  | start               -- before opening name_temp (line 141)
  | writing (n : Nat)   -- n bytes of name_temp are written
  | written             -- name_temp complete, before the Exists test (line 146)
  | moved               -- current was renamed to old (or did not exist), before line 153
  | installed           -- name_temp was renamed to name, before line 158
  | done                -- returned nil
  | failed              -- returned an error
deriving DecidableEq, Repr

/-- a call `SecureSaveFile(path, fileName, buf)` (/repo/file/File.go:135-166). -/
structure SaveCall where
  path : Path
  name : String
  buf  : Bytes

namespace SaveCall
/-- `currentPath` (/repo/file/File.go:137). -/
def cur (c : SaveCall) : Path := join c.path c.name
/-- `tempPath` (/repo/file/File.go:138). -/
def tmp (c : SaveCall) : Path := join c.path (c.name ++ "_temp")
/-- `oldPath` (/repo/file/File.go:139). -/
def old (c : SaveCall) : Path := join c.path (c.name ++ "_old")

/-- one system call of `SecureSaveFile` (/repo/file/File.go:135-166). A state from which there is no step is final. -/
def step (c : SaveCall) : FS × SavePc → Option (FS × SavePc)
  | (fs, .start) =>
    match fs.create c.tmp with
    | some fs' => some (fs', .writing 0)
    | none => some (fs, .failed)
  | (fs, .writing n) =>
    if n < c.buf.length then some (fs.writeTo c.tmp (c.buf.take (n + 1)), .writing (n + 1)) else some (fs, .written)
  | (fs, .written) =>
    if fs.exists_ c.cur then
      match fs.rename c.cur c.old with
      | some fs' => some (fs', .moved)
      | none => some (fs, .failed)
    else some (fs, .moved)
  | (fs, .moved) =>
    match fs.rename c.tmp c.cur with
    | some fs' => some (fs', .installed)
    | none => some (fs, .failed)
  | (fs, .installed) =>
    if fs.exists_ c.old then
      match fs.remove c.old with
      | some fs' => some (fs', .done)
      | none => some (fs, .failed)
    else some (fs, .done)
  | (_, .done) => none
  | (_, .failed) => none

/-- the state after `n` system calls (or the final state, if it ended earlier): every crash point of the call. (/repo/file/File.go:135-166) -/
def after (c : SaveCall) : Nat → FS × SavePc → FS × SavePc
  | 0, s => s
  | n + 1, s => match c.step s with
    | some s' => c.after n s'
    | none => s

end SaveCall
end Goir
