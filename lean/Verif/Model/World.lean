import Verif.Model.Env

/-
Files and the working directory. Paths are resolved lexically: no symbolic links, and `..` drops
the last component.
-/

namespace Silverfox

/-- An absolute path: its components. -/
abbrev APath := List Str

/-- The file system as seen by the program. -/
structure World where
  /-- contents of the readable UTF-8 files -/
  file : APath → Option Str
  /-- may the file be opened for appending? -/
  canAppend : APath → Bool
  /-- the working directory -/
  cwd : APath

/-- One component of a path. -/
def stepPath (acc : APath) (c : Str) : APath :=
  if c = [] ∨ c = s%"." then acc
  else if c = s%".." then acc.dropLast
  else acc ++ [c]

/-- The absolute path that `p` denotes in the directory `cwd`. -/
def resolve (cwd : APath) (p : Str) : APath :=
  (splitOn '/' p).foldl stepPath (if p.head? = some '/' then [] else cwd)

/-- Does the path end in a file name? (A path ending in `/`, `.` or `..` is a directory.) -/
def endsInName (p : Str) : Bool :=
  match (splitOn '/' p).getLast? with
  | none => false
  | some c => c != [] && c != s%"." && c != s%".."

/-- `fs::read_to_string(p)` -/
def World.read (w : World) (p : Str) : Option Str :=
  if endsInName p then w.file (resolve w.cwd p) else none

/-- `set_current_dir(p.parent())` after `p` was read. A bare file name has the empty path as its
parent, changing to it fails, and the failure is ignored (ledger/mod.rs:59-61); `dropLast` of the
resolved path is then the working directory itself. -/
def World.cdParent (w : World) (p : Str) : World := { w with cwd := (resolve w.cwd p).dropLast }

/-- Replace the contents of one file. -/
def World.write (w : World) (a : APath) (s : Str) : World :=
  { w with file := fun b => if b = a then some s else w.file b }

/-- `OpenOptions::new().append(true).open(p)`, then writing `s`; `none` if it cannot be opened. -/
def World.append (w : World) (p : Str) (s : Str) : Option World :=
  let a := resolve w.cwd p
  if endsInName p && w.canAppend a then
    match w.file a with
    | some old => some (w.write a (old ++ s))
    | none => none
  else none

end Silverfox
