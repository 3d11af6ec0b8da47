import Verif.Model.Ledger

/-
flags.rs and main.rs
-/

namespace Silverfox

/-- flags.rs:111-118 -/
inductive Subcommand where
  | summary | balance | envelopes | register | import_ | new
deriving DecidableEq, Repr

/-- flags.rs:139-162 `TryFrom<&str> for Subcommand`: the first letter decides. -/
def Subcommand.parse (s : Str) : Res Subcommand :=
  match s with
  | 's' :: _ => .ok .summary
  | 'b' :: _ => .ok .balance
  | 'e' :: _ => .ok .envelopes
  | 'r' :: _ => .ok .register
  | 'i' :: _ => .ok .import_
  | 'n' :: _ => .ok .new
  | _ => fail .basic

/-- flags.rs:7-18 (`other_accounts`, `begin_date` and `end_date` are never set) -/
structure Flags where
  file : Option Str
  sub : Subcommand
  noMove : Bool
  csv : Option Str
  rules : Option Str
deriving DecidableEq

/-- flags.rs:42-69: the flags after the subcommand. -/
def parseFlags : List Str → Flags → Res Flags
  | [], f => .ok f
  | [a], f =>
    if a = s%"--no-move" ∨ a = s%"-n" then .ok { f with noMove := true } else fail .basic
  | a :: v :: rest, f =>
    if a = s%"--no-move" ∨ a = s%"-n" then parseFlags (v :: rest) { f with noMove := true }
    else if a = s%"-f" ∨ a = s%"--file" then parseFlags rest { f with file := some v }
    else if a = s%"--csv-file" ∨ a = s%"--csv" then parseFlags rest { f with csv := some v }
    else if a = s%"--rules-file" ∨ a = s%"--rules" then parseFlags rest { f with rules := some v }
    else fail .basic

/-- flags.rs:21-72 `parse_from_env`, on the arguments after the program name; `none`: no argument, help is
shown and the program exits. -/
def Flags.parse : List Str → Res (Option Flags)
  | [] => .ok none
  | s :: rest => do
    let sub ← Subcommand.parse s
    let f ← parseFlags rest ⟨none, sub, false, none, none⟩
    pure (some f)

/-- The rest of what `execute` takes from outside. -/
structure Outside where
  /-- `$SILVERFOX_FILE` -/
  silverfoxFile : Option Str
  /-- `$LEDGER_FILE` -/
  ledgerFile : Option Str
  /-- is standard output a terminal? -/
  terminal : Bool
  /-- include depth that the stack can bear -/
  fuel : Nat

/-- flags.rs:191-199 `get_file_from_env` -/
def Outside.file (o : Outside) : Option Str :=
  match o.silverfoxFile with
  | some v => some v
  | none => o.ledgerFile

/-- What a command leaves behind: the files, and the lines printed or a failure. -/
abbrev Outcome := World × Res (List Str)

variable {M : Type} [Mag M]

/-- flags.rs:90-106: the subcommand, after loading and filling. `display_register` (mod.rs:328-342)
unwraps its result, so an error there is a panic. -/
def runSub (env : Env) (o : Outside) (f : Flags) (w : World) (l : Ledger M) : Outcome :=
  match f.sub with
  | .balance => (w, l.displayBalance env)
  | .envelopes => (w, l.displayEnvelopes env)
  | .register =>
    match Register.display env o.terminal l.entries l.dateFormat none none none with
    | .ok ls => (w, .ok ls)
    | .error _ => (w, panicked)
  | .import_ =>
    match f.csv with
    | none => (w, fail .basic)
    | some c =>
      match l.importCsv env o.fuel w c f.rules with
      | (w, .ok _) => (w, .ok [])
      | (w, .error x) => (w, .error x)
  | .summary => (w, fail .basic)
  | .new => (w, fail .basic)

/-- flags.rs:74-109 `execute` -/
def execute (M : Type) [Mag M] (env : Env) (o : Outside) (f : Flags) (w : World) : Outcome :=
  match f.file.or o.file with
  | none => (w, fail .basic)
  | some path =>
    match (Ledger.fromFile env o.fuel w path : Res (Ledger M × World)) with
    | .error x => (w, .error x)
    | .ok (l, w) =>
      if f.noMove then runSub env o f w l
      else match l.fillEnvelopes env w with
        | (w, .error x) => (w, .error x)
        | (w, .ok l) => runSub env o f w l

/-- main.rs:12-21: the whole program. -/
def mainProgram (M : Type) [Mag M] (env : Env) (o : Outside) (args : List Str) (w : World) :
    Outcome :=
  match Flags.parse args with
  | .error x => (w, .error x)
  | .ok none => (w, .ok [])
  | .ok (some f) => execute M env o f w

/-- The exit status of the process: a panic is 101, everything else, also a reported error, is 0
(main.rs:12-21 prints the error and returns). -/
def exitCode (r : Res (List Str)) : Nat :=
  match r with
  | .error .panic => 101
  | _ => 0

end Silverfox
