import Verif.Str
import Verif.Mag
import Verif.Date

/-
Outcomes and environment.
-/

namespace Silverfox

/-- The constructors of `SilverfoxError` (errors.rs:10-17). Messages and contexts are
in `Model/Messages.lean`. -/
inductive ErrKind where
  | basic | parse | validation | processing | file | csv
deriving DecidableEq, Repr

/-- How a computation can fail: with an error value, or by a Rust panic. -/
inductive Fail where
  /-- an `Err(..)` that is passed up and printed by `main` (main.rs:12-21) -/
  | err (k : ErrKind)
  /-- a panic: failed assertion, index out of range, `unwrap` of `None`, `unreachable!`, slicing
  off a character boundary, stack overflow -/
  | panic
deriving DecidableEq, Repr

/-- The outcome of a Rust function that returns `Result` or can panic. -/
abbrev Res (α : Type) := Except Fail α

deriving instance DecidableEq for Except

/-- `unwrap()` -/
def unwrap {α : Type} : Option α → Res α
  | some a => .ok a
  | none => .error .panic

/-- Fail with an error value. -/
def fail {α : Type} (k : ErrKind) : Res α := .error (.err k)

/-- A Rust panic. -/
def panicked {α : Type} : Res α := .error .panic

/-- What the program takes from outside. -/
structure Env where
  /-- `Local::now().date_naive()`. One value per command: midnight does not pass while it runs. -/
  today : Date
  /-- The iteration order of a `HashMap`/`HashSet`, as a function of the contents listed in some
  fixed order. Any function is allowed here; where it matters, theorems assume that it permutes. -/
  ord : {α : Type} → List α → List α
  /-- `NaiveDate::parse_from_str(s, fmt)` -/
  parseDate : (s fmt : Str) → Option Date
  /-- `date.format(fmt).to_string()`; `none` is the panic on an invalid format -/
  fmtDate : Date → (fmt : Str) → Option Str
  /-- `str::to_lowercase` -/
  lower : Str → Str
  /-- The records of a CSV text as delivered by `csv::Reader::records()` without headers; `none` is
  an unreadable record. -/
  csv : Str → List (Option (List Str))

end Silverfox
