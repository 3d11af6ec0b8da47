import Verif.Model.Entry

/-
ledger/register.rs
-/

namespace Silverfox

variable {M : Type} [Mag M]

namespace Register

/-- register.rs:45-55: is the date within the range, both ends included? -/
def inRange (b e : Option Date) (d : Date) : Bool :=
  match b, e with
  | some b, some e => Date.le d e && Date.le b d
  | some b, none => Date.le b d
  | none, some e => Date.le d e
  | none, none => true

/-- register.rs:37-61: the entries shown. -/
def select (entries : List (Entry M)) (b e : Option Date) (am : Option Str) : List (Entry M) :=
  entries.filter fun x =>
    (x.postings.any fun p => isFocused am p.account) && inRange b e x.date

/-- register.rs:101-149 `get_maximum_lengths`, the rows collected (the `continue` cases skip an entry). -/
def rows (env : Env) (fmt : Str) (am : Option Str) : List (Entry M) → Res (List (RegisterData M))
  | [] => .ok []
  | e :: es => do
    match e.registerData env fmt am with
    | .error .panic => panicked
    | .error (.err _) => fail .basic
    | .ok none => rows env fmt am es
    | .ok (some r) =>
      if r.amounts.isEmpty then rows env fmt am es
      else do
        let rs ← rows env fmt am es
        pure (r :: rs)

/-- Maximum of a list of lengths (0 for the empty list). -/
def maxLen (l : List Nat) : Nat := l.foldl Nat.max 0

/-- register.rs:78-89, the columns that are used for printing -/
structure Widths where
  date : Nat := 0
  description : Nat := 0
  fromAcct : Nat := 0
  toAcct : Nat := 0
  amount : Nat := 0
  total : Nat := 0

/-- register.rs:121-146: column widths, with the running total; lengths are in bytes. -/
def widths : List (RegisterData M) → Pool M → Widths → Widths
  | [], _, w => w
  | r :: rs, tot, w =>
    let tot := Pool.addPool tot r.amounts
    widths rs tot {
      date := Nat.max w.date (utf8Len r.date)
      description := Nat.max w.description (utf8Len r.description)
      fromAcct := Nat.max w.fromAcct (utf8Len r.flow.1)
      toAcct := Nat.max w.toAcct (utf8Len r.flow.2)
      amount := Nat.max w.amount (maxLen (r.amounts.map fun a => utf8Len a.display))
      total := Nat.max w.total (maxLen (tot.map fun a => utf8Len a.display)) }

/-- register.rs:163-174: the part of the first line before the amounts. -/
def prelude (w : Widths) (r : RegisterData M) : Str :=
  padRight w.date r.date ++ ' ' :: r.status :: ' ' :: padRight w.description r.description ++
  s%"  " ++ padLeft w.fromAcct r.flow.1 ++ s%" -> " ++ padRight w.toAcct r.flow.2 ++ s%"  "

/-- register.rs:178-184, 188-195: amount and running total. -/
def figures (w : Widths) (tot : Pool M) (a : Amount M) : Str :=
  padLeft w.amount a.display ++ s%"  " ++ padLeft w.total (Pool.only tot a.sym).display

/-- register.rs:160-197: the lines of one entry. -/
def rowLines (w : Widths) (tot : Pool M) (r : RegisterData M) : List Str :=
  match r.amounts with
  | [] => []
  | a :: as =>
    (prelude w r ++ figures w tot a) ::
      as.map fun x => List.replicate (utf8Len (prelude w r)) ' ' ++ figures w tot x

/-- register.rs:154-199 `print_lines` -/
def printLines (w : Widths) : List (RegisterData M) → Pool M → List Str
  | [], _ => []
  | r :: rs, tot =>
    let tot := Pool.addPool tot r.amounts
    rowLines w tot r ++ printLines w rs tot

/-- register.rs:7-75 `Register::display`: the lines printed. `terminal`: is there a terminal whose
width can be found out? (The width itself is not used.) -/
def display (env : Env) (terminal : Bool) (entries : List (Entry M)) (fmt : Str)
    (b e : Option Date) (am : Option Str) : Res (List Str) :=
  if !terminal then fail .basic
  else do
    let rs ← rows env fmt am (select entries b e am)
    pure (printLines (widths rs [] {}) rs [])

end Register

end Silverfox
