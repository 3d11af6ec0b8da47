import Verif.Model.Envelope

/-
account.rs
-/

namespace Silverfox

/-- account.rs:9-17 -/
structure Account (M : Type) where
  name : Str
  expenses : List (Envelope M)
  goals : List (Envelope M)
  real : Pool M
deriving DecidableEq

variable {M : Type} [Mag M]

namespace Account

/-- account.rs:87-105 `parse_header` -/
def parseHeader (line : Str) : Res Str :=
  match splitWs (removeComments line) with
  | [_, n] => .ok n
  | _ => fail .parse

/-- account.rs:111-133 `add_envelope` -/
def addEnvelope (a : Account M) (e : Envelope M) : Res (Account M) :=
  match e.kind with
  | .expense =>
    if a.expenses.any fun x => x.name == e.name then fail .validation
    else .ok { a with expenses := a.expenses ++ [e] }
  | .goal =>
    if a.goals.any fun x => x.name == e.name then fail .validation
    else .ok { a with goals := a.goals ++ [e] }

/-- account.rs:50-62, 71-79: parse the collected lines of an envelope, unless blank. -/
def flush (env : Env) (a : Account M) (chunk : Str) (dec : Char) (fmt : Str) : Res (Account M) :=
  if (trim chunk).isEmpty then .ok a
  else do
    let e ← Envelope.parse env chunk a.name dec fmt
    a.addEnvelope e

/-- account.rs:46-79: the lines after the header, cut where a line starts with `expense` or `goal`. -/
def parseLines (env : Env) (dec : Char) (fmt : Str) :
    List Str → Account M → Str → Res (Account M)
  | [], a, chunk => a.flush env chunk dec fmt
  | l :: ls, a, chunk =>
    if startsWith s%"expense" (trim l) || startsWith s%"goal" (trim l) then do
      let a ← a.flush env chunk dec fmt
      parseLines env dec fmt ls a l
    else parseLines env dec fmt ls a (chunk ++ '\n' :: l)

/-- account.rs:20-84 `Account::parse` -/
def parse (env : Env) (chunk : Str) (dec : Char) (fmt : Str) : Res (Account M) :=
  match lines chunk with
  | [] => fail .parse
  | h :: ls => do
    let name ← parseHeader h
    parseLines env dec fmt ls ⟨name, [], [], []⟩ []

/-- The envelopes, expenses before goals. -/
def envelopes (a : Account M) : List (Envelope M) := a.expenses ++ a.goals

/-- account.rs:138-144: every envelope processes the entry. -/
def processEnvelopes (today : Date) (entry : Entry M) :
    List (Envelope M) → Res (List (Envelope M))
  | [] => .ok []
  | e :: es => do
    let e ← e.processEntry today entry
    let es ← processEnvelopes today entry es
    pure (e :: es)

/-- account.rs:146-161: the ordinary postings to this account are added to its real value. -/
def processReal (name : Str) (entry : Entry M) : List (Posting M) → Pool M → Res (Pool M)
  | [], r => .ok r
  | p :: ps, r =>
    if p.account = name ∧ p.isEnvelope = false then
      match p.amount with
      | some a => processReal name entry ps (Pool.add r a)
      | none => do
        match ← entry.blankAmount with
        | some a => processReal name entry ps (Pool.add r a)
        | none => processReal name entry ps r
    else processReal name entry ps r

/-- account.rs:137-164 `process_entry` -/
def processEntry (today : Date) (entry : Entry M) (a : Account M) : Res (Account M) := do
  let exp ← processEnvelopes today entry a.expenses
  let gol ← processEnvelopes today entry a.goals
  let real ← processReal a.name entry entry.postings a.real
  pure { a with expenses := exp, goals := gol, real := real }

/-- account.rs:226-237 `get_available_value` -/
def available (a : Account M) : Pool M :=
  a.envelopes.foldl (fun p e => Pool.sub (Pool.sub p e.next) e.now) a.real

/-- account.rs:215-221: every envelope takes its share of what is left. -/
def fillLoop (today : Date) : List (Envelope M) → Pool M → Res (List (EnvPosting M))
  | [], _ => .ok []
  | e :: es, avail => do
    let p ← e.fillingPosting today avail
    let ps ← fillLoop today es (Pool.subAssign avail p.amount)
    pure (p :: ps)

/-- account.rs:204-224 `get_filling_postings`: last envelope first. (The postings made by
`get_filling_posting` always have an amount.) -/
def fillingPostings (today : Date) (a : Account M) : Res (List (EnvPosting M)) :=
  fillLoop today a.envelopes.reverse a.available

/-- The lines of several envelopes. -/
def displayAll (today : Date) : List (Envelope M) → Res (List Str)
  | [] => .ok []
  | e :: es => do
    let l ← e.display today
    let ls ← displayAll today es
    pure (l ++ ls)

/-- account.rs:166-202 `display_envelopes`: the lines printed. -/
def display (today : Date) (a : Account M) : Res (List Str) :=
  if a.expenses.isEmpty && a.goals.isEmpty then .ok []
  else do
    let avail := (a.available.filter fun x => !Mag.eq x.mag (Mag.zero : M)).map fun x =>
      s%"    " ++ x.display
    let ex ← displayAll today a.expenses
    let go ← displayAll today a.goals
    let exL := if a.expenses.isEmpty then [] else s%"  expenses" :: ex
    let goL := if a.goals.isEmpty then [] else s%"  goals" :: go
    pure (a.name :: s%"  available" :: avail ++ exL ++ goL ++ [[]])

end Account

end Silverfox
