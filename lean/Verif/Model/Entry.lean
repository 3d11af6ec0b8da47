import Verif.Model.Posting

/-
entry.rs
-/

namespace Silverfox

/-- entry.rs:9-17 -/
inductive Status where
  | pending | cleared | reconciled
deriving DecidableEq, Repr

/-- entry.rs:24-30 `to_char` -/
def Status.toChar : Status → Char
  | .reconciled => '*'
  | .cleared => '~'
  | .pending => '?'

/-- entry.rs:33-49 `FromStr for EntryStatus` -/
def Status.parse (s : Str) : Res Status :=
  if s = s%"?" then .ok .pending
  else if s = s%"~" then .ok .cleared
  else if s = s%"*" then .ok .reconciled
  else fail .parse

/-- entry.rs:57-67 -/
structure Entry (M : Type) where
  date : Date
  status : Status
  description : Str
  payee : Option Str
  comment : Option Str
  postings : List (Posting M)
deriving DecidableEq

variable {M : Type} [Mag M]

/-- entry.rs:80-102 `Entry::new`: an empty comment is no comment. -/
def Entry.new (date : Date) (status : Status) (description : Str) (payee : Option Str)
    (postings : List (Posting M)) (comment : Option Str) : Entry M :=
  ⟨date, status, description, payee, if comment = some [] then none else comment, postings⟩

/-- entry.rs:182-202: description and payee. `&s[i + 1..j]` with `j < i + 1` is a panic. -/
def parseDescription (s : Str) : Res (Str × Option Str) :=
  match find s%"[" s with
  | none => .ok (s, none)
  | some i =>
    match rfind s%"]" s with
    | none => fail .parse
    | some j =>
      if i + 1 ≤ j then .ok (trim (s.take i), some (trim ((s.take j).drop (i + 1))))
      else panicked

/-- entry.rs:153-212 `parse_header`. `header_tokens[1]` of a header with one token is a panic. -/
def Entry.parseHeader (env : Env) (header fmt : Str) : Res (Entry M) :=
  match splitWs (removeComments header) with
  | [] => fail .parse
  | t0 :: rest =>
    match env.parseDate t0 fmt with
    | none => fail .parse
    | some date =>
      match rest with
      | [] => panicked
      | t1 :: toks => do
        let status ← Status.parse t1
        let (description, payee) ← parseDescription (joinWith [' '] toks)
        pure ⟨date, status, description, payee, none, []⟩

/-- entry.rs:131-145: the posting lines. -/
def Entry.parsePostings (dec : Char) (accounts : List Str) : List Str → Res (List (Posting M))
  | [] => .ok []
  | l :: ls =>
    if (trim l).isEmpty then Entry.parsePostings dec accounts ls
    else do
      let p ← Posting.parse l dec accounts
      let ps ← Entry.parsePostings dec accounts ls
      pure (p :: ps)

/-- Insertion into a `HashSet`. -/
def setInsert {α : Type} [DecidableEq α] (s : List α) (a : α) : List α :=
  if s.contains a then s else s ++ [a]

/-- entry.rs:285-302: the loop of `validate`, with the number of blank amounts and the symbols. -/
def validateLoop : List (Posting M) → Nat → List Str → Res (Nat × List Str)
  | [], blanks, syms => .ok (blanks, syms)
  | p :: ps, blanks, syms =>
    match p.amount with
    | some a =>
      match a.sym with
      | some s => validateLoop ps blanks (setInsert syms s)
      | none => validateLoop ps blanks syms
    | none => if blanks + 1 > 1 then fail .validation else validateLoop ps (blanks + 1) syms

/-- entry.rs:282-312 `validate`. Despite its comment it does not check that the entry balances. -/
def Entry.validate (e : Entry M) : Res Unit := do
  let (blanks, syms) ← validateLoop e.postings 0 []
  if blanks > 0 ∧ syms.length > 1 then fail .validation else pure ()

/-- entry.rs:104-151 `Entry::parse` -/
def Entry.parse (env : Env) (chunk fmt : Str) (dec : Char) (accounts : List Str) :
    Res (Entry M) :=
  let t := trim chunk
  if t.isEmpty then fail .parse
  else match lines t with
    | [] => fail .parse
    | l :: ls => do
      let e : Entry M ← Entry.parseHeader env l fmt
      let ps ← Entry.parsePostings dec accounts ls
      let e : Entry M := { e with postings := ps }
      e.validate
      pure e

/-- entry.rs:352-360 `has_blank_posting` -/
def Entry.hasBlank (e : Entry M) : Bool := e.postings.any fun p => p.amount.isNone

/-- entry.rs:362-370 `has_envelope_posting` -/
def Entry.hasEnvelopePosting (e : Entry M) : Bool := e.postings.any Posting.isEnvelope

/-- entry.rs:372-402 `has_mixed_currencies` -/
def Entry.hasMixed (e : Entry M) : Bool :=
  match e.postings.dropWhile (fun p => p.amount.isNone) with
  | [] => false
  | p :: rest =>
    let sym := p.amount.bind Amount.sym
    rest.any fun q => match q.amount with
      | some a => a.sym != sym
      | none => false

/-- entry.rs:225-239: native values are subtracted; a posting with an amount of unknown native
value is an error. -/
def blankMixed : List (Posting M) → M → Res M
  | [], m => .ok m
  | p :: ps, m =>
    match p.nativeValue with
    | some v => blankMixed ps (Mag.sub m v)
    | none => if p.amount.isSome then fail .processing else blankMixed ps m

/-- entry.rs:263-268: subtract the rest of the amounts. -/
def blankRest : List (Posting M) → Amount M → Res (Amount M)
  | [], b => .ok b
  | p :: ps, b =>
    match p.amount with
    | some a => do
      let b ← b.subAssign a
      blankRest ps b
    | none => blankRest ps b

/-- entry.rs:214-273 `get_blank_amount`; `unreachable!` (line 260) is a panic. -/
def Entry.blankAmount (e : Entry M) : Res (Option (Amount M)) :=
  if !e.hasBlank then .ok none
  else if e.hasMixed then do
    let m ← blankMixed e.postings Mag.zero
    pure (some ⟨m, none⟩)
  else
    match e.postings.dropWhile (fun p => p.amount.isNone) with
    | [] => panicked
    | p :: rest =>
      match p.amount with
      | none => panicked
      | some a => do
        let b ← blankRest rest a.neg
        pure (some b)

/-- entry.rs:332-336 `get_envelope_postings` -/
def Entry.envelopePostings (e : Entry M) : List (EnvPosting M) :=
  e.postings.filterMap fun p => match p with
    | .envelope x => some x
    | .classic _ => none

/-- ledger/register.rs:26-35 and entry.rs:411-419: is the account in focus? -/
def isFocused (accountMatch : Option Str) (name : Str) : Bool :=
  match accountMatch with
  | some m => containsStr m name
  | none => startsWith s%"asset" name

/-- entry.rs:535-544 -/
structure RegisterData (M : Type) where
  date : Str
  status : Char
  description : Str
  payee : Str
  flow : Str × Str
  shortFlow : Str × Str
  single : Str
  amounts : Pool M

/-- entry.rs:426-443: the accounts that gain, the accounts that lose, and the focused amounts. -/
def registerLoop (e : Entry M) (accountMatch : Option Str) :
    List (Posting M) → List Str → List Str → Pool M → Res (List Str × List Str × Pool M)
  | [], pos, neg, pool => .ok (pos, neg, pool)
  | p :: ps, pos, neg, pool => do
    let a ← match p.amount with
      | some a => pure a
      | none => do
        let b ← e.blankAmount
        unwrap b
    let pos' := if Mag.lt (Mag.zero : M) a.mag then setInsert pos p.account else pos
    let neg' := if !Mag.lt (Mag.zero : M) a.mag && Mag.lt a.mag (Mag.zero : M)
      then setInsert neg p.account else neg
    let pool' := if isFocused accountMatch p.account then Pool.add pool a else pool
    registerLoop e accountMatch ps pos' neg' pool'

/-- entry.rs:451-461: how a set of accounts is shown. -/
def flowName : List Str → Str
  | [] => s%"(none)"
  | [n] => n
  | _ => s%"(multiple)"

/-- `s.split(':').next_back().unwrap()`: the last part of an account name. -/
def shortName (n : Str) : Str := (splitOn ':' n).getLast?.getD []

/-- entry.rs:404-498 `as_register_data` -/
def Entry.registerData (env : Env) (e : Entry M) (fmt : Str) (accountMatch : Option Str) :
    Res (Option (RegisterData M)) := do
  let (pos, neg, amounts) ← registerLoop e accountMatch e.postings [] [] []
  if Pool.isZero amounts then pure none
  else
    let positive := flowName pos
    let negative := flowName neg
    let single :=
      if !isFocused accountMatch positive then shortName positive
      else if !isFocused accountMatch negative then shortName negative
      else s%"(conversion)"
    let date ← unwrap (env.fmtDate e.date fmt)
    pure (some {
      date := date
      status := e.status.toChar
      description := e.description
      payee := match e.payee with | some p => '[' :: (p ++ [']']) | none => []
      flow := (negative, positive)
      shortFlow := (shortName negative, shortName positive)
      single := single
      amounts := amounts })

/-- entry.rs:500-532 `as_parsable`. Printing a date with an invalid format is a panic. -/
def Entry.asParsable (env : Env) (e : Entry M) (fmt : Str) : Res Str := do
  let date ← unwrap (env.fmtDate e.date fmt)
  let pay := match e.payee with | some p => s%" [" ++ p ++ s%"]" | none => []
  let com := match e.comment with | some c => s%" // " ++ c | none => []
  let head := date ++ ' ' :: e.status.toChar :: ' ' :: e.description ++ pay ++ com ++ ['\n']
  pure (head ++ (e.postings.map fun p => s%"    " ++ p.display ++ ['\n']).flatten)

end Silverfox
