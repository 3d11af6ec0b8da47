import Verif.Model.Account
import Verif.Model.Register
import Verif.Model.Importer

/-
ledger/mod.rs
-/

namespace Silverfox

/-- ledger/mod.rs:19-26 -/
structure Ledger (M : Type) where
  filePath : Str
  entries : List (Entry M)
  dateFormat : Str
  /-- a `HashMap`, unique keys -/
  accounts : List (Str × Account M)
  currency : Str
  decimal : Char

variable {M : Type} [Mag M]

/-- Insertion into a sorted list, before the first element that is not smaller. -/
def insertBy {α : Type} (lt : α → α → Bool) (a : α) : List α → List α
  | [] => [a]
  | b :: l => if lt b a then b :: insertBy lt a l else a :: b :: l

/-- `sort_by`, a stable sort. -/
def stableSort {α : Type} (lt : α → α → Bool) : List α → List α
  | [] => []
  | a :: l => insertBy lt a (stableSort lt l)

/-- `Ord for str`: lexicographic by code point (which is the order of the UTF-8 bytes). -/
def strLt : Str → Str → Bool
  | _, [] => false
  | [], _ :: _ => true
  | a :: s, b :: t => a.toNat < b.toNat || (a == b && strLt s t)

namespace Ledger

/-- ledger/mod.rs:29-39 `Ledger::new`, with the path set as in `from_file` (44). -/
def new (path : Str) : Ledger M where
  filePath := path
  entries := []
  dateFormat := s%"%Y/%m/%d"
  accounts := []
  currency := []
  decimal := '.'

/-- The names of the declared accounts. -/
def accountNames (l : Ledger M) : List Str := l.accounts.map Prod.fst

/-- Every account processes the entry. -/
def processAll (today : Date) (e : Entry M) :
    List (Str × Account M) → Res (List (Str × Account M))
  | [] => .ok []
  | (k, a) :: rest => do
    let a ← a.processEntry today e
    let rest ← processAll today e rest
    pure ((k, a) :: rest)

/-- ledger/mod.rs:173-182 `add_entry`. The accounts are visited in hash order, which can only decide
which of several failures comes first; the updated map is then listed in its own order again. -/
def addEntry (env : Env) (l : Ledger M) (e : Entry M) : Res (Ledger M) := do
  let _ ← processAll env.today e (env.ord l.accounts)
  let accs ← processAll env.today e l.accounts
  pure { l with
    accounts := accs
    entries := stableSort (fun a b => Date.lt a.date b.date) (l.entries ++ [e]) }

/-- ledger/mod.rs:158-168 `parse_entry` -/
def parseEntry (env : Env) (l : Ledger M) (chunk : Str) : Res (Ledger M) := do
  let e ← Entry.parse env chunk l.dateFormat l.decimal l.accountNames
  l.addEntry env e

/-- ledger/mod.rs:199-204 `parse_account` -/
def parseAccount (env : Env) (l : Ledger M) (chunk : Str) : Res (Ledger M) := do
  let a ← Account.parse env chunk l.decimal l.dateFormat
  pure { l with accounts := mapInsert l.accounts a.name a }

/-- ledger/mod.rs:102-156 `parse_chunk`, with `set_currency`, `set_date_format`, `include`; `inc` reads an
included file. The state is the ledger and the world (whose working directory changes). -/
def parseChunk (env : Env) (inc : Ledger M × World → Str → Res (Ledger M × World))
    (st : Ledger M × World) (chunk : Str) : Res (Ledger M × World) :=
  if chunk.isEmpty then .ok st
  else match splitWs chunk with
    | [] => .ok st
    | kw :: rest =>
      if kw = s%"account" then do
        let l ← st.1.parseAccount env chunk
        pure (l, st.2)
      else if kw = s%"currency" then
        match rest with
        | v :: _ => .ok ({ st.1 with currency := v }, st.2)
        | [] => fail .parse
      else if kw = s%"date_format" then
        match rest with
        | v :: _ => .ok ({ st.1 with dateFormat := v }, st.2)
        | [] => fail .parse
      else if kw = s%"include" then
        match rest with
        | v :: _ => inc st v
        | [] => fail .parse
      else do
        let l ← st.1.parseEntry env chunk
        pure (l, st.2)

/-- ledger/mod.rs:66-95 `add_from_str`, on the lines of the text, with the current chunk. -/
def addLinesFrom (env : Env) (inc : Ledger M × World → Str → Res (Ledger M × World)) :
    List Str → Ledger M × World → Str → Res (Ledger M × World)
  | [], st, chunk => parseChunk env inc st chunk
  | l :: ls, st, chunk =>
    let l := removeComments (trimEnd l)
    match l with
    | [] => addLinesFrom env inc ls st chunk
    | c :: _ =>
      if isWs c then addLinesFrom env inc ls st (chunk ++ '\n' :: l)
      else do
        let st ← parseChunk env inc st chunk
        addLinesFrom env inc ls st l

/-- ledger/mod.rs:54-64 `add_from_file`, with a bound on the depth of includes: endless recursion is a
stack overflow. -/
def addFromFile (env : Env) : Nat → Ledger M × World → Str → Res (Ledger M × World)
  | 0, _, _ => panicked
  | f + 1, st, path =>
    match st.2.read path with
    | none => fail .file
    | some s => addLinesFrom env (addFromFile env f) (lines s) (st.1, st.2.cdParent path) []

/-- ledger/mod.rs:42-51 `from_file` -/
def fromFile (env : Env) (fuel : Nat) (w : World) (path : Str) : Res (Ledger M × World) :=
  addFromFile env fuel (new path, w) path

/-- ledger/mod.rs:186-197 `append_entry`: the file is extended first. The world is returned also on
failure. -/
def appendEntry (env : Env) (w : World) (l : Ledger M) (e : Entry M) :
    World × Res (Ledger M) :=
  if !(endsInName l.filePath && w.canAppend (resolve w.cwd l.filePath) &&
      (w.file (resolve w.cwd l.filePath)).isSome) then (w, fail .file)
  else match e.asParsable env l.dateFormat with
    | .error f => (w, .error f)
    | .ok text =>
      match w.append l.filePath ('\n' :: text) with
      | none => (w, fail .file)
      | some w => (w, l.addEntry env e)

/-- ledger/mod.rs:226-253: one posting added to the totals. -/
def totalsStep (e : Entry M) (p : Posting M) (tot : List (Str × Pool M)) :
    Res (List (Str × Pool M)) :=
  match mapGet tot p.account with
  | some pool =>
    match p.amount with
    | some a => .ok (mapInsert tot p.account (Pool.add pool a))
    | none => do
      match ← e.blankAmount with
      | some b => pure (mapInsert tot p.account (Pool.add pool b))
      | none => pure tot
  | none =>
    match p.amount with
    | some a => .ok (mapInsert tot p.account (Pool.ofAmount a))
    | none => .ok (mapInsert tot p.account (Pool.ofAmount Amount.zero))

/-- ledger/mod.rs:226-253: the postings of one entry. -/
def totalsEntry (e : Entry M) : List (Posting M) → List (Str × Pool M) → Res (List (Str × Pool M))
  | [], tot => .ok tot
  | p :: ps, tot => do
    let tot ← totalsStep e p tot
    totalsEntry e ps tot

/-- ledger/mod.rs:225-254: all entries. -/
def totalsLoop : List (Entry M) → List (Str × Pool M) → Res (List (Str × Pool M))
  | [], tot => .ok tot
  | e :: es, tot => do
    let tot ← totalsEntry e e.postings tot
    totalsLoop es tot

/-- ledger/mod.rs:220-257 `get_totals` -/
def totals (l : Ledger M) : Res (List (Str × Pool M)) := totalsLoop l.entries []

/-- ledger/mod.rs:206-217 `display_flat_balance`: the lines printed. -/
def displayBalance (env : Env) (l : Ledger M) : Res (List Str) := do
  let tot ← l.totals
  pure ((stableSort (fun a b => strLt a.1 b.1) (env.ord tot)).map fun p =>
    padRight 35 p.1 ++ s%"    " ++ Pool.display p.2)

/-- ledger/mod.rs:259-266 `display_envelopes`, the accounts in order of name. -/
def displayAccounts (today : Date) (accs : List (Str × Account M)) : List Str → Res (List Str)
  | [] => .ok []
  | k :: ks => do
    let a ← unwrap (mapGet accs k)
    let l ← a.display today
    let ls ← displayAccounts today accs ks
    pure (l ++ ls)

/-- ledger/mod.rs:259-266 `display_envelopes`: the lines printed. -/
def displayEnvelopes (env : Env) (l : Ledger M) : Res (List Str) :=
  displayAccounts env.today l.accounts (stableSort strLt (env.ord l.accountNames))

/-- ledger/mod.rs:269-272: the fill postings of all accounts. -/
def fillAll (today : Date) : List (Str × Account M) → Res (List (EnvPosting M))
  | [] => .ok []
  | (_, a) :: rest => do
    let ps ← a.fillingPostings today
    let qs ← fillAll today rest
    pure (ps ++ qs)

/-- ledger/mod.rs:288-295: the entry made by filling. -/
def fillEntry (today : Date) (ps : List (EnvPosting M)) : Entry M :=
  Entry.new today .cleared s%"move to envelopes" none (ps.map Posting.envelope)
    (some s%"automatically generated by silverfox")

/-- ledger/mod.rs:268-298 `fill_envelopes` -/
def fillEnvelopes (env : Env) (w : World) (l : Ledger M) : World × Res (Ledger M) :=
  match fillAll env.today (env.ord l.accounts) with
  | .error f => (w, .error f)
  | .ok ps =>
    let ps := ps.filter fun p => !Mag.eq p.amount.mag (Mag.zero : M)
    if ps.isEmpty then (w, .ok l) else appendEntry env w l (fillEntry env.today ps)

/-- ledger/mod.rs:313-320: entries are appended one by one; the first failure ends it. -/
def importLoop (env : Env) (rules : Rules) (known : List Str) :
    List (List Str) → World → Ledger M → World × Res (Ledger M)
  | [], w, l => (w, .ok l)
  | r :: rs, w, l =>
    match (rules.entry env r known : Res (Entry M)) with
    | .error f => (w, .error f)
    | .ok e =>
      match appendEntry env w l e with
      | (w, .error f) => (w, .error f)
      | (w, .ok l) => importLoop env rules known rs w l

/-- ledger/mod.rs:300-323 `import_csv` -/
def importCsv (env : Env) (fuel : Nat) (w : World) (l : Ledger M) (csv : Str)
    (rules : Option Str) : World × Res (Ledger M) :=
  match importerFromFile env w fuel csv rules with
  | .error f => (w, .error f)
  | .ok (r, recs) => importLoop env r l.accountNames recs w l

end Ledger

end Silverfox
