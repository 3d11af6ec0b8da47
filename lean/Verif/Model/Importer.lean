import Verif.Model.Entry
import Verif.Model.World

/-
importer.rs
-/

namespace Silverfox

/-- importer.rs:85-99 without the subrules -/
structure RuleVals where
  /-- a `HashMap`, unique keys -/
  accounts : List (Str × Str)
  /-- a `HashMap`, unique keys -/
  amounts : List (Str × Str)
  comment : Str
  description : Str
  dateFormat : Str
  dateStr : Str
  decimal : Char
  fields : List Str
  payee : Str
  skip : Int
  status : Str
deriving DecidableEq

mutual
/-- importer.rs:85-99 -/
inductive Rules where
  | mk (vals : RuleVals) (subs : SubRules)
/-- importer.rs:494-498: a list of subrules, each with its patterns and rules. -/
inductive SubRules where
  | nil
  | cons (patterns : List Str) (rules : Rules) (rest : SubRules)
end

/-- `Vec::push` -/
def SubRules.push : SubRules → List Str → Rules → SubRules
  | .nil, p, r => .cons p r .nil
  | .cons q s rest, p, r => .cons q s (rest.push p r)

def Rules.vals : Rules → RuleVals
  | .mk v _ => v

def Rules.subs : Rules → SubRules
  | .mk _ s => s

/-- Change the values, keep the subrules. -/
def Rules.update (r : Rules) (f : RuleVals → RuleVals) : Rules := .mk (f r.vals) r.subs

/-- importer.rs:101-121 `Default for Rules` -/
def RuleVals.default : RuleVals where
  accounts := []
  amounts := []
  comment := []
  dateFormat := s%"%Y/%m/%d"
  dateStr := s%"%date%"
  decimal := '.'
  description := s%"%description%"
  fields := []
  payee := []
  skip := 1
  status := s%"~"

/-- importer.rs:101-121 -/
def Rules.default : Rules := .mk RuleVals.default .nil

/-- `HashMap::insert` -/
def mapInsert {α : Type} : List (Str × α) → Str → α → List (Str × α)
  | [], k, v => [(k, v)]
  | (k', v') :: m, k, v => if k' = k then (k, v) :: m else (k', v') :: mapInsert m k v

/-- `HashMap::remove` -/
def mapRemove {α : Type} (m : List (Str × α)) (k : Str) : List (Str × α) :=
  m.filter fun p => p.1 != k

/-- `HashMap::get` -/
def mapGet {α : Type} (m : List (Str × α)) (k : Str) : Option α :=
  (m.find? fun p => p.1 == k).map Prod.snd

/-- importer.rs:242-286, without `include`: a value `-` restores the default. -/
def RuleVals.reset (v : RuleVals) (name : Str) : Res RuleVals :=
  if name = s%"comment" ∨ name = s%"note" then .ok { v with comment := [] }
  else if name = s%"date_format" then .ok { v with dateFormat := s%"%Y/%m/%d" }
  else if name = s%"date" then .ok { v with dateStr := s%"%date%" }
  else if name = s%"decimal_symbol" ∨ name = s%"decimal" then .ok { v with decimal := '.' }
  else if name = s%"description" then .ok { v with description := s%"%description%" }
  else if name = s%"fields" then fail .validation
  else if name = s%"if" then fail .parse
  else if name = s%"payee" then .ok { v with payee := [] }
  else if name = s%"skip" then .ok { v with skip := 1 }
  else if name = s%"status" then .ok { v with status := s%"~" }
  else match stripPrefix s%"amount" name with
    | some i => .ok { v with amounts := mapRemove v.amounts i }
    | none =>
      match stripPrefix s%"account" name with
      | some i => .ok { v with accounts := mapRemove v.accounts i }
      | none => fail .parse

/-- importer.rs:288-353, without `include`: set a value. -/
def RuleVals.set (v : RuleVals) (name value : Str) : Res RuleVals :=
  if name = s%"comment" ∨ name = s%"note" then .ok { v with comment := value }
  else if name = s%"date_format" then .ok { v with dateFormat := value }
  else if name = s%"date" then .ok { v with dateStr := value }
  else if name = s%"decimal_symbol" ∨ name = s%"decimal" then
    if utf8Len value > 1 then fail .parse
    else do
      let c ← unwrap value.head?
      pure { v with decimal := c }
  else if name = s%"description" then .ok { v with description := value }
  else if name = s%"fields" then
    .ok { v with fields := v.fields ++ (splitOn ',' value).map trim }
  else if name = s%"if" then fail .parse
  else if name = s%"payee" then .ok { v with payee := value }
  else if name = s%"skip" then
    match parseI32 value with
    | some n => .ok { v with skip := n }
    | none => fail .parse
  else if name = s%"status" then .ok { v with status := value }
  else match stripPrefix s%"amount" name with
    | some i => .ok { v with amounts := mapInsert v.amounts i value }
    | none =>
      match stripPrefix s%"account" name with
      | some i => .ok { v with accounts := mapInsert v.accounts i value }
      | none => fail .parse

/-- importer.rs:219-240: a rule line cut into name and value. The position of the first whitespace is
counted in characters and used as a byte offset; cutting inside a character or past the end is a
panic. -/
def splitRule (line : Str) : Res (Str × Str) :=
  let line := trimStart line
  match posWs line with
  | none => fail .parse
  | some i => do
    let name ← unwrap (bytesTake i line)
    let value ← unwrap (bytesDrop (i + 1) line)
    pure (name, trimStart value)

/-- Is it an `include` rule? (importer.rs:267, 320) -/
def isInclude (name : Str) : Bool := name == s%"include" || name == s%"use"

/-- importer.rs:142-143: what is being parsed: the root rules, or an `if` block with its patterns and
rules; the flag tells whether its rules have begun. -/
inductive Block where
  | root
  | sub (patterns : List Str) (rules : Rules) (inRules : Bool)

/-- importer.rs:197-208, first part: a line `if ...` opens a block. The character position is used as a
byte offset. -/
def openIf (r : Rules) (line : Str) : Res Block :=
  match posWs line with
  | none => .ok (.sub [] r false)
  | some i => do
    let p ← unwrap (bytesDrop (i + 1) line)
    pure (.sub [p] r false)

/-- importer.rs:219-357 `add_from_line`; `inc` reads an included file. -/
def addLine (inc : Rules → Str → Res Rules) (r : Rules) (line : Str) : Res Rules := do
  let (name, value) ← splitRule line
  if isInclude name then inc r value
  else if trim value = s%"-" then do
    let v ← r.vals.reset name
    pure (.mk v r.subs)
  else do
    let v ← r.vals.set name value
    pure (.mk v r.subs)

/-- importer.rs:197-208: a line at root level. -/
def rootLine (inc : Rules → Str → Res Rules) (r : Rules) (l : Str) : Res (Rules × Block) :=
  if startsWith s%"if" l then do
    let b ← openIf r l
    pure (r, b)
  else do
    let r ← addLine inc r l
    pure (r, .root)

/-- importer.rs:146-208: one line. -/
def stepLine (inc : Rules → Str → Res Rules) (r : Rules) (b : Block) (l : Str) :
    Res (Rules × Block) :=
  let l := removeComments l
  if (trim l).isEmpty then .ok (r, b)
  else match b with
    | .sub ps s inRules =>
      if !startsInk l then do
        let s ← addLine inc s l
        pure (r, .sub ps s true)
      else if !inRules then .ok (r, .sub (ps ++ [l]) s false)
      else rootLine inc (.mk r.vals (r.subs.push ps s)) l
    | .root => rootLine inc r l

/-- importer.rs:140-217 `add_from_str`, on the lines of the text. -/
def addLines (inc : Rules → Str → Res Rules) : List Str → Rules → Block → Res Rules
  | [], r, .root => .ok r
  | [], r, .sub ps s _ => .ok (.mk r.vals (r.subs.push ps s))
  | l :: ls, r, b => do
    let (r, b) ← stepLine inc r b l
    addLines inc ls r b

/-- importer.rs:133-138 `add_from_file`, with a bound on the depth of includes: endless recursion is a
stack overflow. -/
def addRulesFile (w : World) : Nat → Rules → Str → Res Rules
  | 0, _, _ => panicked
  | f + 1, r, path =>
    match w.read path with
    | none => fail .file
    | some s => addLines (addRulesFile w f) (lines s) r .root

/-- importer.rs:481-491 `inject_variables`: the variables in hash order, then `%%`. -/
def injectAll : List (Str × Str) → Str → Str
  | [], s => s
  | (n, v) :: vs, s => injectAll vs (replaceAll ('%' :: (n ++ ['%'])) v s)

/-- importer.rs:481-491 `inject_variables` -/
def inject (env : Env) (vars : List (Str × Str)) (s : Str) : Str :=
  replaceAll s%"%%" s%"%" (injectAll (env.ord vars) s)

/-- importer.rs:384-398: the variables of a record. -/
def recordVars : List (Str × Str) → List (Str × Str) → Res (List (Str × Str))
  | [], vs => .ok vs
  | (n, v) :: rest, vs =>
    if vs.any fun p => p.1 == n then fail .parse else recordVars rest (mapInsert vs n v)

/-- importer.rs:500-506 `applies_to`: the fields run together, in lower case, contain a pattern. -/
def appliesTo (env : Env) (patterns : List Str) (record : List Str) : Bool :=
  let s := env.lower record.flatten
  patterns.any fun p => containsStr (env.lower p) s

variable {M : Type} [Mag M]

/-- importer.rs:436-442: the text of a posting. -/
def rawPosting (amounts : List (Str × Str)) (index account : Str) : Str :=
  match mapGet amounts index with
  | some a => account ++ ' ' :: a
  | none => account

/-- importer.rs:435-448: the postings of a record. -/
def recordPostings (env : Env) (v : RuleVals) (vars : List (Str × Str)) (known : List Str) :
    List (Str × Str) → Res (List (Posting M))
  | [] => .ok []
  | (i, acc) :: rest => do
    let p ← Posting.parse (inject env vars (rawPosting v.amounts i acc)) v.decimal known
    let ps ← recordPostings env v vars known rest
    pure (p :: ps)

/-- importer.rs:457-466: the account of the posting added to a single one. -/
def unknownAccount (m : M) : Str :=
  if Mag.lt m (Mag.zero : M) then s%"expenses:unknown"
  else if Mag.lt (Mag.zero : M) m then s%"income:unknown"
  else s%"unknown"

/-- importer.rs:453-478: a single posting is completed. -/
def completePostings (ps : List (Posting M)) : Res (List (Posting M)) :=
  match ps with
  | [] => fail .validation
  | [p] =>
    match p.amount with
    | some a => .ok [p, .classic ⟨unknownAccount a.mag, none, none, none⟩]
    | none => fail .validation
  | _ => .ok ps

/-- importer.rs:372-382: defaults for accounts and amounts. (The program stores them in the rules,
where they stay for the following records; storing them again makes no difference.) -/
def RuleVals.withDefaults (v : RuleVals) : RuleVals :=
  let v := if v.accounts.isEmpty then { v with accounts := [([], s%"%account%")] } else v
  if v.amounts.isEmpty then { v with amounts := [([], s%"%amount%")] } else v

/-- importer.rs:372-478: an entry from a record by the rules themselves. -/
def RuleVals.entry (env : Env) (v : RuleVals) (record : List Str) (known : List Str) :
    Res (Entry M) := do
  let v := v.withDefaults
  let vars ← recordVars (v.fields.zip record) []
  match env.parseDate (inject env vars v.dateStr) v.dateFormat with
  | none => fail .parse
  | some date => do
    let description := inject env vars v.description
    let status ← Status.parse (inject env vars v.status)
    let payee := if (trim v.payee).isEmpty then none else some (inject env vars v.payee)
    let comment := if (trim v.comment).isEmpty then none else some (inject env vars v.comment)
    let ps ← recordPostings env v vars known (env.ord v.accounts)
    let ps ← completePostings ps.reverse
    pure (Entry.new date status description payee ps comment)

mutual
/-- importer.rs:359-479 `get_entry_from_record` -/
def Rules.entry (env : Env) (record known : List Str) : Rules → Res (Entry M)
  | .mk v subs =>
    match SubRules.entry env record known subs with
    | some r => r
    | none => v.entry env record known
/-- importer.rs:364-369: the first subrules that apply. -/
def SubRules.entry (env : Env) (record known : List Str) : SubRules → Option (Res (Entry M))
  | .nil => none
  | .cons ps r rest =>
    if appliesTo env ps record then some (Rules.entry env record known r)
    else SubRules.entry env record known rest
end

/-- importer.rs:53-64: all records must be readable. -/
def readRecords : List (Option (List Str)) → Res (List (List Str))
  | [] => .ok []
  | none :: _ => fail .parse
  | some r :: rs => do
    let rs ← readRecords rs
    pure (r :: rs)

/-- `skip as usize` (importer.rs:54): a negative `i32` becomes a huge number. -/
def asUsize (i : Int) : Nat := if i < 0 then (2 ^ 64 + i).toNat else i.toNat

/-- importer.rs:43-71 `from_strs` -/
def importerFromStrs (env : Env) (w : World) (fuel : Nat) (csv rules : Str) :
    Res (Rules × List (List Str)) := do
  let r ← addLines (addRulesFile w fuel) (lines rules) Rules.default .root
  let recs ← readRecords ((env.csv csv).drop (asUsize r.vals.skip))
  pure (r, recs)

/-- importer.rs:17-41 `from_file`, `from_file_with_rules`, 26-28 `get_sibling_rules_path` -/
def importerFromFile (env : Env) (w : World) (fuel : Nat) (csvFile : Str) (rulesFile : Option Str) :
    Res (Rules × List (List Str)) :=
  match w.read csvFile with
  | none => fail .file
  | some csv =>
    match w.read (rulesFile.getD (csvFile ++ s%".rules")) with
    | none => fail .file
    | some rules => importerFromStrs env w fuel csv rules

end Silverfox
