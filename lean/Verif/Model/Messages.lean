import Verif.Model.Flags

/-
errors.rs, and the message and context of every error in the program.

The rest of the model only keeps which kind of error a function returns (`ErrKind`). Here, for every
function that can return an error, a function `…Why` gives the error value itself: `none` when the
function succeeds or panics. `Proofs/Messages.lean` proves that the two agree (`Tells`).
-/

namespace Silverfox

/-- errors.rs:71-75, 102-106, 147-151: the fields of `ParseError`, `ValidationError` and
`ProcessingError`. -/
structure Info where
  context : Option Str
  message : Option Str
deriving DecidableEq

/-- errors.rs:9-17 `SilverfoxError`. The variant `Csv` is never made: the importer turns csv errors
into parse errors (importer.rs:57-62). The `io::Error` of a file error is left to `Texts.io`. -/
inductive Err where
  | basic (s : Str)
  | parse (i : Info)
  | validation (i : Info)
  | processing (i : Info)
  | file (path : Str)
deriving DecidableEq

/-- The variant. -/
def Err.kind : Err → ErrKind
  | .basic _ => .basic
  | .parse _ => .parse
  | .validation _ => .validation
  | .processing _ => .processing
  | .file _ => .file

/-- Texts made by the libraries. -/
structure Texts where
  /-- the `io::Error` for a path -/
  io : Str → Str
  /-- chrono's `ParseError` -/
  date : (s fmt : Str) → Str
  /-- `ParseIntError` -/
  int : Str → Str
  /-- `csv::Error`, for a csv text -/
  csv : Str → Str

/-- errors.rs:79-101 `Display for ParseError` -/
def displayParse : Info → Str
  | ⟨some c, some m⟩ => s%"silverfox couldn't understand the following:\n\n" ++ c ++ s%"\n\n" ++ m
  | ⟨none, some m⟩ => s%"silverfox ran across an issue in your journal: " ++ m
  | ⟨some c, none⟩ =>
    s%"silverfox couldn't understand this:\n\n" ++ c ++ s%"\n\nbut no explanation was provided"
  | ⟨none, none⟩ => s%"silverfox couldn't parse something, but no information was provided"

/-- errors.rs:138-160 `Display for ValidationError` -/
def displayValidation : Info → Str
  | ⟨some c, some m⟩ => s%"the following is invalid to silverfox:\n\n" ++ c ++ s%"\n\n" ++ m
  | ⟨none, some m⟩ => s%"silverfox flagged your journal file as invalid: " ++ m
  | ⟨some c, none⟩ =>
    s%"the following is invalid to silverfox:\n\n" ++ c ++
      s%"\n\nbut no further information was provided"
  | ⟨none, none⟩ => s%"silverfox found something invalid, but no information was provided"

/-- errors.rs:196-225 `Display for ProcessingError` -/
def displayProcessing : Info → Str
  | ⟨some c, some m⟩ =>
    s%"looks like your journal is all valid, but this couldn't be processed:\n\n" ++ c ++
      s%"\n\n" ++ m
  | ⟨none, some m⟩ => s%"your journal is valid, but silverfox couldn't process this: " ++ m
  | ⟨some c, none⟩ =>
    s%"your journal is valid, but silverfox couldn't process this:\n\n" ++ c ++
      s%"\n\nno further information was provided"
  | ⟨none, none⟩ => s%"your journal is valid, but silverfox couldn't process something. \
      no information was provided. file an issue?"

/-- errors.rs:45-61 `Display for SilverfoxError` -/
def Err.display (T : Texts) : Err → Str
  | .basic s => s
  | .parse i => displayParse i
  | .validation i => displayValidation i
  | .processing i => displayProcessing i
  | .file p => s%"silverfox encountered an i/o error: " ++ T.io p ++ s%"\n(file: " ++ p ++ s%")"

/-- `format!("`{}`", s)` -/
def ticked (s : Str) : Str := '`' :: (s ++ ['`'])

/-- A parse error with a context. -/
def parseAt (context message : Str) : Option Err := some (.parse ⟨some context, some message⟩)

/-- A parse error without a context. -/
def parseErr (message : Str) : Option Err := some (.parse ⟨none, some message⟩)

/-- `?`: the error `w` of a failed `r`, or what comes after it. -/
def whyThen {α : Type} (r : Res α) (w : Option Err) (k : α → Option Err) : Option Err :=
  match r with
  | .ok a => k a
  | .error (.err _) => w
  | .error .panic => none

section
variable (M : Type) [Mag M]

/-- amount.rs:13-63 -/
def amountWhy (s : Str) (dec : Char) : Option Err :=
  let shown := replaceAll s%"--" [] s
  match amountClump s with
  | none => parseAt shown s%"this amount isn't valid"
  | some clump =>
    match (Mag.parse (rawMag dec clump) : Option M) with
    | none => parseAt shown s%"couldn't parse magnitude of amount"
    | some _ => none

/-- posting.rs:29-64 -/
def envPostingWhy (line : Str) (dec : Char) : Option Err :=
  match (splitWs line).drop 1 with
  | [] => parseAt line s%"probably missing an account name"
  | [_] => parseAt line s%"probably missing an envelope name"
  | _ :: _ :: rest => amountWhy M rest.flatten dec

/-- posting.rs:425-451 -/
def extractWhy (toks : List Str) (dec : Char) (want : Str) (stop : Str → Bool) : Option Err :=
  match toks.dropWhile (fun t => t != want) with
  | [] => none
  | _ :: useful => amountWhy M (joinWith [' '] (useful.takeWhile fun t => !stop t)) dec

/-- posting.rs:247-272 -/
def classicAmountWhy (toks : List Str) (dec : Char) : Option Err :=
  let raw := joinWith [' '] (toks.takeWhile fun t => !isOp t)
  if (trim raw).isEmpty then none else amountWhy M raw dec

/-- posting.rs:298-305 -/
def balanceWhy (toks : List Str) (dec : Char) : Option Err :=
  extractWhy M toks dec s%"!" fun t => t == s%"!!" || t == s%"@" || t == s%"="

/-- posting.rs:307-318 -/
def priceWhy (toks : List Str) (dec : Char) : Option Err :=
  extractWhy M toks dec s%"@" fun t => t == s%"!" || t == s%"!!" || t == s%"="

/-- posting.rs:320-331 -/
def totalWhy (toks : List Str) (dec : Char) : Option Err :=
  extractWhy M toks dec s%"=" fun t => t == s%"!" || t == s%"!!" || t == s%"@"

/-- posting.rs:282-293 -/
def costWhy (toks : List Str) (dec : Char) : Option Err :=
  whyThen (Classic.parsePrice toks dec : Res (Option (Cost M))) (priceWhy M toks dec) fun
    | some _ => none
    | none => totalWhy M toks dec

/-- posting.rs:222-245, 333-343 -/
def classicWhy (line : Str) (dec : Char) (accounts : List Str) : Option Err :=
  match splitWs (trim (removeComments line)) with
  | [] => none
  | account :: toks =>
    whyThen (Classic.parseAmount toks dec : Res (Option (Amount M))) (classicAmountWhy M toks dec)
      fun _ =>
    whyThen (Classic.parseBalance toks dec : Res (Option (Amount M))) (balanceWhy M toks dec)
      fun _ =>
    whyThen (Classic.parseCost toks dec : Res (Option (Cost M))) (costWhy M toks dec) fun _ =>
    if accounts.contains account then none
    else some (.validation ⟨none,
      some (s%"the account " ++ ticked account ++ s%" is not defined in your journal")⟩)

/-- posting.rs:111-139 -/
def postingWhy (line : Str) (dec : Char) (accounts : List Str) : Option Err :=
  let line := trim (removeComments line)
  match splitWs line with
  | [] => parseErr s%"nothing to parse for a Posting"
  | t :: _ => if t = s%"envelope" then envPostingWhy M line dec else classicWhy M line dec accounts

/-- entry.rs:33-49 -/
def statusWhy (s : Str) : Option Err :=
  match Status.parse s with
  | .ok _ => none
  | .error _ => parseErr (s%"silverfox requires statuses on entries and " ++ ticked s ++
      s%" is not a status that silverfox understands")

/-- entry.rs:182-202 -/
def descriptionWhy (s header : Str) : Option Err :=
  match find s%"[" s with
  | none => none
  | some _ =>
    match rfind s%"]" s with
    | none => parseAt header s%"silverfox wanted to parse a payee in this header, but couldn't \
        because it wasn't given a closing square bracket: ]"
    | some _ => none

/-- entry.rs:153-212 -/
def headerWhy (env : Env) (header fmt : Str) : Option Err :=
  match splitWs (removeComments header) with
  | [] => parseErr s%"couldn't parse an entry header because it's blank.\nthis is an error with \
      silverfox's programming; please report it!"
  | t0 :: rest =>
    match env.parseDate t0 fmt with
    | none => parseAt (removeComments header)
        (s%"couldn't parse date " ++ ticked t0 ++ s%" with format " ++ ticked fmt)
    | some _ =>
      match rest with
      | [] => none
      | t1 :: toks =>
        whyThen (Status.parse t1) (statusWhy t1) fun _ =>
        descriptionWhy (joinWith [' '] toks) header

/-- entry.rs:131-145 -/
def postingsWhy (dec : Char) (accounts : List Str) : List Str → Option Err
  | [] => none
  | l :: ls =>
    if (trim l).isEmpty then postingsWhy dec accounts ls
    else whyThen (Posting.parse l dec accounts : Res (Posting M)) (postingWhy M l dec accounts)
      fun _ => postingsWhy dec accounts ls

/-- entry.rs:282-312 -/
def validateWhy (e : Entry M) (context : Str) : Option Err :=
  whyThen (validateLoop e.postings 0 [])
    (some (.validation ⟨some context,
      some s%"a single entry can't have more than one blank posting"⟩))
    fun (blanks, syms) =>
    if blanks > 0 ∧ syms.length > 1 then
      some (.validation ⟨some context, some s%"silverfox can't infer the amount of a blank posting \
        when other postings have mixed currencies"⟩)
    else none

/-- entry.rs:104-151 -/
def entryWhy (env : Env) (chunk fmt : Str) (dec : Char) (accounts : List Str) : Option Err :=
  let t := trim chunk
  if t.isEmpty then parseErr s%"entry to parse is completely empty. this is an error with \
    silverfox's programming. please report it!"
  else match lines t with
    | [] => parseAt chunk s%"header couldn't be parsed because it doesn't exist. this is an error \
        with silverfox's programming. please report it!"
    | l :: ls =>
      whyThen (Entry.parseHeader env l fmt : Res (Entry M)) (headerWhy env l fmt) fun e =>
      whyThen (Entry.parsePostings dec accounts ls : Res (List (Posting M)))
        (postingsWhy M dec accounts ls) fun ps =>
      validateWhy M { e with postings := ps } chunk

variable {M}

/-- entry.rs:314-330 `as_full_string` -/
def Entry.fullString (e : Entry M) : Str :=
  e.date.iso ++ ' ' :: e.status.toChar :: ' ' :: e.description ++ s%" [" ++
    e.payee.getD s%"No payee" ++ s%"]" ++ (e.postings.map fun p => '\n' :: '\t' :: p.display).flatten

/-- A processing error about an entry. -/
def processingAt (e : Entry M) (message : Str) : Option Err :=
  some (.processing ⟨some (e.fullString), some message⟩)

/-- entry.rs:214-273 -/
def blankWhy (e : Entry M) : Option Err :=
  if !e.hasBlank then none
  else if e.hasMixed then
    whyThen (blankMixed e.postings (Mag.zero : M))
      (processingAt e s%"silverfox couldn't infer a value for an entry's blank posting amount. \
there are\nmultiple currencies in this entry, but one posting does not provide its\ncurrency's worth \
in your native currency.")
      fun _ => none
  else none

/-- envelope.rs:77-91 -/
def kindWhy (s : Str) : Option Err :=
  match EnvelopeKind.parse s with
  | .ok _ => none
  | .error _ =>
    parseAt s s%"this envelope type doesn't exist; instead use either `expense` or `goal`"

/-- envelope.rs:100-112 -/
def fundingWhy (s : Str) : Option Err :=
  match Funding.parse s with
  | .ok _ => none
  | .error _ => parseAt s s%"this funding method doesn't exist"

/-- envelope.rs:129-190 -/
def frequencyWhy (env : Env) (s fmt : Str) (starting : Option Date) : Option Err :=
  match stripPrefix s%"every other " s with
  | some what =>
    match starting with
    | none => parseAt s s%"a `starting` clause is required for `every other` frequencies so \
        silverfox knows which weeks or months to use"
    | some _ =>
      if (Weekday.parse what).isSome then none
      else if (Frequency.parseDayOfMonth what).isSome then none
      else parseAt s s%"invalid frequency"
  | none =>
    match stripPrefix s%"every " s with
    | some what =>
      match Weekday.parse what with
      | some _ => none
      | none =>
        match Frequency.parseDayOfMonth what with
        | some _ => none
        | none =>
          if what = s%"year" then
            match starting with
            | some _ => none
            | none => parseAt s s%"envelopes due annually require a `starting` date so that \
                silverfox knows which day of the year the envelope is due"
          else parseAt s s%"invalid frequency"
    | none =>
      match env.parseDate s fmt with
      | some _ => none
      | none => parseErr (s%"couldn't parse " ++ ticked s ++ s%" with format " ++ ticked fmt)

/-- envelope.rs:568-593 -/
def startingWhy (env : Env) (s fmt : Str) : Option Err :=
  match find s%" starting " s with
  | none => none
  | some i =>
    match env.parseDate (s.drop (i + 10)) fmt with
    | some _ => none
    | none => parseAt s
        (s%"couldn't parse starting date " ++ ticked s ++ s%" with format " ++ ticked fmt)

/-- envelope.rs:539-564 -/
def extractFrequencyWhy (env : Env) (header fmt : Str) (starting : Option Date) : Option Err :=
  let h := removeComments header
  if containsStr s%"no date" h then none
  else match rfind s%" by " h with
    | some i => frequencyWhy env (h.drop (i + 4)) fmt starting
    | none =>
      match rfind s%" due " h with
      | some i => frequencyWhy env (h.drop (i + 5)) fmt starting
      | none => parseAt h s%"couldn't figure out when this envelope is due; use `no date` if you \
          don't want to specify a due date"

/-- envelope.rs:395-444 -/
def envelopeHeaderWhy (env : Env) (header fmt : Str) : Option Err :=
  match splitWs (removeComments header) with
  | t0 :: _ :: _ =>
    whyThen (EnvelopeKind.parse t0) (kindWhy t0) fun _ =>
    whyThen (Envelope.extractStarting env header fmt) (startingWhy env header fmt) fun st =>
    match st with
    | some (d, i) => extractFrequencyWhy env (header.take i) fmt (some d)
    | none => extractFrequencyWhy env header fmt none
  | _ => parseAt header s%"blank envelope header"

/-- envelope.rs:513-537 -/
def addAccountWhy (s : Str) : Option Err :=
  match splitWs s with
  | [_] => none
  | [] => parseAt s s%"a `for` property is blank"
  | _ => parseAt s s%"remember that account names can't contain spaces; this `for` property \
      couldn't be parsed correctly"

variable (M) in
/-- envelope.rs:453-507. The name and the account are those of the envelope. -/
def bodyLineWhy (name account : Str) (dec : Char) (line : Str) : Option Err :=
  let t := trim (removeComments line)
  match splitWs t with
  | [] => none
  | key :: more =>
    match find s%" " t with
    | none => parseErr (s%"the property " ++ ticked key ++ s%" to an envelope (" ++ ticked name ++
        s%" in " ++ account ++ s%") is blank")
    | some i =>
      let value := t.drop i
      if more.isEmpty then none
      else if key = s%"for" then addAccountWhy value
      else if key = s%"amount" then amountWhy M value dec
      else if key = s%"funding" then fundingWhy value
      else parseErr (s%"the " ++ ticked key ++ s%" property isn't understood by silverfox")

/-- envelope.rs:446-511 -/
def bodyWhy (account : Str) (dec : Char) : List Str → Envelope M → Option Err
  | [], _ => none
  | l :: ls, e =>
    whyThen (e.addBodyLine dec l) (bodyLineWhy M e.name account dec l) fun e =>
    bodyWhy account dec ls e

variable (M) in
/-- envelope.rs:358-387 -/
def envelopeWhy (env : Env) (chunk account : Str) (dec : Char) (fmt : Str) : Option Err :=
  match lines (trim chunk) with
  | [] => parseAt (trim chunk) s%"envelope header can't be parsed because it doesn't exist"
  | l :: ls =>
    whyThen (Envelope.fromHeader env l fmt account : Res (Envelope M)) (envelopeHeaderWhy env l fmt)
      fun e => bodyWhy account dec (lines (joinWith ['\n'] ls)) e

/-- account.rs:87-105 -/
def accountHeaderWhy (line : Str) : Option Err :=
  match splitWs (removeComments line) with
  | [_, _] => none
  | _ :: _ :: _ :: _ => parseAt (removeComments line)
      s%"accounts can't have spaces in them; use underscores instead: _"
  | _ => parseAt (removeComments line) s%"blank account definition"

/-- account.rs:111-133 -/
def addEnvelopeWhy (a : Account M) (e : Envelope M) : Option Err :=
  match a.addEnvelope e with
  | .ok _ => none
  | .error _ => some (.validation ⟨none, some (s%"there's a duplicate envelope definition for " ++
      ticked e.name ++ s%" in the account " ++ ticked a.name)⟩)

/-- account.rs:50-62, 71-79 -/
def flushWhy (env : Env) (a : Account M) (chunk : Str) (dec : Char) (fmt : Str) : Option Err :=
  if (trim chunk).isEmpty then none
  else whyThen (Envelope.parse env chunk a.name dec fmt : Res (Envelope M))
    (envelopeWhy M env chunk a.name dec fmt) fun e => addEnvelopeWhy a e

/-- account.rs:46-79 -/
def accountLinesWhy (env : Env) (dec : Char) (fmt : Str) :
    List Str → Account M → Str → Option Err
  | [], a, chunk => flushWhy env a chunk dec fmt
  | l :: ls, a, chunk =>
    if startsWith s%"expense" (trim l) || startsWith s%"goal" (trim l) then
      whyThen (a.flush env chunk dec fmt) (flushWhy env a chunk dec fmt) fun a =>
      accountLinesWhy env dec fmt ls a l
    else accountLinesWhy env dec fmt ls a (chunk ++ '\n' :: l)

variable (M) in
/-- account.rs:20-84 -/
def accountWhy (env : Env) (chunk : Str) (dec : Char) (fmt : Str) : Option Err :=
  match lines chunk with
  | [] => parseAt chunk s%"account header can't be parsed because it doesn't exist"
  | h :: ls =>
    whyThen (Account.parseHeader h) (accountHeaderWhy h) fun name =>
    accountLinesWhy env dec fmt ls (⟨name, [], [], []⟩ : Account M) []

/-- envelope.rs:683-712: the amount is in the wrong currency. -/
def convertWhy (e : Envelope M) (entry : Entry M) (p : Posting M) (a : Amount M) :
    Option Err :=
  if a.sym = e.amount.sym then none
  else if e.amount.sym.isSome then
    processingAt entry (s%"the envelope " ++ ticked e.name ++ s%" in " ++ ticked e.account ++
      s%" was set up with a currency that isn't your native\ncurrency. furthermore, this entry \
contains postings with accounts that relate to\nthe envelope, but silverfox could not move money \
automatically because the\npostings use currencies that cannot be converted to the currency of the\n\
envelope. hopefully that all makes sense!")
  else match p.nativeValue with
    | some _ => none
    | none => processingAt entry s%"silverfox wants to infer how much money to move to or from \
an envelope, but\n                can't; you'll need to specify a manual envelope posting here with \
the correct\n                amount"

/-- envelope.rs:675-712 -/
def inferAmountWhy (e : Envelope M) (entry : Entry M) (p : Posting M) : Option Err :=
  match p.amount with
  | some a => convertWhy e entry p a
  | none => whyThen entry.blankAmount (blankWhy entry) fun b =>
    whyThen (unwrap b) none (convertWhy e entry p)

/-- envelope.rs:674-719 -/
def inferLoopWhy (e : Envelope M) (entry : Entry M) :
    List (Posting M) → Amount M → Amount M → Option Err
  | [], _, _ => none
  | p :: ps, self, auto =>
    whyThen (e.inferAmount entry p) (inferAmountWhy e entry p) fun a =>
    if p.account = e.account then
      whyThen (self.add a) none fun self => inferLoopWhy e entry ps self auto
    else if e.auto.contains p.account then
      whyThen (auto.add a) none fun auto => inferLoopWhy e entry ps self auto
    else inferLoopWhy e entry ps self auto

/-- envelope.rs:637-747; `apply_amount` returns no errors. -/
def inferWhy (e : Envelope M) (entry : Entry M) : Option Err :=
  let selfCount := entry.postings.countP fun p => p.account = e.account
  let autoCount := entry.postings.countP fun p =>
    decide (p.account ≠ e.account) && e.auto.contains p.account
  if selfCount < 1 ∨ autoCount < 1 then none
  else
    let z : Amount M := ⟨Mag.zero, e.amount.sym⟩
    inferLoopWhy e entry entry.postings z z

/-- envelope.rs:608-615; `process_manual_postings` returns no errors. -/
def envelopeEntryWhy (e : Envelope M) (entry : Entry M) : Option Err :=
  if entry.hasEnvelopePosting then none else inferWhy e entry

/-- account.rs:138-144 -/
def envelopesEntryWhy (today : Date) (entry : Entry M) :
    List (Envelope M) → Option Err
  | [] => none
  | e :: es =>
    whyThen (e.processEntry today entry) (envelopeEntryWhy e entry) fun _ =>
    envelopesEntryWhy today entry es

/-- account.rs:146-161 -/
def realWhy (name : Str) (entry : Entry M) : List (Posting M) → Option Err
  | [] => none
  | p :: ps =>
    if p.account = name ∧ p.isEnvelope = false ∧ p.amount.isNone then
      whyThen entry.blankAmount (blankWhy entry) fun _ => realWhy name entry ps
    else realWhy name entry ps

/-- account.rs:137-164 -/
def accountEntryWhy (today : Date) (entry : Entry M) (a : Account M) : Option Err :=
  whyThen (Account.processEnvelopes today entry a.expenses)
    (envelopesEntryWhy today entry a.expenses) fun _ =>
  whyThen (Account.processEnvelopes today entry a.goals)
    (envelopesEntryWhy today entry a.goals) fun _ =>
  realWhy a.name entry entry.postings

/-- ledger/mod.rs:174-178 -/
def processAllWhy (today : Date) (e : Entry M) : List (Str × Account M) → Option Err
  | [] => none
  | (_, a) :: rest =>
    whyThen (a.processEntry today e) (accountEntryWhy today e a) fun _ =>
    processAllWhy today e rest

/-- ledger/mod.rs:173-182 -/
def addEntryWhy (env : Env) (l : Ledger M) (e : Entry M) : Option Err :=
  whyThen (Ledger.processAll env.today e (env.ord l.accounts))
    (processAllWhy env.today e (env.ord l.accounts)) fun _ =>
  processAllWhy env.today e l.accounts

/-- ledger/mod.rs:158-168 -/
def parseEntryWhy (env : Env) (l : Ledger M) (chunk : Str) : Option Err :=
  whyThen (Entry.parse env chunk l.dateFormat l.decimal l.accountNames : Res (Entry M))
    (entryWhy M env chunk l.dateFormat l.decimal l.accountNames) fun e =>
  addEntryWhy env l e

/-- ledger/mod.rs:102-156; `inc` is the error of an included file. -/
def chunkWhy (env : Env) (inc : Ledger M × World → Str → Option Err)
    (st : Ledger M × World) (chunk : Str) : Option Err :=
  if chunk.isEmpty then none
  else match splitWs chunk with
    | [] => none
    | kw :: rest =>
      if kw = s%"account" then accountWhy M env chunk st.1.decimal st.1.dateFormat
      else if kw = s%"currency" then
        match rest with
        | _ :: _ => none
        | [] => parseErr s%"no currency provided, but currency keyword was found"
      else if kw = s%"date_format" then
        match rest with
        | _ :: _ => none
        | [] => parseErr s%"no date format provided, but date_format keyword was found"
      else if kw = s%"include" then
        match rest with
        | v :: _ => inc st v
        | [] => parseErr s%"no file provided to an `include` clause"
      else parseEntryWhy env st.1 chunk

/-- ledger/mod.rs:66-95 -/
def linesWhy (env : Env) (incR : Ledger M × World → Str → Res (Ledger M × World))
    (inc : Ledger M × World → Str → Option Err) :
    List Str → Ledger M × World → Str → Option Err
  | [], st, chunk => chunkWhy env inc st chunk
  | l :: ls, st, chunk =>
    let l := removeComments (trimEnd l)
    match l with
    | [] => linesWhy env incR inc ls st chunk
    | c :: _ =>
      if isWs c then linesWhy env incR inc ls st (chunk ++ '\n' :: l)
      else whyThen (Ledger.parseChunk env incR st chunk) (chunkWhy env inc st chunk) fun st =>
        linesWhy env incR inc ls st l

/-- ledger/mod.rs:54-64 -/
def fileWhy (env : Env) : Nat → Ledger M × World → Str → Option Err
  | 0, _, _ => none
  | f + 1, st, path =>
    match st.2.read path with
    | none => some (.file path)
    | some s => linesWhy env (Ledger.addFromFile env f) (fileWhy env f) (lines s)
        (st.1, st.2.cdParent path) []

variable (M) in
/-- ledger/mod.rs:42-51 -/
def fromFileWhy (env : Env) (fuel : Nat) (w : World) (path : Str) : Option Err :=
  fileWhy env fuel ((Ledger.new path : Ledger M), w) path

/-- ledger/mod.rs:186-197. (A failed write is modelled as a file error; see `World.append`.) -/
def appendWhy (env : Env) (w : World) (l : Ledger M) (e : Entry M) : Option Err :=
  if !(endsInName l.filePath && w.canAppend (resolve w.cwd l.filePath) &&
      (w.file (resolve w.cwd l.filePath)).isSome) then some (.file l.filePath)
  else whyThen (e.asParsable env l.dateFormat) none fun text =>
    match w.append l.filePath ('\n' :: text) with
    | none => some (.file l.filePath)
    | some _ => addEntryWhy env l e

/-- ledger/mod.rs:268-298; making the postings returns no errors. -/
def fillWhy (env : Env) (w : World) (l : Ledger M) : Option Err :=
  whyThen (Ledger.fillAll env.today (env.ord l.accounts)) none fun ps =>
    let ps := ps.filter fun p => !Mag.eq p.amount.mag (Mag.zero : M)
    if ps.isEmpty then none else appendWhy env w l (Ledger.fillEntry env.today ps)

/-- ledger/mod.rs:226-253: only a blank amount can fail. -/
def totalsStepWhy (e : Entry M) (p : Posting M) (tot : List (Str × Pool M)) :
    Option Err :=
  match mapGet tot p.account with
  | some _ =>
    match p.amount with
    | some _ => none
    | none => whyThen e.blankAmount (blankWhy e) fun _ => none
  | none => none

/-- ledger/mod.rs:226-253 -/
def totalsEntryWhy (e : Entry M) :
    List (Posting M) → List (Str × Pool M) → Option Err
  | [], _ => none
  | p :: ps, tot =>
    whyThen (Ledger.totalsStep e p tot) (totalsStepWhy e p tot) fun tot =>
    totalsEntryWhy e ps tot

/-- ledger/mod.rs:225-254 -/
def totalsWhy : List (Entry M) → List (Str × Pool M) → Option Err
  | [], _ => none
  | e :: es, tot =>
    whyThen (Ledger.totalsEntry e e.postings tot) (totalsEntryWhy e e.postings tot) fun tot =>
    totalsWhy es tot

/-- importer.rs:242-286 -/
def resetWhy (name line : Str) : Option Err :=
  if name = s%"comment" ∨ name = s%"note" then none
  else if name = s%"date_format" then none
  else if name = s%"date" then none
  else if name = s%"decimal_symbol" ∨ name = s%"decimal" then none
  else if name = s%"description" then none
  else if name = s%"fields" then
    some (.validation ⟨none, some s%"`fields` cannot be discarded; a value is required"⟩)
  else if name = s%"if" then parseErr s%"nested subrules aren't allowed"
  else if name = s%"payee" then none
  else if name = s%"skip" then none
  else if name = s%"status" then none
  else match stripPrefix s%"amount" name with
    | some _ => none
    | none =>
      match stripPrefix s%"account" name with
      | some _ => none
      | none => parseAt line (ticked name ++ s%" is not a rule that silverfox understands")

/-- importer.rs:288-353 -/
def setWhy (T : Texts) (name value line : Str) : Option Err :=
  if name = s%"comment" ∨ name = s%"note" then none
  else if name = s%"date_format" then none
  else if name = s%"date" then none
  else if name = s%"decimal_symbol" ∨ name = s%"decimal" then
    if utf8Len value > 1 then parseAt line s%"decimal_symbol should be a single character"
    else none
  else if name = s%"description" then none
  else if name = s%"fields" then none
  else if name = s%"if" then parseErr s%"nested subrules aren't allowed"
  else if name = s%"payee" then none
  else if name = s%"skip" then
    match parseI32 value with
    | some _ => none
    | none =>
      parseErr (s%"the `skip` rule couldn't be parsed because of this error: " ++ T.int value)
  else if name = s%"status" then none
  else match stripPrefix s%"amount" name with
    | some _ => none
    | none =>
      match stripPrefix s%"account" name with
      | some _ => none
      | none => parseAt line (ticked name ++ s%" is not a rule that silverfox understands")

/-- importer.rs:219-357 -/
def addLineWhy (T : Texts) (inc : Rules → Str → Option Err) (r : Rules) (line : Str) :
    Option Err :=
  let cut := trimStart line
  whyThen (splitRule line)
    (parseAt cut (s%"this rule has no value. use `-` if you want to discard a value:\n\n" ++
      trim cut ++ s%" -"))
    fun (name, value) =>
    if isInclude name then inc r value
    else if trim value = s%"-" then resetWhy name cut
    else setWhy T name value cut

/-- importer.rs:197-208 -/
def rootLineWhy (T : Texts) (inc : Rules → Str → Option Err) (r : Rules) (l : Str) : Option Err :=
  if startsWith s%"if" l then none else addLineWhy T inc r l

/-- importer.rs:146-208 -/
def stepLineWhy (T : Texts) (inc : Rules → Str → Option Err) (r : Rules) (b : Block) (l : Str) :
    Option Err :=
  let l := removeComments l
  if (trim l).isEmpty then none
  else match b with
    | .sub ps s inRules =>
      if !startsInk l then addLineWhy T inc s l
      else if !inRules then none
      else rootLineWhy T inc (.mk r.vals (r.subs.push ps s)) l
    | .root => rootLineWhy T inc r l

/-- importer.rs:140-217 -/
def ruleLinesWhy (T : Texts) (incR : Rules → Str → Res Rules) (inc : Rules → Str → Option Err) :
    List Str → Rules → Block → Option Err
  | [], _, _ => none
  | l :: ls, r, b =>
    whyThen (stepLine incR r b l) (stepLineWhy T inc r b l) fun (r, b) =>
    ruleLinesWhy T incR inc ls r b

/-- importer.rs:133-138 -/
def rulesFileWhy (T : Texts) (w : World) : Nat → Rules → Str → Option Err
  | 0, _, _ => none
  | f + 1, r, path =>
    match w.read path with
    | none => some (.file path)
    | some s => ruleLinesWhy T (addRulesFile w f) (rulesFileWhy T w f) (lines s) r .root

/-- importer.rs:384-398 -/
def varsWhy : List (Str × Str) → List (Str × Str) → Option Err
  | [], _ => none
  | (n, v) :: rest, vs =>
    if vs.any fun p => p.1 == n then
      parseErr (s%"there is a duplicate field definition in your rules file: " ++ ticked n)
    else varsWhy rest (mapInsert vs n v)

variable (M) in
/-- importer.rs:435-448 -/
def recordPostingsWhy (env : Env) (v : RuleVals) (vars : List (Str × Str)) (known : List Str) :
    List (Str × Str) → Option Err
  | [] => none
  | (i, acc) :: rest =>
    let text := inject env vars (rawPosting v.amounts i acc)
    whyThen (Posting.parse text v.decimal known : Res (Posting M)) (postingWhy M text v.decimal known)
      fun _ => recordPostingsWhy env v vars known rest

/-- importer.rs:453-478. The record is shown as its fields run together (`StringRecord::as_slice`). -/
def completeWhy (ps : List (Posting M)) (record : List Str) : Option Err :=
  match ps with
  | [] => some (.validation ⟨some record.flatten, some s%"this record produced an entry without any \
      postings. make sure you've included rules for `account` and `amount` so that postings can be \
      generated"⟩)
  | [p] =>
    match p.amount with
    | some _ => none
    | none => some (.validation ⟨none, some s%"an entry with only one posting was generated, and that \
        posting had a blank amount. make sure you've included an `amount` rule"⟩)
  | _ => none

variable (M) in
/-- importer.rs:372-478 -/
def valsEntryWhy (T : Texts) (env : Env) (v : RuleVals) (record : List Str) (known : List Str) :
    Option Err :=
  let v := v.withDefaults
  whyThen (recordVars (v.fields.zip record) []) (varsWhy (v.fields.zip record) []) fun vars =>
  let raw := inject env vars v.dateStr
  match env.parseDate raw v.dateFormat with
  | none => parseErr (s%"there was an error parsing " ++ ticked raw ++ s%" with the format " ++
      ticked v.dateFormat ++ s%": " ++ T.date raw v.dateFormat)
  | some _ =>
    whyThen (Status.parse (inject env vars v.status)) (statusWhy (inject env vars v.status)) fun _ =>
    whyThen (recordPostings env v vars known (env.ord v.accounts) : Res (List (Posting M)))
      (recordPostingsWhy M env v vars known (env.ord v.accounts)) fun ps =>
    completeWhy ps.reverse record

end

section
variable (M : Type) [Mag M]

mutual
/-- importer.rs:359-479 -/
def rulesEntryWhy (T : Texts) (env : Env) (record known : List Str) : Rules → Option Err
  | .mk v subs =>
    match subEntryWhy T env record known subs with
    | some r => r
    | none => valsEntryWhy M T env v record known
/-- importer.rs:364-369 -/
def subEntryWhy (T : Texts) (env : Env) (record known : List Str) : SubRules → Option (Option Err)
  | .nil => none
  | .cons ps r rest =>
    if appliesTo env ps record then some (rulesEntryWhy T env record known r)
    else subEntryWhy T env record known rest
end

variable {M}

/-- importer.rs:53-64 -/
def recordsWhy (T : Texts) (csv : Str) : List (Option (List Str)) → Option Err
  | [] => none
  | none :: _ => parseErr (s%"there was an error reading csv records: " ++ T.csv csv)
  | some _ :: rs => recordsWhy T csv rs

/-- importer.rs:17-71 -/
def importerWhy (T : Texts) (env : Env) (w : World) (fuel : Nat) (csvFile : Str)
    (rulesFile : Option Str) : Option Err :=
  match w.read csvFile with
  | none => some (.file csvFile)
  | some csv =>
    let path := rulesFile.getD (csvFile ++ s%".rules")
    match w.read path with
    | none => some (.file path)
    | some rules =>
      whyThen (addLines (addRulesFile w fuel) (lines rules) Rules.default .root)
        (ruleLinesWhy T (addRulesFile w fuel) (rulesFileWhy T w fuel) (lines rules) Rules.default
          .root) fun r =>
      recordsWhy T csv ((env.csv csv).drop (asUsize r.vals.skip))

/-- ledger/mod.rs:313-320 -/
def importLoopWhy (T : Texts) (env : Env) (rules : Rules) (known : List Str) :
    List (List Str) → World → Ledger M → Option Err
  | [], _, _ => none
  | r :: rs, w, l =>
    whyThen (rules.entry env r known : Res (Entry M)) (rulesEntryWhy M T env r known rules) fun e =>
    whyThen (Ledger.appendEntry env w l e).2 (appendWhy env w l e) fun l' =>
    importLoopWhy T env rules known rs (Ledger.appendEntry env w l e).1 l'

/-- ledger/mod.rs:300-323 -/
def importWhy (T : Texts) (env : Env) (fuel : Nat) (w : World) (l : Ledger M) (csv : Str)
    (rules : Option Str) : Option Err :=
  whyThen (importerFromFile env w fuel csv rules) (importerWhy T env w fuel csv rules)
    fun (r, recs) => importLoopWhy T env r l.accountNames recs w l

/-- flags.rs:120-131 `Subcommand::display` -/
def Subcommand.display : Subcommand → Str
  | .summary => s%"summary"
  | .balance => s%"balance"
  | .envelopes => s%"envelopes"
  | .register => s%"register"
  | .import_ => s%"import"
  | .new => s%"new"

/-- flags.rs:88-108. The envelope report returns no errors, the register only panics. -/
def runSubWhy (T : Texts) (env : Env) (o : Outside) (f : Flags) (w : World) (l : Ledger M) :
    Option Err :=
  match f.sub with
  | .balance => totalsWhy l.entries []
  | .envelopes => none
  | .register => none
  | .import_ =>
    match f.csv with
    | none => some (.basic s%"if you're importing a csv file, you need to specify the csv file with \
        the --csv flag")
    | some c => importWhy T env o.fuel w l c f.rules
  | _ => some (.basic (s%"the " ++ ticked f.sub.display ++
      s%" subcommand is recognized by silverfox, but not supported yet. sorry :("))

variable (M) in
/-- flags.rs:74-109 -/
def executeWhy (T : Texts) (env : Env) (o : Outside) (f : Flags) (w : World) : Option Err :=
  match f.file.or o.file with
  | none => some (.basic s%"silverfox wasn't given a file to work with. there are a couple of ways \
you can do this:\n    - use the `-f` flag from the command line (example: `silverfox -f \
./path/to/file.sfox`)\n    - set the environment variable $SILVERFOX_FILE or $LEDGER_FILE to a path \
to a file")
  | some path =>
    whyThen (Ledger.fromFile env o.fuel w path : Res (Ledger M × World))
      (fromFileWhy M env o.fuel w path) fun (l, w) =>
    if f.noMove then runSubWhy T env o f w l
    else
      whyThen (l.fillEnvelopes env w).2 (fillWhy env w l) fun l' =>
      runSubWhy T env o f (l.fillEnvelopes env w).1 l'

/-- flags.rs:139-162 -/
def subcommandWhy (s : Str) : Option Err :=
  match Subcommand.parse s with
  | .ok _ => none
  | .error _ => some (.basic (ticked s ++ s%" is not a recognized subcommand. subcommands need to be \
      the first argument made to silverfox. did you misplace your subcommand?"))

/-- flags.rs:42-69, 183-189 -/
def parseFlagsWhy : List Str → Option Err
  | [] => none
  | [a] =>
    if a = s%"--no-move" ∨ a = s%"-n" then none
    else some (.basic (s%"no value was supplied for the argument " ++ ticked a))
  | a :: v :: rest =>
    if a = s%"--no-move" ∨ a = s%"-n" then parseFlagsWhy (v :: rest)
    else if a = s%"-f" ∨ a = s%"--file" then parseFlagsWhy rest
    else if a = s%"--csv-file" ∨ a = s%"--csv" then parseFlagsWhy rest
    else if a = s%"--rules-file" ∨ a = s%"--rules" then parseFlagsWhy rest
    else some (.basic (s%"silverfox doesn't recognize this flag: " ++ ticked a))

/-- flags.rs:21-72 -/
def flagsWhy : List Str → Option Err
  | [] => none
  | s :: rest => whyThen (Subcommand.parse s) (subcommandWhy s) fun _ => parseFlagsWhy rest

variable (M) in
/-- main.rs:12-21: the error that ends the program. -/
def mainWhy (T : Texts) (env : Env) (o : Outside) (args : List Str) (w : World) : Option Err :=
  whyThen (Flags.parse args) (flagsWhy args) fun
    | none => none
    | some f => executeWhy M T env o f w

variable (M) in
/-- main.rs:12-21: what is printed on standard error, unless the program panics (without the final
line feed). -/
def stderrText (T : Texts) (env : Env) (o : Outside) (args : List Str) (w : World) : Option Str :=
  (mainWhy M T env o args w).map (Err.display T)

end

end Silverfox
