import Verif.Model.Entry
import Verif.Model.Frequency

/-
envelope.rs
-/

namespace Silverfox

/-- envelope.rs:71-75 -/
inductive EnvelopeKind where
  | expense | goal
deriving DecidableEq, Repr

/-- envelope.rs:77-91 `EnvelopeType::from_str` -/
def EnvelopeKind.parse (s : Str) : Res EnvelopeKind :=
  if s = s%"expense" then .ok .expense
  else if s = s%"goal" then .ok .goal
  else fail .parse

/-- envelope.rs:93-98 -/
inductive Funding where
  | manual | conservative | aggressive
deriving DecidableEq, Repr

/-- envelope.rs:100-112 `FundingMethod::from_str` -/
def Funding.parse (s : Str) : Res Funding :=
  let t := trim s
  if t = s%"manual" then .ok .manual
  else if t = s%"aggressive" then .ok .aggressive
  else if t = s%"conservative" then .ok .conservative
  else fail .parse

/-- envelope.rs:14-35 -/
structure Envelope (M : Type) where
  name : Str
  amount : Amount M
  kind : EnvelopeKind
  /-- a `HashSet` -/
  auto : List Str
  freq : Frequency
  funding : Funding
  starting : Option Date
  next : Amount M
  now : Amount M
  account : Str
  lastTx : Date
deriving DecidableEq

/-- envelope.rs:441: the first of January of the year 0. -/
def Date.zero : Date := ⟨0, 1, 1, by decide⟩

variable {M : Type} [Mag M]

namespace Envelope

/-- envelope.rs:568-593 `extract_starting`: the date after the first ` starting ` and the place of
that word. -/
def extractStarting (env : Env) (s fmt : Str) : Res (Option (Date × Nat)) :=
  match find s%" starting " s with
  | none => .ok none
  | some i =>
    match env.parseDate (s.drop (i + 10)) fmt with
    | some d => .ok (some (d, i))
    | none => fail .parse

/-- envelope.rs:539-564 `extract_frequency` -/
def extractFrequency (env : Env) (header fmt : Str) (starting : Option Date) : Res Frequency :=
  let h := removeComments header
  if containsStr s%"no date" h then .ok .never
  else match rfind s%" by " h with
    | some i => Frequency.parse env (h.drop (i + 4)) fmt starting
    | none =>
      match rfind s%" due " h with
      | some i => Frequency.parse env (h.drop (i + 5)) fmt starting
      | none => fail .parse

/-- envelope.rs:395-444 `from_header` -/
def fromHeader (env : Env) (header fmt account : Str) : Res (Envelope M) :=
  match splitWs (removeComments header) with
  | t0 :: t1 :: _ => do
    let kind ← EnvelopeKind.parse t0
    let st ← extractStarting env header fmt
    let (starting, header) := match st with
      | some (d, i) => (some d, header.take i)
      | none => (none, header)
    let freq ← extractFrequency env header fmt starting
    pure {
      name := t1, amount := Amount.zero, kind := kind, auto := [], freq := freq,
      funding := .manual, starting := starting, next := Amount.zero, now := Amount.zero,
      account := account, lastTx := Date.zero }
  | _ => fail .parse

/-- envelope.rs:513-537 `add_account` -/
def addAccount (e : Envelope M) (s : Str) : Res (Envelope M) :=
  match splitWs s with
  | [_] => .ok { e with auto := setInsert e.auto (trim s) }
  | _ => fail .parse

/-- envelope.rs:453-507: one line of the body. `line_split[0]` of a blank line is a panic. -/
def addBodyLine (e : Envelope M) (dec : Char) (line : Str) : Res (Envelope M) :=
  let t := trim (removeComments line)
  match splitWs t with
  | [] => panicked
  | key :: more =>
    match find s%" " t with
    | none => fail .parse
    | some i =>
      let value := t.drop i
      if more.isEmpty then .ok e
      else if key = s%"for" then e.addAccount value
      else if key = s%"amount" then do
        let a ← Amount.parse value dec
        pure { e with
          amount := a
          next := { e.next with sym := a.sym }
          now := { e.now with sym := a.sym } }
      else if key = s%"funding" then do
        let f ← Funding.parse value
        pure { e with funding := f }
      else fail .parse

/-- envelope.rs:446-511 `add_body` -/
def addBody (dec : Char) : List Str → Envelope M → Res (Envelope M)
  | [], e => .ok e
  | l :: ls, e => do
    let e ← e.addBodyLine dec l
    addBody dec ls e

/-- envelope.rs:358-387 `Envelope::parse` -/
def parse (env : Env) (chunk account : Str) (dec : Char) (fmt : Str) : Res (Envelope M) :=
  match lines (trim chunk) with
  | [] => fail .parse
  | l :: ls => do
    let e ← fromHeader env l fmt account
    addBody dec (lines (joinWith ['\n'] ls)) e

/-- envelope.rs:862-876 `get_next_due_date` -/
def nextDue (today : Date) (e : Envelope M) : Res (Option Date) :=
  match e.starting with
  | none => e.freq.nextDue today
  | some s => do
    match ← e.freq.nextDue today with
    | none => pure (some s)
    | some d => pure (some (Date.max s d))

/-- envelope.rs:37-55 `Ord for Envelope` -/
def cmp (today : Date) (a b : Envelope M) : Res Ordering := do
  match ← a.nextDue today with
  | none =>
    match ← b.nextDue today with
    | some _ => pure .gt
    | none => pure .eq
  | some d =>
    match ← b.nextDue today with
    | none => pure .lt
    | some d' => pure (if Date.lt d d' then .lt else if Date.lt d' d then .gt else .eq)

/-- envelope.rs:63-67 `PartialEq for Envelope` -/
def eqv (today : Date) (a b : Envelope M) : Res Bool := do
  let x ← a.nextDue today
  let y ← b.nextDue today
  pure (x == y)

/-- envelope.rs:749-771 `apply_amount` -/
def applyAmount (today : Date) (e : Envelope M) (a : Amount M) (date : Date) :
    Res (Envelope M) :=
  if Mag.lt a.mag (Mag.zero : M) then do
    let n ← e.now.add a
    pure { e with now := n, lastTx := date }
  else if Mag.lt (Mag.zero : M) a.mag then do
    match ← e.freq.lastDue today with
    | some d =>
      if Date.lt date d then do
        let n ← e.now.add a
        pure { e with now := n, lastTx := date }
      else do
        let n ← e.next.add a
        pure { e with next := n, lastTx := date }
    | none => do
      let n ← e.next.add a
      pure { e with next := n, lastTx := date }
  else .ok { e with lastTx := date }

/-- envelope.rs:617-635 `process_manual_postings` -/
def processManual (today date : Date) : List (EnvPosting M) → Envelope M → Res (Envelope M)
  | [], e => .ok e
  | p :: ps, e =>
    if p.account = e.account ∧ e.name = p.envelope then do
      let e ← e.applyAmount today p.amount date
      processManual today date ps e
    else processManual today date ps e

/-- envelope.rs:675-712: what a posting adds to the sums: its amount or the inferred one, its
magnitude replaced by the native value if the symbol is not that of the (native) envelope. -/
def inferAmount (e : Envelope M) (entry : Entry M) (p : Posting M) : Res (Amount M) := do
  let a ← match p.amount with
    | some a => pure a
    | none => do
      let b ← entry.blankAmount
      unwrap b
  if a.sym = e.amount.sym then pure a
  else if e.amount.sym.isSome then fail .processing
  else match p.nativeValue with
    | some m => pure { a with mag := m }
    | none => fail .processing

/-- envelope.rs:674-719: the sums over the postings to the envelope's account and to its `for` accounts. -/
def inferLoop (e : Envelope M) (entry : Entry M) :
    List (Posting M) → Amount M → Amount M → Res (Amount M × Amount M)
  | [], self, auto => .ok (self, auto)
  | p :: ps, self, auto => do
    let a ← e.inferAmount entry p
    if p.account = e.account then do
      let self ← self.add a
      inferLoop e entry ps self auto
    else if e.auto.contains p.account then do
      let auto ← auto.add a
      inferLoop e entry ps self auto
    else inferLoop e entry ps self auto

/-- envelope.rs:637-747 `infer` -/
def infer (today : Date) (e : Envelope M) (entry : Entry M) : Res (Envelope M) :=
  let selfCount := entry.postings.countP fun p => p.account = e.account
  let autoCount := entry.postings.countP fun p =>
    decide (p.account ≠ e.account) && e.auto.contains p.account
  if selfCount < 1 ∨ autoCount < 1 then .ok e
  else do
    let z : Amount M := ⟨Mag.zero, e.amount.sym⟩
    let (self, auto) ← e.inferLoop entry entry.postings z z
    let m := Mag.min auto.mag (Mag.abs self.mag)
    if !Mag.eq m (Mag.zero : M) then
      let m := if Mag.lt self.mag (Mag.zero : M) then Mag.neg m else m
      e.applyAmount today ⟨m, e.amount.sym⟩ entry.date
    else pure e

/-- envelope.rs:608-615 `process_entry` -/
def processEntry (today : Date) (e : Envelope M) (entry : Entry M) : Res (Envelope M) :=
  if entry.hasEnvelopePosting then processManual today entry.date entry.envelopePostings e
  else e.infer today entry

/-- envelope.rs:777-779 `get_total_amount_mag` -/
def totalMag (e : Envelope M) : M := Mag.add e.now.mag e.next.mag

/-- envelope.rs:809-815 and 826-830: the chain of `min` and `max`. -/
def fillMag (first available remaining total : M) : M :=
  Mag.max (Mag.max (Mag.min (Mag.min first available) remaining) (Mag.neg total)) Mag.zero

/-- envelope.rs:781-840 `get_filling_amount` -/
def fillingAmount (today : Date) (e : Envelope M) (available : Amount M) : Res (Amount M) :=
  if available.sym ≠ e.amount.sym then panicked
  else do
    let zero : Amount M := ⟨Mag.zero, e.amount.sym⟩
    match ← e.nextDue today with
    | none => pure zero
    | some due =>
      let remaining ← e.amount.sub e.next
      if e.lastTx = today then pure zero
      else match e.funding with
        | .manual => pure zero
        | .aggressive =>
          pure ⟨fillMag e.amount.mag available.mag remaining.mag e.totalMag, e.amount.sym⟩
        | .conservative =>
          let days := Date.daysSince due today
          pure ⟨fillMag (Mag.div remaining.mag (Mag.ofInt days)) available.mag remaining.mag
            e.totalMag, e.amount.sym⟩

/-- envelope.rs:844-848 `get_filling_posting` -/
def fillingPosting (today : Date) (e : Envelope M) (available : Pool M) : Res (EnvPosting M) := do
  let a ← e.fillingAmount today (Pool.only available e.amount.sym)
  pure ⟨e.account, e.name, a⟩

/-- envelope.rs:595-600 `make_bar`. `width - progress` below zero would be a panic (debug build; in a
release build it wraps and `repeat` panics). -/
def makeBar (e : Envelope M) (amt : Amount M) (width : Nat) : Res Str :=
  let w : M := Mag.ofInt width
  let progress := Mag.toUsize
    (Mag.max (Mag.min (Mag.div (Mag.mul amt.mag w) e.amount.mag) w) Mag.zero)
  if width < progress then panicked
  else .ok ('|' :: (List.replicate progress '═' ++ List.replicate (width - progress) ' ') ++ ['|'])

/-- envelope.rs:602-604 `make_text_progress` -/
def textProgress (e : Envelope M) (amt : Amount M) : Str :=
  amt.display ++ s%" / " ++ e.amount.display

/-- envelope.rs:883-912 `Display for Envelope`: three lines. -/
def display (today : Date) (e : Envelope M) : Res (List Str) := do
  let nextD : Amount M := ⟨Mag.add e.next.mag (Mag.min e.now.mag Mag.zero), e.next.sym⟩
  let prelude := match ← e.nextDue today with
    | some d => s%"next (on " ++ d.iso ++ [')']
    | none => s%"next"
  let nextBar ← e.makeBar nextD 40
  let nowD : Amount M := ⟨Mag.max e.now.mag Mag.zero, e.now.sym⟩
  let nowBar ← e.makeBar nowD 40
  pure [s%"    " ++ e.name,
    s%"      " ++ padRight 20 s%"now" ++ ' ' :: padLeft 30 (e.textProgress nowD) ++ ' ' :: nowBar,
    s%"      " ++ padRight 20 prelude ++ ' ' :: padLeft 30 (e.textProgress nextD) ++ ' ' :: nextBar]

end Envelope

end Silverfox
