import Verif.Model.Env

/-
envelope.rs:114-355: schedules of envelopes.
-/

namespace Silverfox

/-- envelope.rs:114-126 -/
inductive Frequency where
  | never
  | once (d : Date)
  | weekly (w : Weekday)
  | biweekly (start : Date)
  | monthly (day : Nat)
  | bimonthly (start : Date)
  | annually (start : Date)
deriving DecidableEq

namespace Frequency

/-- envelope.rs:200-205 `parse_day_of_month` -/
def parseDayOfMonth (s : Str) : Option Nat := parseU32Digits (s.filter isDigit)

/-- envelope.rs:129-190 `Frequency::parse` -/
def parse (env : Env) (s fmt : Str) (starting : Option Date) : Res Frequency :=
  match stripPrefix s%"every other " s with
  | some what =>
    match starting with
    | none => fail .parse
    | some d =>
      if (Weekday.parse what).isSome then .ok (.biweekly d)
      else if (parseDayOfMonth what).isSome then .ok (.bimonthly d)
      else fail .parse
  | none =>
    match stripPrefix s%"every " s with
    | some what =>
      match Weekday.parse what with
      | some w => .ok (.weekly w)
      | none =>
        match parseDayOfMonth what with
        | some d => .ok (.monthly d)
        | none =>
          if what = s%"year" then
            match starting with
            | some d => .ok (.annually d)
            | none => fail .parse
          else fail .parse
    | none =>
      match env.parseDate s fmt with
      | some d => .ok (.once d)
      | none => fail .parse

/-- envelope.rs:315-321 `get_last_date_of_month` -/
def lastDateOfMonth (a : Date) : Res Date := do
  let first ← match Date.ofYmd? a.y (a.m + 1) 1 with
    | some d => pure d
    | none => unwrap (Date.ofYmd? (a.y + 1) 1 1)
  unwrap first.pred?

/-- envelope.rs:323-354 `next_date_by_day_of_month`. `month0()` is `a.m - 1`. -/
def nextByDayOfMonth (today : Date) (day : Nat) : Res Date := do
  let lastThis ← lastDateOfMonth today
  let dueThis := (today.withDay day).getD lastThis
  if Date.lt today dueThis then pure dueThis
  else
    let ordinal := ((today.m - 1) + 2) % 12 + 1
    let first ← match Date.ofYmd? today.y (today.m + 2) 1 with
      | some d => pure d
      | none => unwrap (Date.ofYmd? (today.y + 1) ordinal 1)
    let lastNext ← unwrap first.pred?
    pure ((lastNext.withDay day).getD lastNext)

/-- envelope.rs:259-261: advance day by day to the weekday. Seven steps always suffice (proved in
`Proofs/Due.lean`); running out of fuel counts as a panic. -/
def weeklyLoop (w : Weekday) : Nat → Date → Res Date
  | 0, _ => panicked
  | f + 1, a =>
    if a.weekday = w then .ok a
    else do
      let b ← unwrap (a.addDays 1)
      weeklyLoop w f b

/-- envelope.rs:286-299: two months later, same day of month or the last day of a shorter month. -/
def plusTwoMonths (a : Date) (day : Nat) : Res Date :=
  let m2 := (a.m - 1) + 2
  let y := a.y + (m2 / 12 : Nat)
  let m := m2 % 12 + 1
  match Date.ofYmd? y m day with
  | some x => .ok x
  | none => do
    let f ← unwrap (Date.ofYmd? y m 1)
    lastDateOfMonth f

/-- envelope.rs:285-300. -/
def bimonthlyLoop (today : Date) (day : Nat) : Nat → Date → Res Date
  | 0, _ => panicked
  | f + 1, a =>
    if Date.lt a today then do
      let b ← plusTwoMonths a day
      bimonthlyLoop today day f b
    else .ok a

/-- envelope.rs:244-313 `get_next_due_date`. `num_weeks` and `/` truncate towards zero. -/
def nextDue (today : Date) : Frequency → Res (Option Date)
  | never => .ok none
  | once d => .ok (if Date.le d today then none else some d)
  | weekly w => do
    let t ← unwrap (today.addDays 1)
    let d ← weeklyLoop w 7 t
    pure (some d)
  | biweekly start => do
    let weeks := (Date.daysSince today start).tdiv 7
    let periods := weeks.tdiv 2
    let d ← unwrap (start.addDays ((periods + 1) * 2 * 7))
    pure (some d)
  | monthly day => do
    let d ← nextByDayOfMonth today day
    pure (some d)
  | bimonthly start =>
    if Date.lt today start then .ok (some start)
    else do
      let d ← bimonthlyLoop today start.d ((Date.daysSince today start).toNat + 1) start
      pure (some d)
  | annually start =>
    if Date.lt today start then .ok (some start)
    else .ok (start.withYear (start.y + 1))

/-- envelope.rs:228-240 `subtract_months` for `num` up to 12 (the program uses 1 and 2), so the loop runs at
most once. -/
def subtractMonths (a : Date) (num : Nat) : Res Date :=
  let m0 : Int := ((a.m - 1 : Nat) : Int) - (num : Int)
  if m0 < 0 then unwrap (Date.ofYmd? (a.y - 1) ((m0 + 12).toNat + 1) a.d)
  else unwrap (Date.ofYmd? a.y (m0.toNat + 1) a.d)

/-- envelope.rs:208-226 `get_last_due_date` -/
def lastDue (today : Date) (f : Frequency) : Res (Option Date) := do
  match ← nextDue today f with
  | some next =>
    match f with
    | weekly _ => do
      let d ← unwrap (next.addDays (-7))
      pure (some d)
    | biweekly _ => do
      let d ← unwrap (next.addDays (-14))
      pure (some d)
    | monthly _ => do
      let d ← subtractMonths next 1
      pure (some d)
    | bimonthly _ => do
      let d ← subtractMonths next 2
      pure (some d)
    | annually s => do
      let d ← unwrap (s.withYear (s.y - 1))
      pure (some d)
    | _ => pure none
  | none =>
    match f with
    | once d => pure (some d)
    | never => pure none
    | _ => panicked

end Frequency

end Silverfox
