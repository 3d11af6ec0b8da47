import Verif.Str

/-
`chrono::NaiveDate` (chrono 0.4.41): the proleptic Gregorian calendar for the years -262143 to
262142, as far as silverfox uses it.
-/

namespace Silverfox

/-- Leap years of the Gregorian calendar. -/
def isLeap (y : Int) : Bool := y % 4 == 0 && (y % 100 != 0 || y % 400 == 0)

/-- Number of days of a month. -/
def monthLen (y : Int) (m : Nat) : Nat :=
  match m with
  | 2 => if isLeap y then 29 else 28
  | 4 => 30
  | 6 => 30
  | 9 => 30
  | 11 => 30
  | _ => 31

/-- Year of `NaiveDate::MIN`. -/
def minYear : Int := -262143

/-- Year of `NaiveDate::MAX`. -/
def maxYear : Int := 262142

/-- Is there such a date? -/
def validYmd (y : Int) (m d : Nat) : Bool :=
  decide (minYear ≤ y) && decide (y ≤ maxYear) && decide (1 ≤ m) && decide (m ≤ 12) &&
  decide (1 ≤ d) && decide (d ≤ monthLen y m)

/-- A `NaiveDate`. -/
structure Date where
  y : Int
  m : Nat
  d : Nat
  ok : validYmd y m d = true
deriving DecidableEq

/-- Days of the week, `chrono::Weekday`. -/
inductive Weekday where
  | mon | tue | wed | thu | fri | sat | sun
deriving DecidableEq, Repr

namespace Weekday

/-- `Weekday::num_days_from_monday`. -/
def toNat : Weekday → Nat
  | mon => 0 | tue => 1 | wed => 2 | thu => 3 | fri => 4 | sat => 5 | sun => 6

/-- The day of the week a number of days after a Monday. -/
def ofIdx (n : Nat) : Weekday :=
  match n % 7 with
  | 0 => mon | 1 => tue | 2 => wed | 3 => thu | 4 => fri | 5 => sat | _ => sun

/-- The three letters of the short name. -/
def short : Weekday → Str
  | mon => s%"mon" | tue => s%"tue" | wed => s%"wed" | thu => s%"thu" | fri => s%"fri"
  | sat => s%"sat" | sun => s%"sun"

/-- What the long name adds to the short one. -/
def longSuffix : Weekday → Str
  | mon => s%"day" | tue => s%"sday" | wed => s%"nesday" | thu => s%"rsday" | fri => s%"day"
  | sat => s%"urday" | sun => s%"day"

def all : List Weekday := [mon, tue, wed, thu, fri, sat, sun]

/-- `Weekday::from_str`: a short or long English name in any (ASCII) case and nothing else. -/
def parse (s : Str) : Option Weekday :=
  let l := s.map asciiLower
  all.find? fun w => l == w.short || l == w.short ++ w.longSuffix

end Weekday

namespace Date

/-- `NaiveDate::from_ymd_opt`. -/
def ofYmd? (y : Int) (m d : Nat) : Option Date :=
  if h : validYmd y m d = true then some ⟨y, m, d, h⟩ else none

/-- `<` on dates: chronological. -/
def lt (a b : Date) : Bool :=
  decide (a.y < b.y) || (decide (a.y = b.y) &&
    (decide (a.m < b.m) || (decide (a.m = b.m) && decide (a.d < b.d))))

/-- `<=` on dates. -/
def le (a b : Date) : Bool := !(lt b a)

/-- `Ord::max` on dates (returns the second of two equal ones). -/
def max (a b : Date) : Date := if lt b a then a else b

/-- Days of the year before a month. -/
def daysBefore (y : Int) (m : Nat) : Nat :=
  let f := if isLeap y then 1 else 0
  match m with
  | 1 => 0
  | 2 => 31
  | 3 => 59 + f
  | 4 => 90 + f
  | 5 => 120 + f
  | 6 => 151 + f
  | 7 => 181 + f
  | 8 => 212 + f
  | 9 => 243 + f
  | 10 => 273 + f
  | 11 => 304 + f
  | _ => 334 + f

/-- `Datelike::num_days_from_ce`: day 1 is 0001-01-01. -/
def dayNum (a : Date) : Int :=
  365 * (a.y - 1) + (a.y - 1) / 4 - (a.y - 1) / 100 + (a.y - 1) / 400
    + (daysBefore a.y a.m : Int) + (a.d : Int)

/-- `Datelike::weekday`; 0001-01-01 is a Monday. -/
def weekday (a : Date) : Weekday := Weekday.ofIdx ((a.dayNum - 1) % 7).toNat

/-- `NaiveDate::succ_opt`. -/
def succ? (a : Date) : Option Date :=
  if a.d < monthLen a.y a.m then ofYmd? a.y a.m (a.d + 1)
  else if a.m < 12 then ofYmd? a.y (a.m + 1) 1
  else ofYmd? (a.y + 1) 1 1

/-- `NaiveDate::pred_opt`. -/
def pred? (a : Date) : Option Date :=
  if 1 < a.d then ofYmd? a.y a.m (a.d - 1)
  else if 1 < a.m then ofYmd? a.y (a.m - 1) (monthLen a.y (a.m - 1))
  else ofYmd? (a.y - 1) 12 31

/-- `n` days later. -/
def addNat : Nat → Date → Option Date
  | 0, a => some a
  | n + 1, a => (succ? a).bind (addNat n)

/-- `n` days earlier. -/
def subNat : Nat → Date → Option Date
  | 0, a => some a
  | n + 1, a => (pred? a).bind (subNat n)

/-- `date + Duration::days(k)`; `none` is the panic on overflow. -/
def addDays (a : Date) (k : Int) : Option Date :=
  if 0 ≤ k then addNat k.toNat a else subNat (-k).toNat a

/-- `a.signed_duration_since(b).num_days()`. -/
def daysSince (a b : Date) : Int := a.dayNum - b.dayNum

/-- `Datelike::with_day`. -/
def withDay (a : Date) (d : Nat) : Option Date := ofYmd? a.y a.m d

/-- `Datelike::with_year`. -/
def withYear (a : Date) (y : Int) : Option Date := ofYmd? y a.m a.d

/-- A number with leading zeros to a width. -/
def zpad (w n : Nat) : Str := List.replicate (w - (natStr n).length) '0' ++ natStr n

/-- A year as printed by chrono: four digits, with a sign outside 0-9999. -/
def yearStr (y : Int) : Str :=
  if 0 ≤ y ∧ y ≤ 9999 then zpad 4 y.natAbs
  else (if y < 0 then '-' else '+') :: zpad 4 y.natAbs

/-- `Display for NaiveDate`: ISO 8601. -/
def iso (a : Date) : Str := yearStr a.y ++ '-' :: zpad 2 a.m ++ '-' :: zpad 2 a.d

end Date

end Silverfox
