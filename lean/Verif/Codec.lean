import Verif.Model.Csv

/-
A concrete environment, for examples and to show that the assumptions made about dates in some
theorems can be met: `chrono`'s `%Y`, `%m` and `%d` with literal characters in between, and the CSV reader.
-/

namespace Silverfox

/-- An item of a date format. -/
inductive DateItem where
  | year | month | day
  | lit (c : Char)
deriving DecidableEq

/-- The items of a format; other specifiers than `%Y`, `%m`, `%d` are not supported. -/
def dateItems : Str → Option (List DateItem)
  | [] => some []
  | '%' :: 'Y' :: r => (dateItems r).map (.year :: ·)
  | '%' :: 'm' :: r => (dateItems r).map (.month :: ·)
  | '%' :: 'd' :: r => (dateItems r).map (.day :: ·)
  | '%' :: _ => none
  | c :: r => (dateItems r).map (.lit c :: ·)

/-- The text of an item. -/
def fmtItem (a : Date) : DateItem → Str
  | .year => Date.yearStr a.y
  | .month => Date.zpad 2 a.m
  | .day => Date.zpad 2 a.d
  | .lit c => [c]

/-- `date.format(fmt)` -/
def stdFmtDate (a : Date) (fmt : Str) : Option Str :=
  (dateItems fmt).map fun is => (is.map (fmtItem a)).flatten

/-- The fields read so far (chrono's `Parsed`). -/
structure DateFields where
  y : Option Int := none
  m : Option Nat := none
  d : Option Nat := none

/-- Up to `max` leading digits, at least one: their value and the rest. -/
def scanDigits (max : Nat) (s : Str) : Option (Nat × Str) :=
  let ds := (s.take max).takeWhile isDigit
  if ds.isEmpty then none else some (digitsVal ds, s.drop ds.length)

/-- `%Y`: a sign and any number of digits, or up to four digits. -/
def scanYear (s : Str) : Option (Int × Str) :=
  match s with
  | '-' :: r => (scanDigits r.length r).map fun (n, t) => (-(n : Int), t)
  | '+' :: r => (scanDigits r.length r).map fun (n, t) => ((n : Int), t)
  | _ => (scanDigits 4 s).map fun (n, t) => ((n : Int), t)

/-- Set a field; a field given twice must agree. -/
def setField {α : Type} [DecidableEq α] : Option α → α → Option α
  | none, v => some v
  | some u, v => if u = v then some v else none

/-- Read the items one after the other. -/
def parseItems : List DateItem → Str → DateFields → Option (DateFields × Str)
  | [], s, f => some (f, s)
  | .lit c :: is, s, f =>
    match s with
    | [] => none
    | c' :: s => if c = c' then parseItems is s f else none
  | .year :: is, s, f =>
    match scanYear (trimStart s) with
    | none => none
    | some (v, s) =>
      match setField f.y v with
      | none => none
      | some y => parseItems is s { f with y := some y }
  | .month :: is, s, f =>
    match scanDigits 2 (trimStart s) with
    | none => none
    | some (v, s) =>
      match setField f.m v with
      | none => none
      | some m => parseItems is s { f with m := some m }
  | .day :: is, s, f =>
    match scanDigits 2 (trimStart s) with
    | none => none
    | some (v, s) =>
      match setField f.d v with
      | none => none
      | some d => parseItems is s { f with d := some d }

/-- `NaiveDate::parse_from_str`: nothing may be left over, all fields are needed. -/
def stdParseDate (s fmt : Str) : Option Date :=
  match dateItems fmt with
  | none => none
  | some is =>
    match parseItems is s {} with
    | some (⟨some y, some m, some d⟩, []) => Date.ofYmd? y m d
    | _ => none

/-- A concrete environment. -/
def stdEnv (today : Date) : Env where
  today := today
  ord := id
  parseDate := stdParseDate
  fmtDate := stdFmtDate
  lower := fun s => s.map asciiLower
  csv := csvRecords

end Silverfox
