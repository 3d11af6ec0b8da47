import Verif.F64

/-
Magnitudes. The model of silverfox is polymorphic in the type `M` of magnitudes (amount.rs:8
`pub mag: f64`). `F64` is the arithmetic the program runs on; `Rat` is exact arithmetic, for the
properties that speak of exact sums.
-/

namespace Silverfox

/-- The `f64` operations that silverfox uses. No laws. -/
class Mag (M : Type) where
  zero : M
  add : M → M → M
  sub : M → M → M
  mul : M → M → M
  div : M → M → M
  neg : M → M
  abs : M → M
  /-- `<` -/
  lt : M → M → Bool
  /-- `==` -/
  eq : M → M → Bool
  /-- `f64::min` -/
  min : M → M → M
  /-- `f64::max` -/
  max : M → M → M
  /-- `as f64` -/
  ofInt : Int → M
  /-- `f64::round` -/
  round : M → M
  /-- `as usize` -/
  toUsize : M → Nat
  /-- `str::parse::<f64>` on strings of digits, dots and dashes -/
  parse : Str → Option M
  /-- `format!("{}", x)` -/
  fmt : M → Str

instance : Mag F64 where
  zero := F64.zero
  add := F64.add
  sub := F64.sub
  mul := F64.mul
  div := F64.div
  neg := F64.neg
  abs := F64.abs
  lt := F64.lt
  eq := F64.eq
  min := F64.min
  max := F64.max
  ofInt := F64.ofInt
  round := F64.round
  toUsize := F64.toUsize
  parse := F64.parse
  fmt := F64.fmt

/-- Rounding of a rational to the nearest integer, halves away from zero. -/
def ratRound (q : Rat) : Int :=
  if q < 0 then -((-q + 1 / 2).floor) else (q + 1 / 2).floor

/-- The exact value of a numeral. -/
def ratParse (s : Str) : Option Rat :=
  (parseNumeral s).map fun (neg, d, k) =>
    let v : Rat := (d : Rat) / ((10 ^ k : Nat) : Rat)
    if neg then -v else v

/-- Strips the zeros at the end of the decimals, and the dot if none is left:
the largest `j ≤ k` such that `10^j` divides `d`. -/
def stripZeros : Nat → Nat → Nat × Nat
  | d, 0 => (d, 0)
  | d, k + 1 => if d % 10 = 0 then stripZeros (d / 10) k else (d, k + 1)

/-- Text of a rational with at most eight decimals (the only rationals printed: `Display for
Amount` rounds first, amount.rs:83-103). -/
def ratFmt (q : Rat) : Str :=
  let i := ratRound (q * 100000000)
  let (d, k) := stripZeros i.natAbs 8
  (if i < 0 then ['-'] else []) ++ renderDec d k

instance : Mag Rat where
  zero := 0
  add := (· + ·)
  sub := (· - ·)
  mul := (· * ·)
  div := (· / ·)
  neg := (- ·)
  abs q := if q < 0 then -q else q
  lt a b := decide (a < b)
  eq a b := decide (a = b)
  min a b := if b < a then b else a
  max a b := if a < b then b else a
  ofInt i := (i : Rat)
  round q := (ratRound q : Rat)
  toUsize q := Nat.min q.floor.toNat (2 ^ 64 - 1)
  parse := ratParse
  fmt := ratFmt

end Silverfox
