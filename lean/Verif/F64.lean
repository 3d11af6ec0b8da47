import Verif.Str

/-
IEEE-754 binary64, the `f64` of `Amount::mag` (amount.rs:8).

Every finite double is an integer multiple of 2^-1074, so a finite double is modelled as a sign
and a natural number `n` standing for `n * 2^-1074`, where `n` has at most 53 significant bits and
is below 2^2098 (= 2^1024 / 2^-1074). NaN has no payload. Rounding is to nearest, ties to even.
-/

namespace Silverfox

/-- `num / den` rounded to the nearest integer, ties to even. -/
def rne (num den : Nat) : Nat :=
  let q := num / den
  let r := num % den
  if 2 * r < den then q else if den < 2 * r then q + 1 else q + q % 2

/-- The weight (as a power of two) of the last of 53 significant bits of `n`. -/
def ulpExp (n : Nat) : Nat := Nat.log2 n - 52

/-- `n * 2^-1074` is a finite double: 53 significant bits suffice, and no overflow. -/
def rep (n : Nat) : Bool := n % 2 ^ ulpExp n == 0 && Nat.blt n (2 ^ 2098)

/-- The rational `num / den` (in units of 2^-1074) rounded to 53 significant bits,
ties to even, with unbounded exponent. -/
def roundQ (num den : Nat) : Nat :=
  rne num (den * 2 ^ ulpExp (num / den)) * 2 ^ ulpExp (num / den)

/-- A double. -/
inductive F64 where
  | nan
  | inf (neg : Bool)
  | fin (neg : Bool) (n : Nat) (h : rep n = true)
deriving DecidableEq

namespace F64

theorem rep_zero : rep 0 = true := by decide +kernel

/-- Plus or minus zero. -/
def zeroS (neg : Bool) : F64 := .fin neg 0 rep_zero

/-- `0.0` -/
def zero : F64 := zeroS false

/-- Round `± num / den` units of 2^-1074 to a double; overflow gives an infinity. -/
def mkRound (neg : Bool) (num den : Nat) : F64 :=
  if h : rep (roundQ num den) = true then .fin neg (roundQ num den) h else .inf neg

/-- 1.0 in units of 2^-1074. -/
def unit : Nat := 2 ^ 1074

/-- Signed integer. -/
def sgn (neg : Bool) (n : Nat) : Int := if neg then -(n : Int) else (n : Int)

def neg : F64 → F64
  | nan => nan
  | inf s => inf (!s)
  | fin s n h => fin (!s) n h

def abs : F64 → F64
  | nan => nan
  | inf _ => inf false
  | fin _ n h => fin false n h

def add : F64 → F64 → F64
  | nan, _ => nan
  | inf _, nan => nan
  | fin _ _ _, nan => nan
  | inf s, inf t => if s = t then inf s else nan
  | inf s, fin _ _ _ => inf s
  | fin _ _ _, inf t => inf t
  | fin s n _, fin t m _ =>
    let v := sgn s n + sgn t m
    if v = 0 then zeroS (s && t) else mkRound (decide (v < 0)) v.natAbs 1

def sub (a b : F64) : F64 := add a (neg b)

def mul : F64 → F64 → F64
  | nan, _ => nan
  | inf _, nan => nan
  | fin _ _ _, nan => nan
  | inf s, inf t => inf (s != t)
  | inf s, fin t m _ => if m = 0 then nan else inf (s != t)
  | fin s n _, inf t => if n = 0 then nan else inf (s != t)
  | fin s n _, fin t m _ => mkRound (s != t) (n * m) unit

def div : F64 → F64 → F64
  | nan, _ => nan
  | inf _, nan => nan
  | fin _ _ _, nan => nan
  | inf _, inf _ => nan
  | inf s, fin t _ _ => inf (s != t)
  | fin s _ _, inf t => zeroS (s != t)
  | fin s n _, fin t m _ =>
    if m = 0 then (if n = 0 then nan else inf (s != t))
    else mkRound (s != t) (n * unit) m

/-- IEEE `<`: false if an operand is NaN; zeros are equal. -/
def lt : F64 → F64 → Bool
  | nan, _ => false
  | _, nan => false
  | inf s, inf t => s && !t
  | inf s, fin _ _ _ => s
  | fin _ _ _, inf t => !t
  | fin s n _, fin t m _ => decide (sgn s n < sgn t m)

/-- IEEE `==`: false if an operand is NaN; zeros are equal. -/
def eq : F64 → F64 → Bool
  | nan, _ => false
  | _, nan => false
  | inf s, inf t => s == t
  | inf _, fin _ _ _ => false
  | fin _ _ _, inf _ => false
  | fin s n _, fin t m _ => decide (sgn s n = sgn t m)

def isNan : F64 → Bool
  | nan => true
  | _ => false

/-- `f64::min`: a NaN operand is ignored. Of two equal operands (`0.0`, `-0.0`) Rust may return
either; the model returns the first. -/
def min (a b : F64) : F64 := if a.isNan then b else if lt b a then b else a

/-- `f64::max`: a NaN operand is ignored. Of two equal operands the model returns the first. -/
def max (a b : F64) : F64 := if a.isNan then b else if lt a b then b else a

/-- `i as f64` for an integer `i`. -/
def ofInt (i : Int) : F64 := mkRound (decide (i < 0)) (i.natAbs * unit) 1

/-- `f64::round`: to the nearest integer, halves away from zero, keeping the sign. -/
def round : F64 → F64
  | nan => nan
  | inf s => inf s
  | fin s n _ => mkRound s ((2 * n + unit) / (2 * unit) * unit) 1

/-- `x as usize`: truncating, saturating, NaN to 0. -/
def toUsize : F64 → Nat
  | nan => 0
  | inf s => if s then 0 else 2 ^ 64 - 1
  | fin s n _ => if s then 0 else Nat.min (n / unit) (2 ^ 64 - 1)

end F64

/-- A decimal numeral over the alphabet `0-9 . -`, as accepted by `f64::from_str`:
an optional minus, digits, optionally a dot and digits, at least one digit in all.
Result: sign, all digits as one number, number of digits after the dot.
(`f64::from_str` also knows `+`, exponents, `inf` and `nan`; amount.rs:32-41 only ever passes
digits, dots and dashes.) -/
def parseNumeral (s : Str) : Option (Bool × Nat × Nat) :=
  let (neg, r) := match s with
    | '-' :: r => (true, r)
    | _ => (false, s)
  let ip := r.takeWhile isDigit
  match r.dropWhile isDigit with
  | [] => if ip.isEmpty then none else some (neg, digitsVal ip, 0)
  | c :: fp =>
    if c = '.' ∧ fp.all isDigit ∧ ¬ (ip.isEmpty ∧ fp.isEmpty) then
      some (neg, digitsVal (ip ++ fp), fp.length)
    else none

/-- The text of `d * 10^-k` without exponent and, for `d` not divisible by ten, without
superfluous zeros. -/
def renderDec (d k : Nat) : Str :=
  if k = 0 then natStr d
  else
    let ds := natStr d
    let ds := List.replicate (k + 1 - ds.length) '0' ++ ds
    ds.take (ds.length - k) ++ '.' :: ds.drop (ds.length - k)

namespace F64

/-- `str::parse::<f64>()` on the numerals of `parseNumeral`: the nearest double. -/
def parse (s : Str) : Option F64 :=
  (parseNumeral s).map fun (neg, d, k) => mkRound neg (d * unit) (10 ^ k)

/-- Text of a signed decimal. -/
def renderSigned (neg : Bool) (d k : Nat) : Str :=
  (if neg then ['-'] else []) ++ renderDec d k

/-- Least `j` with `n * 10^j ≥ unit`, that is, with `n * 2^-1074 * 10^j ≥ 1`. -/
def leadZeros : Nat → Nat → Nat → Nat
  | 0, _, j => j
  | f + 1, n, j => if unit ≤ n * 10 ^ j then j else leadZeros f n (j + 1)

/-- Number of digits before the dot (at least 1 for numbers from 1 up, at most 0 below 0.1). -/
def decExp (n : Nat) : Int :=
  if unit ≤ n then (natStr (n / unit)).length else 1 - (leadZeros 400 n 0 : Int)

/-- Without a last zero after the dot (which comes from a nine that is rounded up). -/
def dropZero (d : Nat) (k : Int) : Nat × Int := if d % 10 = 0 ∧ 0 < k then (d / 10, k - 1) else (d, k)

/-- The candidate `d` of `p` significant digits (times `10^-k`) as text, if it reads back as the
given double. -/
def tryCand (x : F64) (neg : Bool) (d : Nat) (k : Int) : Option Str :=
  let d' := (dropZero d k).1
  let k' := (dropZero d k).2
  let t := renderSigned neg (if k' < 0 then d' * 10 ^ k'.natAbs else d') k'.toNat
  if parse t = some x then some t else none

/-- Shortest text with `p` significant digits that reads back as `x`, if any; of the two
neighbours the closer one is preferred. -/
def tryDigits (x : F64) (neg : Bool) (n p : Nat) : Option Str :=
  let k : Int := (p : Int) - decExp n
  let num := n * 10 ^ k.toNat
  let den := unit * 10 ^ (-k).toNat
  let d := num / den
  let lo := tryCand x neg d k
  let hi := tryCand x neg (d + 1) k
  if 2 * (num % den) < den then lo.or hi else hi.or lo

/-- The first success among 1, 2, ... digits. -/
def searchDigits (x : F64) (neg : Bool) (n : Nat) : Nat → Nat → Option Str
  | 0, _ => none
  | f + 1, p => (tryDigits x neg n p).or (searchDigits x neg n f (p + 1))

/-- `format!("{}", x)`: the shortest decimal that reads back as `x`, never in exponent form,
without `.0` for integers. Seventeen digits always suffice; the fallback, the exact decimal
expansion, only serves to make the definition total. -/
def fmt (x : F64) : Str :=
  match x with
  | nan => s%"NaN"
  | inf s => if s then s%"-inf" else s%"inf"
  | fin s n _ =>
    if n = 0 then (if s then s%"-0" else s%"0")
    else match searchDigits x s n 17 1 with
      | some t => t
      | none => renderSigned s (n * 5 ^ 1074) 1074

end F64

end Silverfox
