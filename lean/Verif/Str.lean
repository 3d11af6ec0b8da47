/-
Strings.

Rust's `str` is modelled as the list of its `char`s (Unicode scalar values, which is what Lean's
`Char` is). Only the `str`/`char` methods that silverfox calls are defined here.
Byte offsets matter in a few places of the code; `utf8Len`, `bytesTake` and `bytesDrop` model them.
-/

namespace Silverfox

/-- A Rust string. -/
abbrev Str := List Char

open Lean in
/-- `s%"abc"` is the list literal `['a', 'b', 'c']`, so that the kernel computes with it. -/
macro:max "s%" s:str : term => do
  let cs := s.getString.toList.map fun c => Syntax.mkCharLit c
  let cs := cs.toArray
  `(([$(cs.map fun c => (⟨c.raw⟩ : TSyntax `term)),*] : Str))

/-- `char::is_whitespace`: the Unicode property White_Space. -/
def isWs (c : Char) : Bool :=
  let n := c.toNat
  (9 ≤ n && n ≤ 13) || n == 32 || n == 0x85 || n == 0xA0 || n == 0x1680 ||
  (0x2000 ≤ n && n ≤ 0x200A) || n == 0x2028 || n == 0x2029 || n == 0x202F || n == 0x205F ||
  n == 0x3000

/-- `char::is_ascii_digit`. -/
def isDigit (c : Char) : Bool := 48 ≤ c.toNat && c.toNat ≤ 57

/-- `str::trim_start`. -/
def trimStart (s : Str) : Str := s.dropWhile isWs

/-- `str::trim_end`. -/
def trimEnd (s : Str) : Str := (s.reverse.dropWhile isWs).reverse

/-- `str::trim`. -/
def trim (s : Str) : Str := trimEnd (trimStart s)

/-- Puts `c` in front of the first word of `ts`, or makes it a word of its own. -/
def consHead (c : Char) : List Str → List Str
  | [] => [[c]]
  | t :: ts => (c :: t) :: ts

/-- Does the string start with a character that is not whitespace? -/
def startsInk : Str → Bool
  | [] => false
  | c :: _ => !isWs c

/-- `str::split_whitespace().collect()`: the maximal runs of non-whitespace. -/
def splitWs : Str → List Str
  | [] => []
  | c :: cs =>
    if isWs c then splitWs cs
    else if startsInk cs then consHead c (splitWs cs)
    else [c] :: splitWs cs

/-- `str::lines()`: split after each `\n`; the `\n` and a `\r` right before it are removed; no
empty line after a final `\n`; a lone `\r` stays. -/
def lines : Str → List Str
  | [] => []
  | c :: cs =>
    if c = '\n' then [] :: lines cs
    else if c = '\r' ∧ cs.head? = some '\n' then lines cs
    else consHead c (lines cs)

/-- `[&str]::join(sep)`. -/
def joinWith (sep : Str) : List Str → Str
  | [] => []
  | [t] => t
  | t :: ts => t ++ sep ++ joinWith sep ts

/-- `str::starts_with`. -/
def startsWith (p s : Str) : Bool := p.isPrefixOf s

/-- `str::strip_prefix`. -/
def stripPrefix : Str → Str → Option Str
  | [], s => some s
  | _ :: _, [] => none
  | p :: ps, c :: cs => if p = c then stripPrefix ps cs else none

/-- `str::find(pattern)` as a number of characters (not bytes) before the first occurrence. -/
def find (p : Str) : Str → Option Nat
  | [] => if p.isEmpty then some 0 else none
  | c :: cs =>
    if p.isPrefixOf (c :: cs) then some 0 else (find p cs).map (· + 1)

/-- `str::rfind(pattern)` as a number of characters before the last occurrence. -/
def rfind (p : Str) : Str → Option Nat
  | [] => if p.isEmpty then some 0 else none
  | c :: cs =>
    match rfind p cs with
    | some i => some (i + 1)
    | none => if p.isPrefixOf (c :: cs) then some 0 else none

/-- `str::contains(pattern)`. -/
def containsStr (p s : Str) : Bool := (find p s).isSome

/-- The worker of `replaceAll`: `skip` characters of a match remain to be dropped. -/
def replaceGo (p r : Str) : Nat → Str → Str
  | _, [] => []
  | k + 1, _ :: cs => replaceGo p r k cs
  | 0, c :: cs =>
    if p.isPrefixOf (c :: cs) then r ++ replaceGo p r (p.length - 1) cs
    else c :: replaceGo p r 0 cs

/-- `str::replace(p, r)` for a non-empty pattern `p`: leftmost, non-overlapping. -/
def replaceAll (p r s : Str) : Str := replaceGo p r 0 s

/-- `str::split(char).collect()`. -/
def splitOn (d : Char) : Str → List Str
  | [] => [[]]
  | c :: cs =>
    if c = d then [] :: splitOn d cs
    else consHead c (splitOn d cs)

/-- `str::len()`: the number of bytes. -/
def utf8Len : Str → Nat
  | [] => 0
  | c :: cs => c.utf8Size + utf8Len cs

/-- `&s[..n]` with a byte offset: `none` if `n` is past the end or inside a character (a panic). -/
def bytesTake : Nat → Str → Option Str
  | 0, _ => some []
  | _ + 1, [] => none
  | n + 1, c :: cs =>
    if c.utf8Size ≤ n + 1 then (bytesTake (n + 1 - c.utf8Size) cs).map (c :: ·) else none

/-- `&s[n..]` with a byte offset: `none` if `n` is past the end or inside a character (a panic). -/
def bytesDrop : Nat → Str → Option Str
  | 0, s => some s
  | _ + 1, [] => none
  | n + 1, c :: cs =>
    if c.utf8Size ≤ n + 1 then bytesDrop (n + 1 - c.utf8Size) cs else none

/-- `s.chars().position(|c| c.is_whitespace())`: a number of characters. -/
def posWs : Str → Option Nat
  | [] => none
  | c :: cs => if isWs c then some 0 else (posWs cs).map (· + 1)

/-- The value of a string of ASCII digits, most significant first. -/
def digitsVal (s : Str) : Nat := s.foldl (fun a c => 10 * a + (c.toNat - 48)) 0

/-- `str::parse::<u32>()` on a string of digits only (the only use, envelope.rs:200-205). -/
def parseU32Digits (s : Str) : Option Nat :=
  if s.isEmpty then none
  else if digitsVal s < 2 ^ 32 then some (digitsVal s) else none

/-- `str::parse::<i32>()`: an optional sign, then at least one digit, within range. -/
def parseI32 (s : Str) : Option Int :=
  let (neg, ds) := match s with
    | '-' :: r => (true, r)
    | '+' :: r => (false, r)
    | _ => (false, s)
  if ds.isEmpty || !ds.all isDigit then none
  else
    let v : Int := if neg then -(digitsVal ds : Int) else (digitsVal ds : Int)
    if -(2 ^ 31 : Int) ≤ v ∧ v < 2 ^ 31 then some v else none

/-- ASCII lower-casing of one letter. -/
def asciiLower (c : Char) : Char :=
  if 65 ≤ c.toNat ∧ c.toNat ≤ 90 then Char.ofNat (c.toNat + 32) else c

/-- `format!("{:n$}", s)`: pad on the right with spaces to `n` characters. -/
def padRight (n : Nat) (s : Str) : Str := s ++ List.replicate (n - s.length) ' '

/-- `format!("{:>n$}", s)`: pad on the left with spaces to `n` characters. -/
def padLeft (n : Nat) (s : Str) : Str := List.replicate (n - s.length) ' ' ++ s

/-- Decimal digits of a natural number (`format!("{}", n)`). -/
def natStrGo : Nat → Nat → Str → Str
  | 0, _, acc => acc
  | f + 1, n, acc =>
    let acc := Char.ofNat (48 + n % 10) :: acc
    if n / 10 = 0 then acc else natStrGo f (n / 10) acc

/-- `format!("{}", n)` for an unsigned integer. -/
def natStr (n : Nat) : Str := natStrGo (n + 1) n []

end Silverfox
