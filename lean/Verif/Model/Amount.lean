import Verif.Model.Env

/-
amount.rs
-/

namespace Silverfox

/-- amount.rs:6-10 -/
structure Amount (M : Type) where
  mag : M
  sym : Option Str
deriving DecidableEq

variable {M : Type} [Mag M]

/-- amount.rs:408-411 `is_mag_char` -/
def isMagChar (dec c : Char) : Bool := isDigit c || c == dec || c == '-'

/-- amount.rs:73-76 `is_symbol_char` -/
def isSymbolChar (dec c : Char) : Bool := !isMagChar dec c && c != '.' && c != ','

/-- amount.rs:15-28: double dashes are deleted, then one or two words are put together. -/
def amountClump (s : Str) : Option Str :=
  match splitWs (replaceAll s%"--" [] s) with
  | [a] => some a
  | [a, b] => some (joinWith [' '] [a, b])
  | _ => none

/-- amount.rs:32-39: the characters of the magnitude, decimal symbol as a dot. -/
def rawMag (dec : Char) (clump : Str) : Str :=
  let r := clump.filter (isMagChar dec)
  if dec != '.' then r.map (fun c => if c = dec then '.' else c) else r

/-- amount.rs:51-60: the symbol. -/
def rawSym (dec : Char) (clump : Str) : Option Str :=
  let t := trim (clump.filter (isSymbolChar dec))
  if t.isEmpty then none else some t

/-- amount.rs:13-63 `Amount::parse` -/
def Amount.parse (s : Str) (dec : Char) : Res (Amount M) :=
  match amountClump s with
  | none => fail .parse
  | some clump =>
    match Mag.parse (rawMag dec clump) with
    | none => fail .parse
    | some m => .ok ⟨m, rawSym dec clump⟩

/-- amount.rs:65-71 `Amount::zero` -/
def Amount.zero : Amount M := ⟨Mag.zero, none⟩

/-- amount.rs:78-80 `rounded_mag` -/
def round8 (m : M) : M :=
  Mag.div (Mag.round (Mag.mul m (Mag.ofInt 100000000))) (Mag.ofInt 100000000)

/-- amount.rs:85-91: the text of the magnitude (the `+` flag is never used in the program). -/
def magText (m : M) : Str :=
  if Mag.lt m (Mag.zero : M) then Mag.fmt (round8 m) else ' ' :: Mag.fmt (round8 m)

/-- amount.rs:83-103 `Display for Amount` -/
def Amount.display (a : Amount M) : Str :=
  match a.sym with
  | some sym =>
    if utf8Len sym ≤ 2 then sym ++ magText a.mag else magText a.mag ++ ' ' :: sym
  | none => magText a.mag

/-- amount.rs:105-116 `Ord for Amount`; the assertion is a panic. -/
def Amount.cmp (a b : Amount M) : Res Ordering :=
  if a.sym = b.sym then
    .ok (if Mag.lt a.mag b.mag then .lt else if Mag.lt b.mag a.mag then .gt else .eq)
  else panicked

/-- amount.rs:124-128 `PartialEq for Amount` -/
def Amount.eqv (a b : Amount M) : Bool := Mag.eq a.mag b.mag && a.sym == b.sym

/-- amount.rs:132-158, 193-219 `+` and `+=` -/
def Amount.add (a b : Amount M) : Res (Amount M) :=
  if a.sym = b.sym then .ok ⟨Mag.add a.mag b.mag, a.sym⟩ else panicked

/-- amount.rs:181-191 unary `-` -/
def Amount.neg (a : Amount M) : Amount M := ⟨Mag.neg a.mag, a.sym⟩

/-- amount.rs:160-167 `-` on values: adds the negation. -/
def Amount.sub (a b : Amount M) : Res (Amount M) := Amount.add a b.neg

/-- amount.rs:169-179, 221-247 `-=`, and `-` on references -/
def Amount.subAssign (a b : Amount M) : Res (Amount M) :=
  if a.sym = b.sym then .ok ⟨Mag.sub a.mag b.mag, a.sym⟩ else panicked

/-- amount.rs:249-254 -/
abbrev Pool (M : Type) := List (Amount M)

namespace Pool

/-- amount.rs:256-275, 285-294 `+` and `+=` of an amount: added to the first line of that symbol, or a
new line. (The assertion inside `+=` of amounts holds for the line that was found.) -/
def add : Pool M → Amount M → Pool M
  | [], a => [a]
  | b :: p, a => if b.sym = a.sym then ⟨Mag.add b.mag a.mag, b.sym⟩ :: p else b :: add p a

/-- amount.rs:277-283, 296-302 `-`: adds the negation. -/
def sub (p : Pool M) (a : Amount M) : Pool M := add p a.neg

/-- amount.rs:304-313 `-=` -/
def subAssign : Pool M → Amount M → Pool M
  | [], a => [a.neg]
  | b :: p, a => if b.sym = a.sym then ⟨Mag.sub b.mag a.mag, b.sym⟩ :: p else b :: subAssign p a

/-- amount.rs:315-327 `+=` of a pool -/
def addPool (p q : Pool M) : Pool M := q.foldl add p

/-- amount.rs:357-363 `only` -/
def only (p : Pool M) (s : Option Str) : Amount M :=
  (p.find? fun a => a.sym == s).getD Amount.zero

/-- amount.rs:369-383 `is_zero` -/
def isZero (p : Pool M) : Bool :=
  if p.isEmpty then true else p.all fun a => Mag.eq a.mag (Mag.zero : M)

/-- amount.rs:386-390 `From<Amount>` -/
def ofAmount (a : Amount M) : Pool M := [a]

/-- amount.rs:392-406 `Display for AmountPool` -/
def display (p : Pool M) : Str :=
  match p with
  | [] => []
  | [a] => a.display
  | _ => (p.map fun a => '\n' :: '\t' :: a.display).flatten

end Pool

end Silverfox
