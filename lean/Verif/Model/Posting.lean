import Verif.Model.Amount
import Verif.Model.Utils

/-
posting.rs
-/

namespace Silverfox

/-- posting.rs:410-414 -/
inductive Cost (M : Type) where
  | total (a : Amount M)
  | unit (a : Amount M)
deriving DecidableEq

/-- posting.rs:5-11 -/
structure Classic (M : Type) where
  account : Str
  amount : Option (Amount M)
  cost : Option (Cost M)
  balance : Option (Amount M)
deriving DecidableEq

/-- posting.rs:13-18 -/
structure EnvPosting (M : Type) where
  account : Str
  envelope : Str
  amount : Amount M
deriving DecidableEq

/-- posting.rs:92-96 -/
inductive Posting (M : Type) where
  | classic (c : Classic M)
  | envelope (e : EnvPosting M)
deriving DecidableEq

variable {M : Type} [Mag M]

/-- posting.rs:29-64 `EnvelopePosting::parse`. The tokens of the amount are put together without
spaces (line 56). The declared accounts are not consulted. -/
def EnvPosting.parse (line : Str) (dec : Char) : Res (EnvPosting M) :=
  match (splitWs line).drop 1 with
  | [] => fail .parse
  | [_] => fail .parse
  | acc :: env :: rest => do
    let a ← Amount.parse rest.flatten dec
    pure ⟨acc, env, a⟩

/-- posting.rs:425-451 `extract_amount`: the tokens after the first `want`, up to the first token
that satisfies `stop`, read as an amount. -/
def extractAmount (toks : List Str) (dec : Char) (want : Str) (stop : Str → Bool) :
    Res (Option (Amount M)) :=
  match toks.dropWhile (fun t => t != want) with
  | [] => .ok none
  | _ :: useful => do
    let a ← Amount.parse (joinWith [' '] (useful.takeWhile fun t => !stop t)) dec
    pure (some a)

/-- posting.rs:254: the tokens that end the amount. -/
def isOp (t : Str) : Bool := t == s%"@" || t == s%"!" || t == s%"=" || t == s%"!!"

/-- posting.rs:247-272 `parse_amount` -/
def Classic.parseAmount (toks : List Str) (dec : Char) : Res (Option (Amount M)) :=
  let raw := joinWith [' '] (toks.takeWhile fun t => !isOp t)
  if (trim raw).isEmpty then .ok none
  else do
    let a ← Amount.parse raw dec
    pure (some a)

/-- posting.rs:298-305 `parse_balance_assertion_amount` -/
def Classic.parseBalance (toks : List Str) (dec : Char) : Res (Option (Amount M)) :=
  extractAmount toks dec s%"!" fun t => t == s%"!!" || t == s%"@" || t == s%"="

/-- posting.rs:307-318 `parse_price_amount` -/
def Classic.parsePrice (toks : List Str) (dec : Char) : Res (Option (Cost M)) := do
  let a ← extractAmount toks dec s%"@" fun t => t == s%"!" || t == s%"!!" || t == s%"="
  pure (a.map Cost.unit)

/-- posting.rs:320-331 `parse_total_cost_amount` -/
def Classic.parseTotal (toks : List Str) (dec : Char) : Res (Option (Cost M)) := do
  let a ← extractAmount toks dec s%"=" fun t => t == s%"!" || t == s%"!!" || t == s%"@"
  pure (a.map Cost.total)

/-- posting.rs:282-293: the price, or else the total cost. -/
def Classic.parseCost (toks : List Str) (dec : Char) : Res (Option (Cost M)) := do
  match ← Classic.parsePrice toks dec with
  | some c => pure (some c)
  | none => Classic.parseTotal toks dec

/-- posting.rs:222-245 `ClassicPosting::parse` with `parse_assertion_amounts` (274-296) and `validate`
(333-343). `tokens[0]` of a blank line is a panic. -/
def Classic.parse (line : Str) (dec : Char) (accounts : List Str) : Res (Classic M) :=
  match splitWs (trim (removeComments line)) with
  | [] => panicked
  | account :: toks => do
    let amount ← Classic.parseAmount toks dec
    let balance ← Classic.parseBalance toks dec
    let cost ← Classic.parseCost toks dec
    if accounts.contains account then pure ⟨account, amount, cost, balance⟩
    else fail .validation

/-- posting.rs:111-139 `Posting::parse` -/
def Posting.parse (line : Str) (dec : Char) (accounts : List Str) : Res (Posting M) :=
  let line := trim (removeComments line)
  match splitWs line with
  | [] => fail .parse
  | t :: _ =>
    if t = s%"envelope" then do
      let p ← EnvPosting.parse line dec
      pure (.envelope p)
    else do
      let p ← Classic.parse line dec accounts
      pure (.classic p)

/-- posting.rs:144-149 `get_amount` -/
def Posting.amount : Posting M → Option (Amount M)
  | .envelope e => some e.amount
  | .classic c => c.amount

/-- posting.rs:152-157 `get_account` -/
def Posting.account : Posting M → Str
  | .classic c => c.account
  | .envelope e => e.account

/-- posting.rs:345-380 `ClassicPosting::get_original_native_value` -/
def Classic.nativeValue (c : Classic M) : Option M :=
  match c.amount with
  | none => none
  | some a =>
    if a.sym.isNone then some a.mag
    else match c.cost with
      | none => none
      | some (.total b) => if b.sym.isNone then some b.mag else none
      | some (.unit b) => if b.sym.isNone then some (Mag.mul a.mag b.mag) else none

/-- posting.rs:159-164 `get_original_native_value` -/
def Posting.nativeValue : Posting M → Option M
  | .envelope _ => none
  | .classic c => c.nativeValue

/-- posting.rs:180-182 `is_envelope` -/
def Posting.isEnvelope : Posting M → Bool
  | .envelope _ => true
  | .classic _ => false

/-- posting.rs:416-423 `Display for Cost` -/
def Cost.display : Cost M → Str
  | .total a => s%" = " ++ a.display
  | .unit a => s%" @ " ++ a.display

/-- posting.rs:383-401 `Display for ClassicPosting` -/
def Classic.display (c : Classic M) : Str :=
  let am := match c.amount with | some a => a.display | none => []
  let co := match c.cost with | some x => ' ' :: x.display | none => []
  let ba := match c.balance with | some b => s%" ! " ++ b.display | none => []
  padRight 50 c.account ++ ' ' :: (am ++ co ++ ba)

/-- posting.rs:403-408 `Display for EnvelopePosting` -/
def EnvPosting.display (e : EnvPosting M) : Str :=
  padRight 50 (s%"envelope " ++ e.account ++ ' ' :: e.envelope) ++ ' ' :: e.amount.display

/-- posting.rs:176-178, 189-196 `as_parsable`, `Display for Posting` -/
def Posting.display : Posting M → Str
  | .classic c => c.display
  | .envelope e => e.display

end Silverfox
