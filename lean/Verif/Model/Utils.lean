import Verif.Str

/-
utils.rs
-/

namespace Silverfox

/-- utils.rs:1-24 `remove_comments`: cut at the first `//` or `;`, whichever comes first. Both
searches yield offsets of ASCII characters, so byte and character offsets cut at the same place. -/
def removeComments (s : Str) : Str :=
  let slashes := find s%"//" s
  let semi := find s%";" s
  let cut := match semi, slashes with
    | some i, some j => if i < j then some i else some j
    | some i, none => some i
    | none, c => c
  match cut with
  | some i => s.take i
  | none => s

end Silverfox
