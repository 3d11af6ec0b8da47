import Verif.Model.Messages

/-
flags.rs: what is printed if there are no arguments
-/

namespace Silverfox

/-- flags.rs:170-181 `display_help`, line by line -/
def helpText : List Str :=
  [s%"hello! i'm silverfox!",
   s%"you can use one of the subcommands to get information about your journal:",
   s%"    (b)alance      display all accounts and their respective values",
   s%"    (e)nvelopes    view your envelopes and how much is saved up in each",
   s%"    (r)egister     list all transactions",
   s%"    (n)ew          add a new transaction to your journal",
   s%"    (i)mport       parse entries from a csv file and add them to your journal"]

/-- flags.rs:21-30 and main.rs:12-21: everything that is printed on standard output. -/
def mainPrints (M : Type) [Mag M] (env : Env) (o : Outside) (args : List Str) (w : World) : List Str :=
  match Flags.parse args with
  | .ok none => helpText
  | _ => match (mainProgram M env o args w).2 with
    | .ok ls => ls
    | .error _ => []

end Silverfox
