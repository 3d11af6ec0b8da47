import Verif.Model.Help
import Verif.Props.Reports

/-
C127: the help, and the advice in messages, can be followed.
-/

namespace Silverfox

set_option linter.unusedSectionVars false

variable {M : Type} [Mag M]

/-- Specification: the command a line of the help announces, `    (b)alance  …`: its letter, and the rest of its name. -/
def announced (line : Str) : Option (Char × Str) :=
  match line with
  | ' ' :: ' ' :: ' ' :: ' ' :: '(' :: c :: ')' :: r => some (c, r.takeWhile fun x => x ≠ ' ')
  | _ => none

/-- The help announces five commands. -/
example : helpText.filterMap announced =
    [('b', s%"alance"), ('e', s%"nvelopes"), ('r', s%"egister"), ('n', s%"ew"), ('i', s%"mport")] := by decide

/-- Without arguments the help is printed, and that changes nothing; with arguments no line of it is printed. -/
theorem C127_help (env : Env) (o : Outside) (w : World) :
    mainPrints M env o [] w = helpText ∧ (mainProgram M env o [] w).1 = w ∧
    ∀ s args, mainPrints M env o (s :: args) w =
      match (mainProgram M env o (s :: args) w).2 with | .ok ls => ls | .error _ => [] := by
  refine ⟨rfl, rfl, ?_⟩
  intro s args
  unfold mainPrints
  have : Flags.parse (s :: args) ≠ .ok none := by
    simp only [Flags.parse, bind, Except.bind, pure, Except.pure]
    split
    · simp
    · split <;> simp
  cases hp : Flags.parse (s :: args) with
  | error x => rfl
  | ok f =>
    cases f with
    | none => exact absurd hp this
    | some f => rfl

/-- The letter in brackets is enough: the command that is announced is the one that is carried out, whatever
follows its letter, and it is called by the name announced. -/
theorem C127_letter_is_enough (line : Str) (hl : line ∈ helpText) (c : Char) (name : Str) (ha : announced line = some (c, name)) :
    ∃ sub : Subcommand, sub.display = c :: name ∧ subLetter sub = c ∧
      ∀ (s : Str) (args : List Str) (f : Flags), s.head? = some c → Flags.parse (s :: args) = .ok (some f) → f.sub = sub := by
  have key : ∃ sub : Subcommand, sub.display = c :: name ∧ subLetter sub = c := by
    simp only [helpText, List.mem_cons, List.not_mem_nil, or_false] at hl
    rcases hl with rfl | rfl | rfl | rfl | rfl | rfl | rfl <;> revert ha <;> simp only [announced] <;> intro ha <;> cases ha
    · exact ⟨.balance, by decide, rfl⟩
    · exact ⟨.envelopes, by decide, rfl⟩
    · exact ⟨.register, by decide, rfl⟩
    · exact ⟨.new, by decide, rfl⟩
    · exact ⟨.import_, by decide, rfl⟩
  obtain ⟨sub, h1, h2⟩ := key
  refine ⟨sub, h1, h2, ?_⟩
  intro s args f hs hf
  obtain ⟨c', fs, h3, _, rfl⟩ := (C75_command_line_iff s args f).1 hf
  rw [hs] at h3
  have h4 : subLetter c' = subLetter sub := by rw [h2]; exact (Option.some.inj h3).symm
  show c' = sub
  cases c' <;> cases sub <;> first | rfl | exact absurd h4 (by decide)

/-- **C127, in part.** A command that the help announces can be carried out: on a journal that is loaded (and filled) and
can be written, the announced reports are printed. Missing: `new`, for which it is false (`C127_new_never_works`);
`import` needs a table (C70). -/
theorem C127_announced_reports_partial (line : Str) (hl : line ∈ helpText) (c : Char) (name : Str)
    (ha : announced line = some (c, name)) (hn : name ≠ s%"ew") (hi : name ≠ s%"mport")
    (env : Env) (hord : FairOrder env.ord) (o : Outside) (s : Str) (args : List Str) (w w' : World) (fs : List Flag)
    (hs : s.head? = some c) (hf : Spelled fs args) (l : Ledger F64) (hw : LedgerFor env o fs w l w') (hr : Reportable env l)
    (ht : o.terminal = true) :
    ∃ out, mainProgram F64 env o (s :: args) w = (w', .ok out) ∧ mainPrints F64 env o (s :: args) w = out := by
  obtain ⟨sub, h1, h2, _⟩ := C127_letter_is_enough line hl c name ha
  have hc : sub = .balance ∨ sub = .envelopes ∨ sub = .register := by
    cases sub with
    | balance => simp
    | envelopes => simp
    | register => simp
    | summary =>
      simp only [helpText, List.mem_cons, List.not_mem_nil, or_false] at hl
      simp only [subLetter] at h2
      subst h2
      rcases hl with rfl | rfl | rfl | rfl | rfl | rfl | rfl <;> revert ha <;> simp [announced]
    | new => cases h1; exact absurd rfl hn
    | import_ => cases h1; exact absurd rfl hi
  obtain ⟨out, h3, _⟩ := C85_reports_are_printed env hord o s args w w' sub fs (by rw [hs, h2]) hf l hw hr hc fun _ => ht
  refine ⟨out, h3, ?_⟩
  rw [(C127_help env o w).2.2, h3]

/-- `new`, which the help announces, never works, whatever the journal and the flags. -/
theorem C127_new_never_works (env : Env) (o : Outside) (s : Str) (args : List Str) (w : World) (hs : s.head? = some 'n') :
    s%"    (n)ew          add a new transaction to your journal" ∈ helpText ∧
    ∃ x, (mainProgram M env o (s :: args) w).2 = .error x := by
  refine ⟨by decide, ?_⟩
  unfold mainProgram
  cases hp : Flags.parse (s :: args) with
  | error x => exact ⟨x, rfl⟩
  | ok f =>
    cases f with
    | none =>
      simp only [Flags.parse, bind, Except.bind, pure, Except.pure] at hp
      split at hp
      · cases hp
      · split at hp <;> cases hp
    | some f =>
      obtain ⟨c', fs, h3, _, rfl⟩ := (C75_command_line_iff s args f).1 hp
      rw [hs] at h3
      have hc : c' = .new := by
        have := Option.some.inj h3
        cases c' <;> first | rfl | exact absurd this (by decide)
      subst hc
      simp only [execute]
      split
      · exact ⟨_, rfl⟩
      · split
        · exact ⟨_, rfl⟩
        · split
          · exact ⟨_, rfl⟩
          · split
            · exact ⟨_, rfl⟩
            · exact ⟨_, rfl⟩

/-- Without a journal the message advises `silverfox -f ./path/to/file.sfox`. That is always refused: a flag cannot come first. -/
theorem C127_advice_is_refused (T : Texts) (env : Env) (o : Outside) (path : Str) (rest : List Str) (w : World) (f : Flags)
    (hf : f.file = none) (ho : o.file = none) :
    (∃ m, executeWhy M T env o f w = some (.basic m) ∧ containsStr s%"`silverfox -f ./path/to/file.sfox`" m = true) ∧
    mainProgram M env o (s%"-f" :: path :: rest) w = (w, fail .basic) := by
  refine ⟨?_, rfl⟩
  unfold executeWhy
  rw [hf, ho]
  exact ⟨_, rfl, by decide +kernel⟩

/-- The letter alone, on a journal; `new` on the same journal; and the command of the message. -/
example : mainPrints F64 (stdEnv june15) exOutside [s%"b", s%"-f", s%"j"]
      (disk [("j", "account cash\naccount food\n2024/01/02 * pay\n cash 5\n food -5\n")]) ≠ [] ∧
    (mainProgram F64 (stdEnv june15) exOutside [s%"new", s%"-f", s%"j"]
      (disk [("j", "account cash\naccount food\n2024/01/02 * pay\n cash 5\n food -5\n")])).2.isOk = false ∧
    (mainProgram F64 (stdEnv june15) exOutside [s%"-f", s%"j"]
      (disk [("j", "account cash\naccount food\n2024/01/02 * pay\n cash 5\n food -5\n")])).2.isOk = false := by
  decide +kernel

end Silverfox
