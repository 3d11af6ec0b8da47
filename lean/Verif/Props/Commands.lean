import Verif.Props.Files
import Verif.Props.Small
import Verif.Props.Register

/-
Commands: C79 (which journal, which report), C80 (exit status), C81 (a command that cannot be carried
out).
-/

namespace Silverfox

set_option linter.unusedSectionVars false
variable {M : Type} [Mag M]

/-! ### C79 -/

/-- Specification: the journal a command works on. The last `-f`/`--file` counts, then
`$SILVERFOX_FILE`, then `$LEDGER_FILE`. -/
def journalFor (o : Outside) (fs : List Flag) : Option Str :=
  match (fs.filterMap Flag.file?).reverse with
  | v :: _ => some v
  | [] =>
    match o.silverfoxFile, o.ledgerFile with
    | some v, _ => some v
    | none, some v => some v
    | none, none => none

/-- Specification: the report that a subcommand prints about a ledger, for those that print one. -/
inductive Reports (env : Env) (l : Ledger M) : Subcommand → List Str → Prop where
  | balance {ls : List Str} : l.displayBalance env = .ok ls → Reports env l .balance ls
  | envelopes {ls : List Str} : l.displayEnvelopes env = .ok ls → Reports env l .envelopes ls
  | register {ls : List Str} :
    Register.display env true l.entries l.dateFormat none none none = .ok ls → Reports env l .register ls
  | import_ : Reports env l .import_ []

theorem journalFor_eq (o : Outside) (c : Subcommand) (fs : List Flag) :
    (flagsOf c fs).file.or o.file = journalFor o fs := by
  unfold journalFor flagsOf Outside.file
  simp only [List.getLast?_eq_head?_reverse]
  cases (fs.filterMap Flag.file?).reverse with
  | nil => cases o.silverfoxFile <;> cases o.ledgerFile <;> rfl
  | cons v l => rfl

theorem mainProgram_eq (env : Env) (o : Outside) (s : Str) (args : List Str) (w : World)
    (c : Subcommand) (fs : List Flag) (hs : s.head? = some (subLetter c)) (ha : Spelled fs args) :
    mainProgram M env o (s :: args) w = execute M env o (flagsOf c fs) w := by
  unfold mainProgram
  rw [(C75_command_line_iff s args (flagsOf c fs)).2 ⟨c, fs, hs, ha, rfl⟩]

/-- The ledger a command works on: loaded, and filled unless `--no-move` is given. -/
def LedgerFor (env : Env) (o : Outside) (fs : List Flag) (w : World) (l : Ledger M) (w' : World) : Prop :=
  ∃ path l0 w0, journalFor o fs = some path ∧
    Ledger.fromFile env o.fuel w path = .ok (l0, w0) ∧
    ((.noMove ∈ fs ∧ l = l0 ∧ w' = w0) ∨ (.noMove ∉ fs ∧ l0.fillEnvelopes env w0 = (w', .ok l)))

theorem any_isNoMove (fs : List Flag) : fs.any Flag.isNoMove = true ↔ .noMove ∈ fs := by
  rw [List.any_eq_true]
  constructor
  · rintro ⟨x, h1, h2⟩
    cases x <;> simp [Flag.isNoMove] at h2
    exact h1
  · intro h
    exact ⟨_, h, rfl⟩

theorem execute_ledger (env : Env) (o : Outside) (c : Subcommand) (fs : List Flag) (w w' : World)
    (l : Ledger M) (h : LedgerFor env o fs w l w') :
    execute M env o (flagsOf c fs) w = runSub env o (flagsOf c fs) w' l := by
  obtain ⟨path, l0, w0, h1, h2, h3⟩ := h
  unfold execute
  rw [journalFor_eq, h1]
  simp only [h2]
  have hn : (flagsOf c fs).noMove = fs.any Flag.isNoMove := rfl
  rw [hn]
  rcases h3 with ⟨hm, rfl, rfl⟩ | ⟨hm, h3⟩
  · rw [if_pos ((any_isNoMove fs).2 hm)]
  · rw [if_neg (fun hx => hm ((any_isNoMove fs).1 hx)), h3]

theorem execute_ok (env : Env) (o : Outside) (c : Subcommand) (fs : List Flag) (w w' : World)
    (out : List Str) (h : execute M env o (flagsOf c fs) w = (w', .ok out)) :
    ∃ (l : Ledger M) (w1 : World), LedgerFor env o fs w l w1 ∧
      runSub env o (flagsOf c fs) w1 l = (w', .ok out) := by
  unfold execute at h
  rw [journalFor_eq] at h
  split at h
  · cases h
  · rename_i path hp
    split at h
    · cases h
    · rename_i l0 w0 hl
      have hn : (flagsOf c fs).noMove = fs.any Flag.isNoMove := rfl
      rw [hn] at h
      by_cases hm : Flag.noMove ∈ fs
      · rw [if_pos ((any_isNoMove fs).2 hm)] at h
        exact ⟨l0, w0, ⟨path, l0, w0, hp, hl, Or.inl ⟨hm, rfl, rfl⟩⟩, h⟩
      · rw [if_neg (fun hx => hm ((any_isNoMove fs).1 hx))] at h
        split at h
        · cases h
        · rename_i w1 l hf
          exact ⟨l, w1, ⟨path, l0, w0, hp, hl, Or.inr ⟨hm, hf⟩⟩, h⟩

/-- C79: what a command prints is the report it is named after, about the journal it was told to use,
loaded and filled (or only loaded, with `--no-move`). A journal given with `-f` wins over
`$SILVERFOX_FILE`, and that over `$LEDGER_FILE`. -/
theorem C79_report (env : Env) (o : Outside) (s : Str) (args : List Str) (w w' : World) (out : List Str)
    (c : Subcommand) (fs : List Flag) (hs : s.head? = some (subLetter c)) (ha : Spelled fs args)
    (h : mainProgram M env o (s :: args) w = (w', .ok out)) :
    ∃ (l : Ledger M) (w1 : World), LedgerFor env o fs w l w1 ∧ Reports env l c out ∧
      (c ≠ .import_ → w' = w1) := by
  rw [mainProgram_eq env o s args w c fs hs ha] at h
  obtain ⟨l, w1, h1, h2⟩ := execute_ok env o c fs w w' out h
  refine ⟨l, w1, h1, ?_⟩
  have hc : (flagsOf c fs).sub = c := rfl
  unfold runSub at h2
  rw [hc] at h2
  cases c with
  | balance => obtain ⟨h3, h4⟩ := Prod.mk.inj h2; exact ⟨.balance h4, fun _ => h3.symm⟩
  | envelopes => obtain ⟨h3, h4⟩ := Prod.mk.inj h2; exact ⟨.envelopes h4, fun _ => h3.symm⟩
  | register =>
    simp only at h2
    split at h2
    · rename_i ls hd
      cases h2
      cases ht : o.terminal with
      | false => rw [ht] at hd; simp [Register.display, fail] at hd
      | true => rw [ht] at hd; exact ⟨.register hd, fun _ => rfl⟩
    · cases h2
  | import_ =>
    simp only at h2
    split at h2
    · cases h2
    · split at h2
      · cases h2; exact ⟨.import_, fun h => absurd rfl h⟩
      · cases h2
  | summary => cases h2
  | new => cases h2

/-- C79: and conversely, if the journal can be loaded and filled, the report is printed. (The register
needs a terminal.) -/
theorem C79_report_printed (env : Env) (o : Outside) (s : Str) (args : List Str) (w w' : World)
    (out : List Str) (c : Subcommand) (fs : List Flag) (hs : s.head? = some (subLetter c))
    (ha : Spelled fs args) (l : Ledger M) (hl : LedgerFor env o fs w l w') (hr : Reports env l c out)
    (hi : c ≠ .import_) (ht : c = .register → o.terminal = true) :
    mainProgram M env o (s :: args) w = (w', .ok out) := by
  rw [mainProgram_eq env o s args w c fs hs ha, execute_ledger env o c fs w w' l hl]
  unfold runSub
  rw [show (flagsOf c fs).sub = c from rfl]
  cases hr with
  | balance h => simp only [h]
  | envelopes h => simp only [h]
  | register h => simp only [ht rfl, h]
  | import_ => exact absurd rfl hi

/-- C79: without a journal given on the command line or in the environment nothing is read or
written. -/
theorem C79_no_journal (env : Env) (o : Outside) (s : Str) (args : List Str) (w : World)
    (c : Subcommand) (fs : List Flag) (hs : s.head? = some (subLetter c)) (ha : Spelled fs args)
    (h : journalFor o fs = none) : mainProgram M env o (s :: args) w = (w, fail .basic) := by
  rw [mainProgram_eq env o s args w c fs hs ha]
  unfold execute
  rw [journalFor_eq, h]

/-- Two journals: `j` is filled, `k` has no envelopes. -/
def twoJournals : World := disk [("j", exJournal), ("k", "account c\n2024/01/02 * pay\n c 7\n")]

example : (mainProgram Rat (stdEnv june15) { exOutside with silverfoxFile := some s%"j", ledgerFile := some s%"k" }
      [s%"bal", s%"-f", s%"k"] twoJournals).2
    = .ok [s%"c                                       7"] := by decide +kernel

example : (mainProgram Rat (stdEnv june15) { exOutside with silverfoxFile := some s%"k", ledgerFile := some s%"j" }
      [s%"bal"] twoJournals).2
    = .ok [s%"c                                       7"] := by decide +kernel

example : (mainProgram Rat (stdEnv june15) { exOutside with ledgerFile := some s%"k" } [s%"bal"] twoJournals).2
    = .ok [s%"c                                       7"] := by decide +kernel

example : (mainProgram Rat (stdEnv june15) exOutside [s%"bal"] twoJournals).2 = .error (.err .basic) := by
  decide +kernel

/-! ### C80 -/

/-- C80, refuted: commands that could not be carried out end with status 0. Every error that is
reported, and not an abort, does so. -/
theorem C80_errors_exit_zero (M : Type) [Mag M] (env : Env) (o : Outside) (args : List Str) (w : World) (k : ErrKind)
    (h : (mainProgram M env o args w).2 = .error (.err k)) :
    exitCode (mainProgram M env o args w).2 = 0 := by rw [h]; rfl

/-- C80, refuted by this: there is no such file, and the status is 0. -/
theorem C80_missing_file_exits_zero :
    (mainProgram F64 (stdEnv june15) exOutside [s%"bal", s%"-f", s%"nofile"] twoJournals).2 = .error (.err .file) ∧
    exitCode (mainProgram F64 (stdEnv june15) exOutside [s%"bal", s%"-f", s%"nofile"] twoJournals).2 = 0 := by
  decide +kernel

/-- C80, the part that holds. Full statement: the exit status is zero exactly if the command was carried
out. Proved: if it was, the status is zero; a status other than zero means an abort. Missing: errors,
refuted above. -/
theorem C80_exit_status_partial (M : Type) [Mag M] (env : Env) (o : Outside) (args : List Str) (w : World) :
    ((∃ out, (mainProgram M env o args w).2 = .ok out) → exitCode (mainProgram M env o args w).2 = 0) ∧
    (exitCode (mainProgram M env o args w).2 ≠ 0 → (mainProgram M env o args w).2 = .error .panic) := by
  generalize (mainProgram M env o args w).2 = r
  constructor
  · rintro ⟨out, rfl⟩; rfl
  · intro h
    unfold exitCode at h
    split at h
    · rfl
    · exact absurd rfl h

/-! ### C81 -/

/-- C81, refuted: `summary` and `new` are not implemented and always fail, but before they do so the
envelopes are filled. So does `import` without a CSV file, and the register without a terminal. For every
journal that gets something filled, the file has changed although the command fails. -/
theorem C81_failing_commands_move_money (env : Env) (o : Outside) (s : Str) (args : List Str)
    (w w' : World) (c : Subcommand) (fs : List Flag) (hs : s.head? = some (subLetter c))
    (ha : Spelled fs args) (l : Ledger M) (hl : LedgerFor env o fs w l w')
    (hc : c = .summary ∨ c = .new ∨ (c = .import_ ∧ ∀ v, .csv v ∉ fs) ∨
      (c = .register ∧ o.terminal = false)) :
    (mainProgram M env o (s :: args) w).1 = w' ∧
      ∃ x, (mainProgram M env o (s :: args) w).2 = .error x := by
  rw [mainProgram_eq env o s args w c fs hs ha, execute_ledger env o c fs w w' l hl]
  unfold runSub
  rw [show (flagsOf c fs).sub = c from rfl]
  rcases hc with rfl | rfl | ⟨rfl, hcsv⟩ | ⟨rfl, ht⟩
  · exact ⟨rfl, _, rfl⟩
  · exact ⟨rfl, _, rfl⟩
  · have : (flagsOf .import_ fs).csv = none := by
      show (fs.filterMap Flag.csv?).getLast? = none
      rw [List.getLast?_eq_none_iff, List.filterMap_eq_nil_iff]
      intro f hf
      cases f with
      | csv v => exact absurd hf (hcsv v)
      | _ => rfl
    simp only [this]
    exact ⟨trivial, _, rfl⟩
  · simp only [ht, Register.display]
    exact ⟨rfl, _, rfl⟩

/-- C81, a witness. -/
theorem C81_summary_moves_money :
    (mainProgram Rat (stdEnv june15) exOutside [s%"summary", s%"-f", s%"j"] twoJournals).2 = .error (.err .basic) ∧
    (mainProgram Rat (stdEnv june15) exOutside [s%"summary", s%"-f", s%"j"] twoJournals).1.file [s%"h", s%"j"]
      ≠ twoJournals.file [s%"h", s%"j"] := by
  decide +kernel

/-- C81, the part that holds. Full statement: a command that fails leaves all files as they were.
Proved: with `--no-move`, for all subcommands but `import`; and in every case if the journal cannot be
loaded (C59). Missing: filling and importing, refuted above and by C71_not_atomic. -/
theorem C81_no_move_partial (env : Env) (o : Outside) (s : Str) (args : List Str) (w : World)
    (c : Subcommand) (fs : List Flag) (hs : s.head? = some (subLetter c)) (ha : Spelled fs args)
    (hn : .noMove ∈ fs) (hc : c ≠ .import_) : (mainProgram M env o (s :: args) w).1.file = w.file := by
  rw [mainProgram_eq env o s args w c fs hs ha]
  exact C58_no_move_changes_nothing M env o _ w ((any_isNoMove fs).2 hn) hc

end Silverfox
