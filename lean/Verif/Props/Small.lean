import Verif.Proofs.Text
import Verif.Model.Flags
import Mathlib.Tactic.Linarith
import Mathlib.Algebra.Order.Field.Rat

/-
C20 statuses, C21 comments, C75 command line, C76 progress bar.
-/

namespace Silverfox

/-! ### C20 -/

/-- C20: a text is read as a status exactly if it is the one character that the status prints as. -/
theorem C20_status_parse_iff (s : Str) (st : Status) :
    Status.parse s = .ok st ↔ s = [st.toChar] := by
  unfold Status.parse
  constructor
  · intro h
    split at h
    · cases h; assumption
    · split at h
      · cases h; assumption
      · split at h
        · cases h; assumption
        · cases h
  · rintro rfl
    cases st <;> rfl

/-- C20: everything else is refused with a parse error, never by aborting. -/
theorem C20_status_refused (s : Str) (h1 : s ≠ ['?']) (h2 : s ≠ ['~']) (h3 : s ≠ ['*']) :
    Status.parse s = fail .parse := by
  simp [Status.parse, h1, h2, h3]

/-- C20: different statuses are printed differently, and the characters are those documented. -/
theorem C20_status_chars : Status.pending.toChar = '?' ∧ Status.cleared.toChar = '~' ∧
    Status.reconciled.toChar = '*' ∧ ∀ a b : Status, a.toChar = b.toChar → a = b := by
  refine ⟨rfl, rfl, rfl, ?_⟩
  intro a b
  cases a <;> cases b <;> decide

/-! ### C21 -/

/-- C21: what is left is a prefix of the line, and the part cut off is empty or starts with `;` or
`//`. -/
theorem C21_cut_at_marker (s : Str) :
    ∃ rest, s = removeComments s ++ rest ∧
      (rest = [] ∨ [';'] <+: rest ∨ ['/', '/'] <+: rest) := by
  obtain ⟨rest, h1, h2⟩ := rc_append_rest s
  refine ⟨rest, by rw [removeComments_eq_rc]; exact h1, ?_⟩
  rcases h2 with h | h
  · exact Or.inl h
  · right
    unfold startsMark at h
    split at h
    · exact Or.inl ⟨_, rfl⟩
    · exact Or.inr ⟨_, rfl⟩
    · cases h

/-- C21: no comment marker starts before the cut, so the cut is at the first one (and there is no cut
if there is no marker). -/
theorem C21_cut_at_first_marker (s p q : Str) (h : s = p ++ q)
    (hl : p.length < (removeComments s).length) : ¬ [';'] <+: q ∧ ¬ ['/', '/'] <+: q := by
  rw [removeComments_eq_rc] at hl
  have := rc_first s p q h hl
  constructor
  · rintro ⟨r, rfl⟩; simp [startsMark] at this
  · rintro ⟨r, rfl⟩; simp [startsMark] at this

/-- C21: the result has no marker left, so cutting again changes nothing. -/
theorem C21_idempotent (s : Str) : removeComments (removeComments s) = removeComments s := by
  rw [removeComments_eq_rc, removeComments_eq_rc, rc_idem]

/-- C21: a comment that starts with `;` may be appended to any line. -/
theorem C21_semicolon_comment_ignored (s t : Str) :
    removeComments (s ++ ';' :: t) = removeComments s := by
  rw [removeComments_eq_rc, removeComments_eq_rc]
  exact rc_append_mark s _ rfl (Or.inr rfl)

/-- C21: a comment that starts with `//` may be appended to any line that does not end in a slash. -/
theorem C21_slash_comment_ignored (s t : Str) (h : s.getLast? ≠ some '/') :
    removeComments (s ++ '/' :: '/' :: t) = removeComments s := by
  rw [removeComments_eq_rc, removeComments_eq_rc]
  exact rc_append_mark s _ rfl (Or.inl h)

/-- The side condition is needed: after a slash, the marker starts one character earlier. -/
example : removeComments s%"a///b" = s%"a" ∧ removeComments s%"a/" = s%"a/" := by decide

example : removeComments s%"5 / 2 // half ; x" = s%"5 / 2 " := by decide

/-! ### C75 -/

/-- Specification: a flag with its value, if it takes one. -/
inductive Flag where
  | noMove | file (v : Str) | csv (v : Str) | rules (v : Str)

/-- Specification: the ways to write a flag. -/
inductive Flag.Spelling : Flag → List Str → Prop where
  | noMoveLong : Spelling .noMove [s%"--no-move"]
  | noMoveShort : Spelling .noMove [s%"-n"]
  | fileLong (v : Str) : Spelling (.file v) [s%"--file", v]
  | fileShort (v : Str) : Spelling (.file v) [s%"-f", v]
  | csvLong (v : Str) : Spelling (.csv v) [s%"--csv-file", v]
  | csvShort (v : Str) : Spelling (.csv v) [s%"--csv", v]
  | rulesLong (v : Str) : Spelling (.rules v) [s%"--rules-file", v]
  | rulesShort (v : Str) : Spelling (.rules v) [s%"--rules", v]

/-- Specification: the arguments spell a list of flags. -/
inductive Spelled : List Flag → List Str → Prop where
  | nil : Spelled [] []
  | cons {f : Flag} {fs : List Flag} {as bs : List Str} :
    f.Spelling as → Spelled fs bs → Spelled (f :: fs) (as ++ bs)

def Flag.file? : Flag → Option Str | .file v => some v | _ => none
def Flag.csv? : Flag → Option Str | .csv v => some v | _ => none
def Flag.rules? : Flag → Option Str | .rules v => some v | _ => none
def Flag.isNoMove : Flag → Bool | .noMove => true | _ => false

/-- Specification: the last value given counts; `--no-move` counts wherever it stands. -/
def flagsOf (sub : Subcommand) (fs : List Flag) : Flags where
  sub := sub
  file := (fs.filterMap Flag.file?).getLast?
  csv := (fs.filterMap Flag.csv?).getLast?
  rules := (fs.filterMap Flag.rules?).getLast?
  noMove := fs.any Flag.isNoMove

/-- Specification: the first letter of a subcommand. -/
def subLetter : Subcommand → Char
  | .summary => 's' | .balance => 'b' | .envelopes => 'e' | .register => 'r' | .import_ => 'i'
  | .new => 'n'

/-- The flags after some more flags. -/
def Flags.after (f : Flags) (fs : List Flag) : Flags where
  sub := f.sub
  file := (fs.filterMap Flag.file?).getLast?.or f.file
  csv := (fs.filterMap Flag.csv?).getLast?.or f.csv
  rules := (fs.filterMap Flag.rules?).getLast?.or f.rules
  noMove := f.noMove || fs.any Flag.isNoMove

/-- One flag. -/
def Flags.one (f : Flags) : Flag → Flags
  | .noMove => { f with noMove := true }
  | .file v => { f with file := some v }
  | .csv v => { f with csv := some v }
  | .rules v => { f with rules := some v }

theorem getLast?_cons_or (v : Str) (l : List Str) (x : Option Str) :
    (v :: l).getLast?.or x = l.getLast?.or (some v) := by
  cases l with
  | nil => simp
  | cons a l =>
    rw [List.getLast?_cons_cons]
    cases h : (a :: l).getLast? with
    | none => simp at h
    | some b => simp

theorem Flags.after_cons (f : Flags) (g : Flag) (fs : List Flag) :
    f.after (g :: fs) = (f.one g).after fs := by
  cases g <;>
    simp [Flags.after, Flags.one, Flag.file?, Flag.csv?, Flag.rules?, Flag.isNoMove,
      List.filterMap_cons, getLast?_cons_or]

theorem parseFlags_spelled {fs : List Flag} {as : List Str} (h : Spelled fs as) (f : Flags) :
    parseFlags as f = .ok (f.after fs) := by
  induction h generalizing f with
  | nil => simp [parseFlags, Flags.after]
  | @cons g fs as bs hs _ ih =>
    rw [Flags.after_cons, ← ih]
    cases hs <;> cases bs <;> simp [parseFlags, Flags.one]

theorem parseFlags_ok (n : Nat) (as : List Str) (hn : as.length ≤ n) (f f' : Flags)
    (h : parseFlags as f = .ok f') : ∃ fs, Spelled fs as ∧ f' = f.after fs := by
  induction n generalizing as f with
  | zero =>
    obtain rfl : as = [] := by simpa using hn
    simp [parseFlags] at h
    exact ⟨[], .nil, by simp [Flags.after, h]⟩
  | succ n ih =>
    match as, hn, h with
    | [], _, h =>
      simp [parseFlags] at h
      exact ⟨[], .nil, by simp [Flags.after, h]⟩
    | [a], _, h =>
      simp only [parseFlags] at h
      split at h
      · rename_i ha
        cases h
        refine ⟨[.noMove], ?_, by simp [Flags.after, Flag.isNoMove, Flag.file?, Flag.csv?, Flag.rules?]⟩
        rcases ha with rfl | rfl
        · exact .cons .noMoveLong .nil
        · exact .cons .noMoveShort .nil
      · cases h
    | a :: v :: rest, hn, h =>
      simp only [parseFlags] at h
      split at h
      · rename_i ha
        obtain ⟨fs, h1, h2⟩ := ih (v :: rest) (by simpa using hn) _ h
        refine ⟨.noMove :: fs, ?_, by rw [Flags.after_cons]; exact h2⟩
        rcases ha with rfl | rfl
        · exact .cons .noMoveLong h1
        · exact .cons .noMoveShort h1
      · have hr : rest.length ≤ n := by simp at hn; omega
        split at h
        · rename_i ha
          obtain ⟨fs, h1, h2⟩ := ih rest hr _ h
          refine ⟨.file v :: fs, ?_, by rw [Flags.after_cons]; exact h2⟩
          rcases ha with rfl | rfl
          · exact .cons (.fileShort v) h1
          · exact .cons (.fileLong v) h1
        · split at h
          · rename_i ha
            obtain ⟨fs, h1, h2⟩ := ih rest hr _ h
            refine ⟨.csv v :: fs, ?_, by rw [Flags.after_cons]; exact h2⟩
            rcases ha with rfl | rfl
            · exact .cons (.csvLong v) h1
            · exact .cons (.csvShort v) h1
          · split at h
            · rename_i ha
              obtain ⟨fs, h1, h2⟩ := ih rest hr _ h
              refine ⟨.rules v :: fs, ?_, by rw [Flags.after_cons]; exact h2⟩
              rcases ha with rfl | rfl
              · exact .cons (.rulesLong v) h1
              · exact .cons (.rulesShort v) h1
            · cases h

theorem Subcommand.parse_iff (s : Str) (c : Subcommand) :
    Subcommand.parse s = .ok c ↔ s.head? = some (subLetter c) := by
  unfold Subcommand.parse
  split
  · cases c <;> simp [subLetter]
  · cases c <;> simp [subLetter]
  · cases c <;> simp [subLetter]
  · cases c <;> simp [subLetter]
  · cases c <;> simp [subLetter]
  · cases c <;> simp [subLetter]
  · rename_i h1 h2 h3 h4 h5 h6
    constructor
    · intro h; cases h
    · intro h
      cases s with
      | nil => simp at h
      | cons d s =>
        simp only [List.head?_cons, Option.some.injEq] at h
        cases c <;> simp [subLetter] at h <;> subst h
        · exact absurd rfl (h1 s)
        · exact absurd rfl (h2 s)
        · exact absurd rfl (h3 s)
        · exact absurd rfl (h4 s)
        · exact absurd rfl (h5 s)
        · exact absurd rfl (h6 s)

/-- C75: the command line is accepted exactly if the first argument starts with the letter of a
subcommand and the others spell flags; the result has the last value of each. -/
theorem C75_command_line_iff (s : Str) (args : List Str) (f : Flags) :
    Flags.parse (s :: args) = .ok (some f) ↔
      ∃ c fs, s.head? = some (subLetter c) ∧ Spelled fs args ∧ f = flagsOf c fs := by
  simp only [Flags.parse, bind, Except.bind, pure, Except.pure]
  constructor
  · intro h
    split at h
    · cases h
    · rename_i c hc
      split at h
      · cases h
      · rename_i f' hf
        cases h
        obtain ⟨fs, h1, h2⟩ := parseFlags_ok args.length args (Nat.le_refl _) _ _ hf
        exact ⟨c, fs, (Subcommand.parse_iff s c).1 hc, h1, by
          rw [h2]; simp [Flags.after, flagsOf]⟩
  · rintro ⟨c, fs, h1, h2, rfl⟩
    rw [(Subcommand.parse_iff s c).2 h1]
    simp only [parseFlags_spelled h2]
    simp [Flags.after, flagsOf]

/-- Flags of different kinds commute: only the order among flags of one kind counts. -/
theorem C75_flag_order_irrelevant (c : Subcommand) (fs gs : List Flag)
    (h1 : fs.filterMap Flag.file? = gs.filterMap Flag.file?)
    (h2 : fs.filterMap Flag.csv? = gs.filterMap Flag.csv?)
    (h3 : fs.filterMap Flag.rules? = gs.filterMap Flag.rules?)
    (h4 : fs.any Flag.isNoMove = gs.any Flag.isNoMove) : flagsOf c fs = flagsOf c gs := by
  simp [flagsOf, h1, h2, h3, h4]

/-- C75: a refused command line executes nothing: no file changes, nothing is printed but an error. -/
theorem C75_refused_executes_nothing (M : Type) [Mag M] (env : Env) (o : Outside) (args : List Str)
    (w : World) (h : ∀ f, Flags.parse args ≠ .ok f) :
    (mainProgram M env o args w).1 = w ∧ (mainProgram M env o args w).2 = fail .basic := by
  cases args with
  | nil => exact absurd rfl (h none)
  | cons s rest =>
    have hsub : ∀ x, Subcommand.parse s = .error x → x = .err .basic := by
      intro x
      unfold Subcommand.parse
      split <;> intro hx <;> cases hx
      rfl
    have hfl : ∀ n as, as.length ≤ n → ∀ f x, parseFlags as f = .error x → x = .err .basic := by
      intro n
      induction n with
      | zero =>
        intro as hn f x hx
        obtain rfl : as = [] := by simpa using hn
        simp [parseFlags] at hx
      | succ n ih =>
        intro as hn f x hx
        match as, hn, hx with
        | [], _, hx => simp [parseFlags] at hx
        | [a], _, hx =>
          simp only [parseFlags] at hx
          split at hx <;> cases hx
          rfl
        | a :: v :: r, hn, hx =>
          have hr : r.length ≤ n := by simp at hn; omega
          simp only [parseFlags] at hx
          split at hx
          · exact ih (v :: r) (by simpa using hn) _ _ hx
          · split at hx
            · exact ih r hr _ _ hx
            · split at hx
              · exact ih r hr _ _ hx
              · split at hx
                · exact ih r hr _ _ hx
                · cases hx; rfl
    unfold mainProgram
    cases hp : Flags.parse (s :: rest) with
    | ok f => exact absurd hp (h f)
    | error x =>
      refine ⟨rfl, ?_⟩
      simp only [Flags.parse, bind, Except.bind, pure, Except.pure] at hp
      split at hp
      · rename_i y hy
        cases hp
        rw [hsub _ hy]; rfl
      · split at hp
        · rename_i y hy
          cases hp
          rw [hfl _ _ (Nat.le_refl _) _ _ hy]; rfl
        · cases hp

example : Flags.parse [s%"bal", s%"-f", s%"a", s%"-n", s%"--file", s%"b"]
    = .ok (some ⟨some s%"b", .balance, true, none, none⟩) := by decide

example : Flags.parse [s%"bal", s%"-f"] = .error (.err .basic) ∧
    Flags.parse [s%"bal", s%"--frob", s%"x"] = .error (.err .basic) ∧
    Flags.parse [s%"xyz"] = .error (.err .basic) := by decide

/-! ### C76 -/

theorem F64.ofInt_40 : F64.ofInt ((40 : Nat) : Int) = .fin false (40 * F64.unit) (by decide +kernel) := by
  decide +kernel

theorem F64.clamp_toUsize_le (x : F64) (w : Nat) (hw : rep (w * F64.unit) = true) :
    F64.toUsize (F64.max (F64.min x (.fin false (w * F64.unit) hw)) F64.zero) ≤ w := by
  have hu : 0 < F64.unit := Nat.two_pow_pos _
  have key : ∀ y : F64, F64.lt (.fin false (w * F64.unit) hw) y = false → y ≠ .nan →
      F64.toUsize (F64.max y F64.zero) ≤ w := by
    intro y h1 h2
    cases y with
    | nan => exact absurd rfl h2
    | inf s =>
      cases s with
      | true => simp [F64.max, F64.isNan, F64.lt, F64.zero, F64.zeroS, F64.toUsize]
      | false => simp [F64.lt] at h1
    | fin s n h =>
      cases s with
      | true =>
        unfold F64.max
        split
        · simp [F64.toUsize, F64.zero, F64.zeroS]
        · split <;> simp [F64.toUsize, F64.zero, F64.zeroS]
      | false =>
        simp only [F64.lt, F64.sgn] at h1
        have hn : n ≤ w * F64.unit := by simp at h1; exact_mod_cast h1
        have hd : n / F64.unit ≤ w := by
          rw [Nat.div_le_iff_le_mul_add_pred hu]
          rw [Nat.mul_comm] at hn
          omega
        unfold F64.max
        split
        · simp [F64.toUsize, F64.zero, F64.zeroS]
        · split
          · simp [F64.toUsize, F64.zero, F64.zeroS]
          · simp only [F64.toUsize, Bool.false_eq_true, if_false]
            exact Nat.le_trans (Nat.min_le_left _ _) hd
  apply key
  · unfold F64.min
    split
    · simp [F64.lt]
    · split
      · simp [F64.lt]
      · rename_i h; simpa using h
  · unfold F64.min
    split
    · simp
    · split
      · simp
      · rename_i h _; intro e; subst e; exact h rfl

/-- C76: for all amounts whatsoever, NaN and infinities included, the bar is drawn without aborting and
consists of a full part and an empty part of together 40 cells between two bars. -/
theorem C76_bar_fits (e : Envelope F64) (amt : Amount F64) :
    ∃ k, k ≤ 40 ∧ e.makeBar amt 40
      = .ok ('|' :: (List.replicate k '═' ++ List.replicate (40 - k) ' ') ++ ['|']) := by
  unfold Envelope.makeBar
  have h : Mag.toUsize (Mag.max (Mag.min (Mag.div (Mag.mul amt.mag (Mag.ofInt ((40 : Nat) : Int)))
      e.amount.mag) (Mag.ofInt ((40 : Nat) : Int))) (Mag.zero : F64)) ≤ 40 := by
    show F64.toUsize (F64.max (F64.min _ (F64.ofInt ((40 : Nat) : Int))) F64.zero) ≤ 40
    rw [F64.ofInt_40]
    exact F64.clamp_toUsize_le _ 40 _
  exact ⟨_, h, by simp only [Nat.not_lt.2 h, if_false]⟩

/-- C76, exact arithmetic: the number of full cells is the saved share of the target, in fortieths,
rounded down, never below 0 nor above 40. (For a target of nothing the quotient is 0 here, but not a number or infinite
in the program: see `C76_share_of_nothing`.) -/
theorem C76_bar_is_proportional (e : Envelope Rat) (amt : Amount Rat) :
    ∃ k : Nat, e.makeBar amt 40
      = .ok ('|' :: (List.replicate k '═' ++ List.replicate (40 - k) ' ') ++ ['|']) ∧
      (k : Int) = (max 0 (min 40 (amt.mag * 40 / e.amount.mag))).floor := by
  unfold Envelope.makeBar
  have hm : Mag.max (Mag.min (Mag.div (Mag.mul amt.mag (Mag.ofInt ((40 : Nat) : Int)))
      e.amount.mag) (Mag.ofInt ((40 : Nat) : Int))) (Mag.zero : Rat)
      = max 0 (min 40 (amt.mag * 40 / e.amount.mag)) := by
    simp only [Mag.max, Mag.min, Mag.div, Mag.mul, Mag.ofInt, Mag.zero]
    have h40 : (((40 : Nat) : Int) : Rat) = 40 := by norm_num
    rw [h40]
    generalize amt.mag * 40 / e.amount.mag = x
    rw [max_def, min_def]
    split <;> split <;> split <;> split <;> linarith
  simp only [hm]
  have h0 : 0 ≤ max 0 (min 40 (amt.mag * 40 / e.amount.mag)) := le_max_left _ _
  have h1 : max 0 (min 40 (amt.mag * 40 / e.amount.mag)) ≤ 40 :=
    max_le (by norm_num) (min_le_left _ _)
  generalize max 0 (min 40 (amt.mag * 40 / e.amount.mag)) = x at h0 h1
  have f0 : (0 : Int) ≤ x.floor := Rat.le_floor_iff.2 (by simpa using h0)
  have f1 : x.floor ≤ 40 := by
    have : ((x.floor : Int) : Rat) ≤ 40 := le_trans (Rat.floor_le x) h1
    exact_mod_cast this
  refine ⟨x.floor.toNat, ?_, by omega⟩
  have : Mag.toUsize x = x.floor.toNat := by
    show Nat.min x.floor.toNat (2 ^ 64 - 1) = _
    apply Nat.min_eq_left
    omega
  rw [this]
  have hle : ¬ 40 < x.floor.toNat := by omega
  simp only [hle, if_false]

/-- A third of the target saved: 13 of 40 cells. -/
example : (⟨s%"x", ⟨30, none⟩, .goal, [], .never, .manual, none, ⟨0, none⟩, ⟨0, none⟩, [], Date.zero⟩ :
    Envelope Rat).makeBar ⟨10, none⟩ 40
      = .ok ('|' :: (List.replicate 13 '═' ++ List.replicate 27 ' ') ++ ['|']) := by
  decide +kernel

end Silverfox
