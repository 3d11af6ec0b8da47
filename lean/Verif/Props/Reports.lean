import Verif.Props.Commands
import Verif.Props.Order
import Verif.Props.Filling
import Verif.Props.Import
import Mathlib.Data.List.Nodup

/-
C85: once a journal is loaded, its reports are printed. C86: what the envelope report says.
-/

namespace Silverfox

set_option linter.unusedSectionVars false
variable {M : Type} [Mag M]

/-! ### C85 -/

theorem blankCount_envelopes (ps : List (EnvPosting M)) : blankCount (ps.map Posting.envelope) = 0 := by
  unfold blankCount
  rw [List.countP_eq_zero]
  intro p hp
  obtain ⟨q, _, rfl⟩ := List.mem_map.1 hp
  simp [Posting.amount]

theorem fill_inv (env : Env) (w w' : World) (l l' : Ledger M) (hl : l.Inv)
    (h : l.fillEnvelopes env w = (w', .ok l')) : l'.Inv := by
  unfold Ledger.fillEnvelopes at h
  split at h
  · cases h
  · simp only at h
    split at h
    · cases h; exact hl
    · rcases appendEntry_cases env w l _ w' _ h with ⟨_, hx, _⟩ | ⟨_, _, _, h3⟩
      · cases hx
      · refine addEntry_inv env l l' _ hl ?_ ?_ h3.symm
        · intro p hp he
          obtain ⟨q, _, rfl⟩ := List.mem_map.1 (show p ∈ List.map Posting.envelope _ from hp)
          cases he
        · exact (C15_validate_iff _).1.2 ⟨(blankCount_envelopes _).le.trans (by omega), Or.inl (blankCount_envelopes _)⟩

theorem ledgerFor_inv (env : Env) (o : Outside) (fs : List Flag) (w w' : World) (l : Ledger M)
    (h : LedgerFor env o fs w l w') : l.Inv := by
  obtain ⟨path, l0, w0, _, h2, h3⟩ := h
  have hi := loaded_inv env o.fuel w w0 path l0 h2
  rcases h3 with ⟨_, rfl, _⟩ | ⟨_, h3⟩
  · exact hi
  · exact fill_inv env w0 w' l0 l hi h3

theorem displayAll_total (today : Date) (hbar : ∀ (e : Envelope M) amt, ∃ s, e.makeBar amt 40 = .ok s)
    (es : List (Envelope M)) (hd : ∀ e ∈ es, ∃ d, e.nextDue today = .ok d) :
    ∃ ls, Account.displayAll today es = .ok ls := by
  induction es with
  | nil => exact ⟨_, rfl⟩
  | cons e es ih =>
    obtain ⟨ls, h1⟩ := ih fun x hx => hd x (by simp [hx])
    obtain ⟨d, h2⟩ := hd e (by simp)
    have : ∃ l, e.display today = .ok l := by
      unfold Envelope.display
      simp only [h2, bind, Except.bind, pure, Except.pure]
      obtain ⟨b1, h3⟩ := hbar e ⟨Mag.add e.next.mag (Mag.min e.now.mag Mag.zero), e.next.sym⟩
      obtain ⟨b2, h4⟩ := hbar e ⟨Mag.max e.now.mag Mag.zero, e.now.sym⟩
      simp only [h3, h4]
      exact ⟨_, rfl⟩
    obtain ⟨l, h3⟩ := this
    exact ⟨l ++ ls, by simp only [Account.displayAll, h3, h1, bind, Except.bind, pure, Except.pure]⟩

theorem account_display_total (today : Date) (hbar : ∀ (e : Envelope M) amt, ∃ s, e.makeBar amt 40 = .ok s)
    (a : Account M) (hd : ∀ e ∈ a.envelopes, ∃ d, e.nextDue today = .ok d) :
    ∃ ls, a.display today = .ok ls := by
  unfold Account.display
  split
  · exact ⟨_, rfl⟩
  · obtain ⟨x, h1⟩ := displayAll_total today hbar a.expenses fun e he => hd e (by simp [Account.envelopes, he])
    obtain ⟨y, h2⟩ := displayAll_total today hbar a.goals fun e he => hd e (by simp [Account.envelopes, he])
    simp only [h1, h2, bind, Except.bind, pure, Except.pure]
    exact ⟨_, rfl⟩

theorem displayEnvelopes_total (env : Env) (hord : FairOrder env.ord)
    (hbar : ∀ (e : Envelope M) amt, ∃ s, e.makeBar amt 40 = .ok s) (l : Ledger M)
    (hd : ∀ k a, (k, a) ∈ l.accounts → ∀ e ∈ a.envelopes, ∃ d, e.nextDue env.today = .ok d) :
    ∃ ls, l.displayEnvelopes env = .ok ls := by
  unfold Ledger.displayEnvelopes
  have hk : ∀ k ∈ stableSort strLt (env.ord l.accountNames), ∃ a, (k, a) ∈ l.accounts ∧ mapGet l.accounts k = some a := by
    intro k hk
    have hk := (hord _ _).mem_iff.1 ((stableSort_perm _ _).mem_iff.1 hk)
    unfold Ledger.accountNames at hk
    cases hg : l.accounts.find? (fun p => p.1 == k) with
    | none =>
      obtain ⟨⟨k', a⟩, h1, rfl⟩ := List.mem_map.1 hk
      have := List.find?_eq_none.1 hg _ h1
      simp at this
    | some p =>
      have h1 := List.mem_of_find?_eq_some hg
      have h2 := List.find?_some hg
      simp only [beq_iff_eq] at h2
      obtain ⟨k', a⟩ := p
      simp only at h2
      subst h2
      exact ⟨a, h1, by unfold mapGet; rw [hg]; rfl⟩
  generalize stableSort strLt (env.ord l.accountNames) = ks at hk
  induction ks with
  | nil => exact ⟨_, rfl⟩
  | cons k ks ih =>
    obtain ⟨ls, h1⟩ := ih fun x hx => hk x (by simp [hx])
    obtain ⟨a, h2, h3⟩ := hk k (by simp)
    obtain ⟨x, h4⟩ := account_display_total env.today hbar a (hd k a h2)
    exact ⟨x ++ ls, by simp only [Ledger.displayAccounts, h3, h4, h1, unwrap, bind, Except.bind, pure, Except.pure]⟩

/-- What the reports need: a day and schedules within the calendar, and dates that can be written in the
journal's format. -/
structure Reportable (env : Env) (l : Ledger M) : Prop where
  today : env.today.Inner
  freq : ∀ k a, (k, a) ∈ l.accounts → ∀ e ∈ a.envelopes, e.freq.Inner
  format : ∀ x ∈ l.entries, ∃ d, env.fmtDate x.date l.dateFormat = some d

theorem reports_exist (env : Env) (hord : FairOrder env.ord)
    (hbar : ∀ (e : Envelope M) amt, ∃ s, e.makeBar amt 40 = .ok s) (l : Ledger M) (hl : l.Inv)
    (hr : Reportable env l) (c : Subcommand) (hc : c = .balance ∨ c = .envelopes ∨ c = .register) :
    ∃ out, Reports env l c out := by
  rcases hc with rfl | rfl | rfl
  · obtain ⟨tot, ht⟩ := totals_total l.entries [] hl.blanks
    have : l.totals = .ok tot := ht
    exact ⟨_, .balance (by simp only [Ledger.displayBalance, this, bind, Except.bind, pure, Except.pure]; rfl)⟩
  · obtain ⟨ls, h⟩ := displayEnvelopes_total env hord hbar l fun k a hk e he =>
      envelope_nextDue_total env.today e hr.today (hr.freq k a hk e he)
    exact ⟨ls, .envelopes h⟩
  · obtain ⟨rs, hrs⟩ := rows_total env l.dateFormat none (Register.select l.entries none none none) (by
      intro x hx
      have hx := (List.mem_filter.1 hx).1
      refine ⟨?_, hr.format x hx⟩
      intro p hp ha
      obtain ⟨o, ho⟩ := hl.blanks x hx p hp ha
      obtain ⟨c, rfl⟩ := blankAmount_some x p hp ha o ho
      exact ⟨c, ho⟩)
    exact ⟨_, .register (by simp only [Register.display, hrs, bind, Except.bind, pure, Except.pure]; rfl)⟩

/-- C85: once the journal is loaded (and filled), each of the three reports is printed: no entry, envelope or
amount, infinite or NaN ones included, makes a report fail or abort. -/
theorem C85_reports_are_printed (env : Env) (hord : FairOrder env.ord) (o : Outside) (s : Str) (args : List Str)
    (w w' : World) (c : Subcommand) (fs : List Flag) (hs : s.head? = some (subLetter c)) (ha : Spelled fs args)
    (l : Ledger F64) (hl : LedgerFor env o fs w l w') (hr : Reportable env l)
    (hc : c = .balance ∨ c = .envelopes ∨ c = .register) (ht : c = .register → o.terminal = true) :
    ∃ out, mainProgram F64 env o (s :: args) w = (w', .ok out) ∧ Reports env l c out := by
  obtain ⟨out, h⟩ := reports_exist env hord (fun e amt => by
    obtain ⟨k, _, h⟩ := C76_bar_fits e amt; exact ⟨_, h⟩) l (ledgerFor_inv env o fs w w' l hl) hr c hc
  exact ⟨out, C79_report_printed env o s args w w' out c fs hs ha l hl h
    (by rcases hc with rfl | rfl | rfl <;> simp) ht, h⟩

/-- An environment, a journal and a command that meet the conditions of C85; the amount saved overflows. -/
example : (mainProgram F64 (stdEnv june15) { exOutside with ledgerFile := some s%"j" } [s%"env", s%"-n"]
      (disk [("j", "account a\n  goal x due every 1st\n    amount 5\n    funding aggressive
2024/01/02 * pay\n a 1e999\n")])).2.isOk = true := by decide +kernel

/-- C85 needs a format that dates can be written in: a journal may end in one that is none, and then the
register aborts. -/
theorem C85_bad_format_aborts :
    (mainProgram F64 (stdEnv june15) { exOutside with ledgerFile := some s%"j", terminal := true } [s%"reg", s%"-n"]
      (disk [("j", "account assets\n2024/01/02 * pay\n assets 5\ndate_format %Q\n")])).2 = panicked := by
  decide +kernel

/-! ### C86 -/

/-- Specification: the two amounts shown for an envelope. What is there now is not shown below zero; a debt is
taken off what is saved for the next time. -/
structure ShownAmounts (e : Envelope Rat) (now next : Amount Rat) : Prop where
  sym : now.sym = e.now.sym ∧ next.sym = e.next.sym
  sum : now.mag + next.mag = e.holds
  nonneg : 0 ≤ now.mag
  plain : 0 ≤ e.now.mag → now.mag = e.now.mag ∧ next.mag = e.next.mag
  debt : e.now.mag ≤ 0 → now.mag = 0

/-- Specification: the lines of an envelope: its name, what is there now, and what is saved for the next due
date. -/
def EnvelopeLines (today : Date) (e : Envelope Rat) (ls : List Str) : Prop :=
  ∃ (now next : Amount Rat) (due : Option Date) (nowLine nextLine : Str),
    ShownAmounts e now next ∧ e.nextDue today = .ok due ∧
    ls = [s%"    " ++ e.name, nowLine, nextLine] ∧
    s%"      now" <+: nowLine ∧ now.display ++ s%" / " ++ e.amount.display <:+: nowLine ∧
    s%"      next" <+: nextLine ∧ next.display ++ s%" / " ++ e.amount.display <:+: nextLine ∧
    (∀ d, due = some d → s%"(on " ++ d.iso ++ s%")" <:+: nextLine)

/-- Specification: one after the other, the lines of envelopes, under a title unless there are none. -/
def SectionLines (today : Date) (title : Str) (es : List (Envelope Rat)) (ls : List Str) : Prop :=
  (es = [] ∧ ls = []) ∨
  (es ≠ [] ∧ ∃ blocks, ls = title :: blocks.flatten ∧ List.Forall₂ (EnvelopeLines today) es blocks)

/-- Specification: the lines of an account: nothing if it has no envelopes, otherwise its name, the currencies
of which something is available (or lacking), its expenses and its goals. -/
def AccountLines (today : Date) (a : Account Rat) (ls : List Str) : Prop :=
  (a.envelopes = [] ∧ ls = []) ∨
  (a.envelopes ≠ [] ∧ ∃ ex go, SectionLines today s%"  expenses" a.expenses ex ∧
    SectionLines today s%"  goals" a.goals go ∧
    ls = a.name :: s%"  available" :: (a.available.filter fun x => x.mag ≠ 0).map (fun x => s%"    " ++ x.display)
      ++ ex ++ go ++ [[]])

theorem infix_pad (pre : Str) (m n : Nat) (a b c : Str) :
    b <:+: pre ++ padRight m a ++ ' ' :: padLeft n b ++ ' ' :: c ∧
    a <:+: pre ++ padRight m a ++ ' ' :: padLeft n b ++ ' ' :: c := by
  unfold padRight padLeft
  exact ⟨⟨pre ++ (a ++ List.replicate (m - a.length) ' ') ++ ' ' :: List.replicate (n - b.length) ' ', ' ' :: c,
      by simp⟩,
    ⟨pre, List.replicate (m - a.length) ' ' ++ ' ' :: (List.replicate (n - b.length) ' ' ++ b) ++ ' ' :: c,
      by simp⟩⟩

theorem shownAmounts_of (e : Envelope Rat) : ShownAmounts e ⟨Mag.max e.now.mag Mag.zero, e.now.sym⟩
    ⟨Mag.add e.next.mag (Mag.min e.now.mag Mag.zero), e.next.sym⟩ := by
  simp only [Mag.max, Mag.min, Mag.add, Mag.zero]
  have hh : e.holds = e.now.mag + e.next.mag := rfl
  refine ⟨⟨rfl, rfl⟩, ?_, ?_, ?_, ?_⟩
  · show (if e.now.mag < 0 then (0 : Rat) else e.now.mag) + (e.next.mag + if 0 < e.now.mag then 0 else e.now.mag) = _
    split <;> split <;> linarith
  · show (0 : Rat) ≤ if e.now.mag < 0 then (0 : Rat) else e.now.mag
    split <;> linarith
  · intro h
    show (if e.now.mag < 0 then (0 : Rat) else e.now.mag) = _ ∧ e.next.mag + (if 0 < e.now.mag then 0 else e.now.mag) = _
    refine ⟨?_, ?_⟩ <;> split <;> linarith
  · intro h
    show (if e.now.mag < 0 then (0 : Rat) else e.now.mag) = 0
    split <;> linarith

/-- **C86 (one envelope).** The lines of an envelope are its name and the two amounts, which add up to what it
holds. -/
theorem C86_envelope_lines (today : Date) (e : Envelope Rat) (ls : List Str) (h : e.display today = .ok ls) :
    EnvelopeLines today e ls := by
  unfold Envelope.display at h
  simp only [bind, Except.bind, pure, Except.pure] at h
  cases hd : e.nextDue today with
  | error f => rw [hd] at h; simp at h
  | ok due =>
    rw [hd] at h
    simp only at h
    split at h
    · simp at h
    · split at h
      · simp at h
      · rename_i nextBar _ _ nowBar _
        injection h with h
        refine ⟨_, _, due, _, _, shownAmounts_of e, hd, h.symm, ?_, ?_, ?_, ?_, ?_⟩
        · exact ⟨_, rfl⟩
        · exact (infix_pad _ 20 30 _ _ _).1
        · cases due with
          | none => exact ⟨_, rfl⟩
          | some d => exact ⟨_, by simp [padRight]; rfl⟩
        · exact (infix_pad _ 20 30 _ _ _).1
        · rintro d rfl
          refine List.IsInfix.trans ?_ (infix_pad _ 20 30 _ _ _).2
          exact ⟨s%"next ", [], by simp⟩

theorem displayAll_lines (today : Date) (es : List (Envelope Rat)) (ls : List Str)
    (h : Account.displayAll today es = .ok ls) :
    ∃ blocks, ls = blocks.flatten ∧ List.Forall₂ (EnvelopeLines today) es blocks := by
  induction es generalizing ls with
  | nil => cases h; exact ⟨[], rfl, .nil⟩
  | cons e es ih =>
    simp only [Account.displayAll, bind, Except.bind, pure, Except.pure] at h
    split at h
    · simp at h
    · rename_i b hb
      split at h
      · simp at h
      · rename_i bs hbs
        cases h
        obtain ⟨blocks, rfl, h2⟩ := ih _ hbs
        exact ⟨b :: blocks, rfl, .cons (C86_envelope_lines today e b hb) h2⟩

theorem section_lines (today : Date) (title : Str) (es : List (Envelope Rat)) (ls : List Str)
    (h : Account.displayAll today es = .ok ls) :
    SectionLines today title es (if es.isEmpty then [] else title :: ls) := by
  obtain ⟨blocks, rfl, h2⟩ := displayAll_lines today es ls h
  cases es with
  | nil => exact Or.inl ⟨rfl, rfl⟩
  | cons e es => exact Or.inr ⟨by simp, blocks, rfl, h2⟩

/-- **C86 (one account).** -/
theorem C86_account_lines (today : Date) (a : Account Rat) (ls : List Str) (h : a.display today = .ok ls) :
    AccountLines today a ls := by
  unfold Account.display at h
  split at h
  · rename_i he
    simp only [Bool.and_eq_true, List.isEmpty_iff] at he
    cases h
    exact Or.inl ⟨by simp [Account.envelopes, he.1, he.2], rfl⟩
  · rename_i he
    simp only [bind, Except.bind, pure, Except.pure] at h
    split at h
    · simp at h
    · rename_i x hx
      split at h
      · simp at h
      · rename_i y hy
        injection h with h
        refine Or.inr ⟨?_, _, _, section_lines today _ _ _ hx, section_lines today _ _ _ hy, ?_⟩
        · intro h0
          apply he
          simp only [Account.envelopes, List.append_eq_nil_iff] at h0
          simp [h0.1, h0.2]
        · rw [← h]
          congr 4
          simp [Mag.eq, Mag.zero]

theorem displayAccounts_blocks (today : Date) (accs : List (Str × Account Rat)) (ks : List Str) (ls : List Str)
    (h : Ledger.displayAccounts today accs ks = .ok ls) :
    ∃ (accounts : List (Str × Account Rat)) (blocks : List (List Str)),
      accounts.map Prod.fst = ks ∧ (∀ x ∈ accounts, x ∈ accs) ∧
      List.Forall₂ (fun x b => AccountLines today x.2 b) accounts blocks ∧ ls = blocks.flatten := by
  induction ks generalizing ls with
  | nil => cases h; exact ⟨[], [], rfl, by simp, .nil, rfl⟩
  | cons k ks ih =>
    simp only [Ledger.displayAccounts, bind, Except.bind, pure, Except.pure] at h
    split at h
    · simp at h
    · rename_i a ha
      split at h
      · simp at h
      · rename_i b hb
        split at h
        · simp at h
        · rename_i bs hbs
          cases h
          obtain ⟨accounts, blocks, h1, h2, h3, rfl⟩ := ih _ hbs
          have hm : (k, a) ∈ accs := by
            unfold mapGet at ha
            cases hg : accs.find? (fun p => p.1 == k) with
            | none => rw [hg] at ha; simp [unwrap] at ha
            | some p =>
              rw [hg] at ha
              have h4 := List.mem_of_find?_eq_some hg
              have h5 := List.find?_some hg
              simp only [beq_iff_eq] at h5
              simp only [Option.map_some, unwrap] at ha
              cases ha
              rw [← h5]
              exact h4
          refine ⟨(k, a) :: accounts, b :: blocks, by simp [h1], ?_, .cons (C86_account_lines today a b hb) h3, rfl⟩
          intro x hx
          cases hx with
          | head => exact hm
          | tail _ hx => exact h2 x hx

/-- **C86.** The envelope report has one part for every account, in the order of their names: for each account
with envelopes its name, what is available, and every one of its expenses and then of its goals, with the two
amounts that add up to what the envelope holds. -/
theorem C86_report_lists_everything (env : Env) (hord : FairOrder env.ord) (l : Ledger Rat) (hl : l.Inv)
    (ls : List Str) (h : l.displayEnvelopes env = .ok ls) :
    ∃ (accounts : List (Str × Account Rat)) (blocks : List (List Str)),
      accounts.Perm l.accounts ∧ accounts.Pairwise (fun x y => strLt x.1 y.1 = true) ∧
      List.Forall₂ (fun x b => AccountLines env.today x.2 b) accounts blocks ∧ ls = blocks.flatten := by
  unfold Ledger.displayEnvelopes at h
  obtain ⟨accounts, blocks, h1, h2, h3, h4⟩ := displayAccounts_blocks env.today l.accounts _ ls h
  have hperm : (accounts.map Prod.fst).Perm (l.accounts.map Prod.fst) := by
    rw [h1]
    exact (stableSort_perm _ _).trans (hord _ _)
  have hnd : accounts.Nodup := List.Nodup.of_map Prod.fst (hperm.nodup_iff.2 hl.keys)
  refine ⟨accounts, blocks, ?_, ?_, h3, h4⟩
  · refine (List.subperm_of_subset hnd h2).perm_of_length_le ?_
    have := hperm.length_eq
    simp only [List.length_map] at this
    omega
  · have hs := stableSort_sorted strLt strLt_not_trans strLt_asymm (env.ord l.accountNames)
    rw [← h1] at hs
    have hn : (accounts.map Prod.fst).Nodup := hperm.nodup_iff.2 hl.keys
    unfold SortedBy at hs
    have := List.pairwise_map.1 (hs.and hn)
    refine this.imp fun {x y} hxy => ?_
    cases h5 : strLt x.1 y.1 with
    | true => rfl
    | false => exact absurd (strLt_total _ _ h5 hxy.1) hxy.2

/-- Two accounts with envelopes; in one of them 5 was saved and 8 spent. -/
example : (mainProgram Rat (stdEnv june15) { exOutside with ledgerFile := some s%"j" } [s%"env", s%"-n"]
      (disk [("j", "account b\n  expense x due every 1st\n    amount 5\n    for f\naccount f\naccount a
  goal g due 2024/07/07\n    amount 7\n
2024/01/02 * pay\n b 10\n f -10\n envelope b x 5\n
2024/06/14 * spend\n b -8\n f\n")])).2 =
    .ok [s%"a", s%"  available", s%"  goals", s%"    g",
      s%"      now                                          0 /  7 |                                        |",
      s%"      next (on 2024-07-07)                         0 /  7 |                                        |",
      s%"",
      s%"b", s%"  available", s%"     5", s%"  expenses", s%"    x",
      s%"      now                                          0 /  5 |                                        |",
      s%"      next (on 2024-07-01)                        -3 /  5 |                                        |",
      s%""] := by
  decide +kernel

end Silverfox
