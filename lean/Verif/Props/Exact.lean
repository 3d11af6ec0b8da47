import Verif.Props.Envelopes

/-
C13, C26, C27, C29, C35, C36: the exact rule where the claim itself does not always hold.
-/

namespace Silverfox

set_option linter.unusedSectionVars false

open Frequency

variable {M : Type} [Mag M]

/-! ### C13 -/

/-- What the envelope postings of an entry move, in all. -/
def envelopeSum (e : Entry Rat) : Rat := (e.envelopePostings.map fun x => x.amount.mag).sum

/-- What the ordinary postings of an entry move, the blank one at the amount `b`. -/
def ordinarySum (e : Entry Rat) (b : Amount Rat) : Rat :=
  ((e.postings.filter fun q => !q.isEnvelope).map fun q => (q.amount.getD b).mag).sum

theorem sums_split (ps : List (Posting Rat)) (b : Amount Rat) :
    (ps.map fun q => (q.amount.getD b).mag).sum =
      ((ps.filter fun q => !q.isEnvelope).map fun q => (q.amount.getD b).mag).sum +
      ((ps.filterMap fun p => match p with | .envelope x => some x | .classic _ => none).map
        fun x => x.amount.mag).sum := by
  induction ps with
  | nil => simp
  | cons p ps ih =>
    cases p with
    | classic c =>
      rw [List.filter_cons_of_pos (by rfl), List.filterMap_cons_none (by rfl), List.map_cons,
        List.map_cons, List.sum_cons, List.sum_cons, ih]
      ring
    | envelope x =>
      rw [List.filter_cons_of_neg (by simp [Posting.isEnvelope]), List.filterMap_cons_some (by rfl),
        List.map_cons, List.map_cons, List.sum_cons, List.sum_cons, ih]
      have : ((Posting.envelope x : Posting Rat).amount.getD b) = x.amount := rfl
      rw [this]
      ring

theorem entry_split (e : Entry Rat) (b : Amount Rat) :
    (e.postings.map fun q => (q.amount.getD b).mag).sum = ordinarySum e b + envelopeSum e := by
  have he : envelopeSum e = ((e.postings.filterMap fun p => match p with
      | .envelope x => some x | .classic _ => none).map fun x : EnvPosting Rat => x.amount.mag).sum := by
    unfold envelopeSum Entry.envelopePostings
    congr 3
    funext p
    cases p <;> rfl
  rw [he, sums_split]
  unfold ordinarySum
  congr 3

/-- C13, the exact rule: in an entry in one currency with a single blank posting, the ordinary
postings sum to minus what the envelope postings move. So the entry balances exactly if the envelope
movements of the entry cancel. -/
theorem C13_off_by_the_envelopes (e : Entry Rat) (s : Option Str)
    (pre post : List (Posting Rat)) (p : Posting Rat)
    (hps : e.postings = pre ++ p :: post) (hp : p.amount = none)
    (hrest : ∀ q ∈ pre ++ post, ∃ a, q.amount = some a ∧ a.sym = s) (hne : pre ++ post ≠ []) :
    ∃ b : Amount Rat, e.blankAmount = .ok (some b) ∧ b.sym = s ∧
      ordinarySum e b = - envelopeSum e ∧ (ordinarySum e b = 0 ↔ envelopeSum e = 0) := by
  have hin : AllIn s e.postings := by
    intro a ha
    obtain ⟨q, hq, hqa⟩ := List.mem_filterMap.1 ha
    rw [hps] at hq
    have : q ∈ pre ++ post ∨ q = p := by
      simp only [List.mem_append, List.mem_cons] at hq ⊢; tauto
    rcases this with hq | rfl
    · obtain ⟨a', h1, h2⟩ := hrest q hq
      rw [hqa] at h1; cases h1; exact h2
    · rw [hp] at hqa; cases hqa
  have hg : givenAmounts e.postings = givenAmounts (pre ++ post) := by
    rw [hps]; simp [givenAmounts, hp]
  have hne' : givenAmounts e.postings ≠ [] := by
    rw [hg]
    obtain ⟨q, hq⟩ := List.exists_mem_of_ne_nil _ hne
    obtain ⟨a, ha, _⟩ := hrest q hq
    intro hnil
    have : a ∈ givenAmounts (pre ++ post) := List.mem_filterMap.2 ⟨q, hq, ha⟩
    rw [hnil] at this; cases this
  obtain ⟨b, hb, hs, hsum⟩ := C13_blank_balances_partial e s ⟨p, by rw [hps]; simp, hp⟩ hin hne'
  have hsums : ∀ l : List (Posting Rat), (∀ q ∈ l, ∃ a, q.amount = some a ∧ a.sym = s) →
      (l.map fun q => (q.amount.getD b).mag).sum = sumMags (givenAmounts l) := by
    intro l
    induction l with
    | nil => intro _; rfl
    | cons q l ih =>
      intro h
      obtain ⟨a, ha, _⟩ := h q (by simp)
      have := ih (fun x hx => h x (by simp [hx]))
      simp only [List.map_cons, List.sum_cons, this, ha, Option.getD_some, givenAmounts_cons]
      simp [sumMags]
  have hall : (e.postings.map fun q => (q.amount.getD b).mag).sum = 0 := by
    have h1 := hsums (pre ++ post) hrest
    rw [← hg] at h1
    rw [hps]
    simp only [List.map_append, List.sum_append, List.map_cons, List.sum_cons, hp, Option.getD_none] at h1 ⊢
    linarith
  have hmain : ordinarySum e b = - envelopeSum e := by
    have hsplit := entry_split e b
    rw [hall] at hsplit
    linarith
  refine ⟨b, hb, hs, hmain, ?_⟩
  rw [hmain]
  constructor <;> intro h <;> linarith

/-- Five to the bank, 3 into an envelope and 3 out of another one: the entry balances. -/
example : ∃ e : Entry Rat, Entry.parse (stdEnv ⟨2024, 6, 15, by decide⟩)
      s%"2024/6/1 ~ pay\n  assets:bank  5\n  envelope assets:bank food 3\n  envelope assets:bank car -3\n  income"
      s%"%Y/%m/%d" '.' [s%"assets:bank", s%"income"] = .ok e ∧
      (envelopeSum e = 0 ∧ e.blankAmount = .ok (some ⟨-5, none⟩) ∧ ordinarySum e ⟨-5, none⟩ = 0) :=
  by decide +kernel

/-! ### C26 -/

/-- C26, the exact rule: the due date shown is the starting date before that day, afterwards the first
anniversary, for ever; it is the first due date after today exactly until the first anniversary. -/
theorem C26_annual_exact (e : Envelope M) (start today due : Date)
    (hf : e.freq = .annually start) (hs : e.starting = some start)
    (hdue : start.withYear (start.y + 1) = some due) :
    e.nextDue today = .ok (some (if Date.lt today start then start else due)) ∧
    ((∃ d, e.nextDue today = .ok (some d) ∧ Date.lt today d = true) ↔ Date.lt today due = true) := by
  obtain ⟨hy, hm, hd⟩ := Date.ofYmd?_eq_some.1 hdue
  have hsd : Date.lt start due = true := by rw [Date.lt_iff]; omega
  rw [Date.lt_iff_dayNum] at hsd
  have hmax : Date.max start due = due := by
    unfold Date.max; rw [if_neg]; rw [Date.lt_iff_dayNum]; omega
  have hmax' : Date.max start start = start := by unfold Date.max; split <;> rfl
  have hval : e.nextDue today = .ok (some (if Date.lt today start then start else due)) := by
    by_cases hlt : Date.lt today start = true
    · simp [Envelope.nextDue, hs, hf, nextDue, hlt, bind, Except.bind, pure, Except.pure, hmax']
    · simp [Envelope.nextDue, hs, hf, nextDue, hlt, hdue, bind, Except.bind, pure, Except.pure, hmax]
  refine ⟨hval, ?_⟩
  rw [hval]
  constructor
  · rintro ⟨d, hd, hlt⟩
    cases hd
    rw [Date.lt_iff_dayNum] at hlt ⊢
    split at hlt <;> omega
  · intro h
    refine ⟨_, rfl, ?_⟩
    split
    · assumption
    · exact h

/-- C26: an envelope started on a 29th of February has no due date at all from that day on. -/
theorem C26_leap_day (e : Envelope M) (start today : Date)
    (hf : e.freq = .annually start) (hs : e.starting = some start)
    (h29 : start.m = 2 ∧ start.d = 29) :
    e.nextDue today = .ok (some start) := by
  have hv := start.valid
  have hno : validYmd (start.y + 1) start.m start.d = false := by
    rw [← Bool.not_eq_true, validYmd_iff]
    rintro ⟨_, _, _, _, _, h6⟩
    have hl : isLeap start.y = true := by
      have h3 := hv.2.2.2.2.2
      rw [h29.1, h29.2] at h3
      by_cases hl : isLeap start.y = true
      · exact hl
      · simp [monthLen, hl] at h3
    rw [h29.1, h29.2] at h6
    have : isLeap (start.y + 1) = false := by
      simp [isLeap] at hl ⊢; omega
    simp [monthLen, this] at h6
  have hmax' : Date.max start start = start := by unfold Date.max; split <;> rfl
  by_cases hlt : Date.lt today start = true
  · simp [Envelope.nextDue, hs, hf, nextDue, hlt, bind, Except.bind, pure, Except.pure, hmax']
  · simp [Envelope.nextDue, hs, hf, nextDue, hlt, Date.withYear, Date.ofYmd?_none.2 hno, bind,
      Except.bind, pure, Except.pure]

example : (exEnv (.annually ⟨2024, 2, 29, by decide⟩) (some ⟨2024, 2, 29, by decide⟩)).nextDue june15
    = .ok (some ⟨2024, 2, 29, by decide⟩) := by decide +kernel

/-! ### C27 -/

/-- C27, the exact rule: with a `starting` clause, the envelope is due on the later of the two dates
until its date arrives, and on the starting date from then on. So it is rightly never due after its
date exactly if there is no `starting` clause. -/
theorem C27_exact (e : Envelope M) (d today : Date) (hf : e.freq = .once d) :
    e.nextDue today = .ok (match e.starting with
      | none => if Date.lt today d then some d else none
      | some s => some (if Date.lt today d then Date.max s d else s)) ∧
    (Date.le d today = true → (e.nextDue today = .ok none ↔ e.starting = none)) := by
  have hval : e.nextDue today = .ok (match e.starting with
      | none => if Date.lt today d then some d else none
      | some s => some (if Date.lt today d then Date.max s d else s)) := by
    by_cases h : Date.lt today d = true
    · have : Date.le d today = false := by simp [Date.le, h]
      cases hs : e.starting <;>
        simp [Envelope.nextDue, hs, hf, nextDue, h, this, bind, Except.bind, pure, Except.pure]
    · have : Date.le d today = true := by simpa [Date.le] using h
      cases hs : e.starting <;>
        simp [Envelope.nextDue, hs, hf, nextDue, h, this, bind, Except.bind, pure, Except.pure]
  refine ⟨hval, fun h => ?_⟩
  have h' : Date.lt today d = false := by simpa [Date.le] using h
  rw [hval]
  cases e.starting <;> simp [h']

example : (exEnv (.once ⟨2024, 1, 31, by decide⟩) (some ⟨2024, 1, 1, by decide⟩)).nextDue june15
    = .ok (some ⟨2024, 1, 1, by decide⟩) := by decide +kernel

/-! ### C29 -/

/-- C29, the exact rule for annual schedules: the last due date given is always a year before the
starting date, the next one the starting date or its first anniversary. So the two enclose today only
in the year before the starting date and, two years apart, in the year after it. -/
theorem C29_annual_exact (today start prev due : Date)
    (hprev : start.withYear (start.y - 1) = some prev)
    (hdue : start.withYear (start.y + 1) = some due) :
    lastDue today (.annually start) = .ok (some prev) ∧
    nextDue today (.annually start) = .ok (some (if Date.lt today start then start else due)) ∧
    ((∃ l n, lastDue today (.annually start) = .ok (some l) ∧
        nextDue today (.annually start) = .ok (some n) ∧
        Date.le l today = true ∧ Date.lt today n = true) ↔
      (Date.le prev today = true ∧ Date.lt today due = true)) ∧
    ((∃ l n, lastDue today (.annually start) = .ok (some l) ∧
        nextDue today (.annually start) = .ok (some n) ∧
        Date.le l today = true ∧ Date.lt today n = true ∧ n.y = l.y + 1) ↔
      (Date.le prev today = true ∧ Date.lt today start = true)) := by
  obtain ⟨hy, hm, hd⟩ := Date.ofYmd?_eq_some.1 hdue
  obtain ⟨hy', hm', hd'⟩ := Date.ofYmd?_eq_some.1 hprev
  have hsd : Date.lt start due = true := by rw [Date.lt_iff]; omega
  have hn : nextDue today (.annually start) =
      .ok (some (if Date.lt today start then start else due)) := by
    by_cases hlt : Date.lt today start = true <;> simp [nextDue, hlt, hdue]
  have hl : lastDue today (.annually start) = .ok (some prev) := by
    simp [lastDue, hn, hprev, unwrap, bind, Except.bind, pure, Except.pure]
  rw [Date.lt_iff_dayNum] at hsd
  refine ⟨hl, hn, ?_, ?_⟩
  · rw [hl, hn]
    constructor
    · rintro ⟨l, n, h1, h2, h3, h4⟩
      cases h1; cases h2
      refine ⟨h3, ?_⟩
      rw [Date.lt_iff_dayNum] at h4 ⊢
      split at h4 <;> omega
    · rintro ⟨h3, h4⟩
      refine ⟨_, _, rfl, rfl, h3, ?_⟩
      split
      · assumption
      · exact h4
  · rw [hl, hn]
    constructor
    · rintro ⟨l, n, h1, h2, h3, h4, h5⟩
      cases h1; cases h2
      refine ⟨h3, ?_⟩
      by_cases hlt : Date.lt today start = true
      · exact hlt
      · rw [if_neg hlt] at h5; omega
    · rintro ⟨h3, h4⟩
      refine ⟨_, _, rfl, rfl, h3, ?_, ?_⟩
      · rw [if_pos h4]; exact h4
      · rw [if_pos h4]; omega

example : (⟨2020, 1, 1, by decide⟩ : Date).withYear 2019 = some ⟨2019, 1, 1, by decide⟩ ∧
    (⟨2020, 1, 1, by decide⟩ : Date).withYear 2021 = some ⟨2021, 1, 1, by decide⟩ := by decide +kernel

/-! ### C35 -/

/-- C35, the exact rule: the money moved is the smaller of what the `for` accounts gained (with its
sign) and the size of the account's change, taken out if the account lost and put in otherwise. So a
refund, with `for` accounts that lost, takes out what they lost if the account gained. -/
theorem C35_exact (today : Date) (e e' : Envelope Rat) (entry : Entry Rat)
    (blank : Option (Amount Rat))
    (h : entry.hasEnvelopePosting = false)
    (hb : (∃ p ∈ entry.postings, p.amount = none) → entry.blankAmount = .ok blank)
    (hboth : touchesBoth entry e = true)
    (hok : e.processEntry today entry = .ok e') :
    e'.holds = e.holds + (if selfSum entry blank e < 0 then -1 else 1) *
        min (autoSum entry blank e) |selfSum entry blank e| ∧
    (autoSum entry blank e < 0 → 0 < selfSum entry blank e →
      e'.holds = e.holds - |autoSum entry blank e|) := by
  have hmain : e'.holds = e.holds + (if selfSum entry blank e < 0 then -1 else 1) *
        min (autoSum entry blank e) |selfSum entry blank e| := by
    unfold Envelope.processEntry at hok
    rw [if_neg (by simp [h])] at hok
    have hmv : autoMove entry blank e = (if selfSum entry blank e < 0 then -1 else 1) *
          min (autoSum entry blank e) |selfSum entry blank e| := by
      simp only [autoMove]
      split <;> simp
    rcases infer_ok today e e' entry blank hb hok with ⟨h1, _⟩ | ⟨_, h2, rfl⟩ | ⟨_, _, h3⟩
    · rw [h1] at hboth; cases hboth
    · rw [← hmv, h2]; simp
    · rw [applyAmount_holds _ _ _ _ _ h3, ← hmv]
  refine ⟨hmain, fun ha hs => ?_⟩
  rw [hmain, if_neg (by linarith), abs_of_neg ha,
    min_eq_left (le_trans (le_of_lt ha) (abs_nonneg _))]
  ring

/-- A refund of 10: the rule gives -10. -/
example : ∃ entry : Entry Rat, Entry.parse (stdEnv june15)
      s%"2024/6/10 ~ refund\n  assets:bank  10\n  expenses:food  -10" s%"%Y/%m/%d" '.'
      [s%"assets:bank", s%"expenses:food"] = .ok entry ∧
    (touchesBoth entry exFood = true ∧ autoSum entry none exFood = -10 ∧
      selfSum entry none exFood = 10) := by decide +kernel

/-! ### C36 -/

/-- A movement that is not zero. -/
def Amount.Moves (a : Amount M) : Prop :=
  Mag.lt a.mag (Mag.zero : M) = true ∨ Mag.lt (Mag.zero : M) a.mag = true

theorem applyAmount_foreign (today date : Date) (e : Envelope M) (a : Amount M) (ht : today.Inner)
    (hc : e.OneCurrency) (hs : e.SafeSchedule) (ha : a.sym ≠ e.amount.sym) :
    (a.Moves → e.applyAmount today a date = .error .panic) ∧
    (¬ a.Moves → ∃ e', e.applyAmount today a date = .ok e') := by
  obtain ⟨last, hl⟩ := C28_last_due_never_crashes_partial today e.freq ht hs.2 hs.1
  obtain ⟨h1, h2⟩ := hc
  have ha' : e.amount.sym ≠ a.sym := fun h => ha h.symm
  unfold Envelope.applyAmount Amount.Moves
  constructor
  · rintro (h | h)
    · simp [h, Amount.add, ha', h1, bind, Except.bind, panicked]
    · by_cases hneg : Mag.lt a.mag (Mag.zero : M) = true
      · simp [hneg, Amount.add, ha', h1, bind, Except.bind, panicked]
      · cases last with
        | none => simp [h, hneg, hl, Amount.add, ha', h2, bind, Except.bind, panicked]
        | some d =>
          cases hd : Date.lt date d <;>
            simp [h, hneg, hl, hd, Amount.add, ha', h1, h2, bind, Except.bind, panicked]
  · intro h
    rw [not_or] at h
    simp [h.1, h.2]

/-- C36, the exact rule for entries with envelope postings: processing one aborts exactly if some
posting naming the envelope moves a nonzero amount in another currency; otherwise it is processed. -/
theorem C36_manual_crashes_iff (today : Date) (e : Envelope M) (entry : Entry M)
    (ht : today.Inner) (hc : e.OneCurrency) (hs : e.SafeSchedule)
    (h : entry.hasEnvelopePosting = true) :
    (e.processEntry today entry = .error .panic ↔
      ∃ a ∈ manualMoves entry e, a.Moves ∧ a.sym ≠ e.amount.sym) ∧
    ((∀ a ∈ manualMoves entry e, a.Moves → a.sym = e.amount.sym) →
      ∃ e', e.processEntry today entry = .ok e') := by
  rw [processEntry_manual today e entry h]
  generalize manualMoves entry e = as
  have key : ∀ (as : List (Amount M)) (e : Envelope M), e.OneCurrency → e.SafeSchedule →
      (((∃ a ∈ as, a.Moves ∧ a.sym ≠ e.amount.sym) →
        applyAll today entry.date as e = .error .panic) ∧
      ((∀ a ∈ as, a.Moves → a.sym = e.amount.sym) →
        ∃ e', applyAll today entry.date as e = .ok e')) := by
    intro as
    induction as with
    | nil =>
      intro e _ _
      exact ⟨fun ⟨a, ha, _⟩ => (by cases ha), fun _ => ⟨e, rfl⟩⟩
    | cons a as ih =>
      intro e hc hs
      have step : ∀ e1, e.applyAmount today a entry.date = .ok e1 →
          e1.OneCurrency ∧ e1.SafeSchedule ∧ e1.amount.sym = e.amount.sym := by
        intro e1 h1
        have hk := applyAmount_keeps _ _ _ _ _ h1
        have hf := SameButMoney.fields hk.1
        refine ⟨?_, ?_, by rw [hf.2.2.1]⟩
        · unfold Envelope.OneCurrency at hc ⊢
          rw [hk.2.1, hk.2.2.1, hf.2.2.1]; exact hc
        · unfold Envelope.SafeSchedule at hs ⊢
          rw [hf.2.2.2.2.2.1]; exact hs
      by_cases hbad : a.Moves ∧ a.sym ≠ e.amount.sym
      · have hp := (applyAmount_foreign today entry.date e a ht hc hs hbad.2).1 hbad.1
        refine ⟨fun _ => by simp [applyAll, hp, bind, Except.bind], fun hall => ?_⟩
        exact absurd (hall a (by simp) hbad.1) hbad.2
      · have h1 : ∃ e1, e.applyAmount today a entry.date = .ok e1 := by
          by_cases hsym : a.sym = e.amount.sym
          · exact applyAmount_total today entry.date e a ht hc hs hsym
          · exact (applyAmount_foreign today entry.date e a ht hc hs hsym).2
              (fun hm => hbad ⟨hm, hsym⟩)
        obtain ⟨e1, h1⟩ := h1
        obtain ⟨g1, g2, g3⟩ := step e1 h1
        obtain ⟨i1, i2⟩ := ih e1 g1 g2
        rw [g3] at i1 i2
        simp only [applyAll, bind, Except.bind, h1]
        refine ⟨?_, fun hall => i2 (fun b hb => hall b (by simp [hb]))⟩
        rintro ⟨b, hb, hb2⟩
        rcases List.mem_cons.1 hb with rfl | hb
        · exact absurd hb2 hbad
        · exact i1 ⟨b, hb, hb2⟩
  obtain ⟨k1, k2⟩ := key as e hc hs
  refine ⟨⟨fun hp => ?_, k1⟩, k2⟩
  apply Classical.byContradiction
  intro hno
  have : ∀ a ∈ as, a.Moves → a.sym = e.amount.sym := by
    intro a ha hm
    apply Classical.byContradiction
    intro hne
    exact hno ⟨a, ha, hm, hne⟩
  obtain ⟨e', he'⟩ := k2 this
  rw [he'] at hp
  cases hp

/-- The posting is to the account of the envelope or to one of its `for` accounts. -/
def Envelope.Concerns (e : Envelope M) (p : Posting M) : Prop :=
  p.account = e.account ∨ p.account ∈ e.auto

/-- The posting has an amount in a currency, with a price in the native one. -/
def Posting.Priced (p : Posting M) : Prop :=
  (∃ a, p.amount = some a ∧ a.sym ≠ none) ∧ p.nativeValue ≠ none

/-- The posting is, at its given or inferred amount, in the currency of the envelope; or the envelope
is native, the posting priced and of no concern to the envelope. -/
def Envelope.Passes (e : Envelope M) (entry : Entry M) (p : Posting M) : Prop :=
  (∃ a, (p.amount = some a ∨ (p.amount = none ∧ entry.blankAmount = .ok (some a))) ∧
    a.sym = e.amount.sym) ∨
  (e.amount.sym = none ∧ p.Priced ∧ ¬ e.Concerns p)

/-- The envelope is native, and the posting, of concern to it, in a currency with a native price. -/
def Envelope.Chokes (e : Envelope M) (p : Posting M) : Prop :=
  e.amount.sym = none ∧ p.Priced ∧ e.Concerns p

theorem Posting.nativeValue_blank (p : Posting M) (h : p.amount = none) : p.nativeValue = none := by
  cases p with
  | classic c => simp [Posting.nativeValue, Classic.nativeValue, show c.amount = none from h]
  | envelope x => rfl

theorem blankAmount_ne_none (entry : Entry M) (hbl : entry.hasBlank = true) :
    entry.blankAmount ≠ .ok none := by
  intro hb
  unfold Entry.blankAmount at hb
  simp only [hbl, Bool.not_true, Bool.false_eq_true, if_false, bind, Except.bind, pure,
    Except.pure] at hb
  split at hb
  · split at hb <;> cases hb
  · split at hb
    · cases hb
    · split at hb
      · cases hb
      · split at hb <;> cases hb

theorem inferLoop_step (e : Envelope M) (entry : Entry M)
    (hgiven : givenAmounts entry.postings ≠ []) (p : Posting M) (hp : p ∈ entry.postings)
    (ps : List (Posting M)) (s a : Amount M) (hs : s.sym = e.amount.sym) (ha : a.sym = e.amount.sym) :
    (e.Passes entry p ∧ ∃ s' a' : Amount M, s'.sym = e.amount.sym ∧ a'.sym = e.amount.sym ∧
      e.inferLoop entry (p :: ps) s a = e.inferLoop entry ps s' a') ∨
    (¬ e.Passes entry p ∧ e.Chokes p ∧ e.inferLoop entry (p :: ps) s a = .error .panic) ∨
    (¬ e.Passes entry p ∧ ¬ e.Chokes p ∧ ∃ k, e.inferLoop entry (p :: ps) s a = .error (.err k)) := by
  -- an amount in the envelope's currency
  have good : ∀ x : Amount M, e.inferAmount entry p = .ok x → x.sym = e.amount.sym →
      ∃ s' a' : Amount M, s'.sym = e.amount.sym ∧ a'.sym = e.amount.sym ∧
        e.inferLoop entry (p :: ps) s a = e.inferLoop entry ps s' a' := by
    intro x hx hsym
    simp only [Envelope.inferLoop, hx, bind, Except.bind]
    by_cases h1 : p.account = e.account
    · refine ⟨⟨Mag.add s.mag x.mag, s.sym⟩, a, hs, ha, ?_⟩
      simp [h1, Amount.add, hs, hsym]
    · by_cases h2 : e.auto.contains p.account = true
      · refine ⟨s, ⟨Mag.add a.mag x.mag, a.sym⟩, hs, ha, ?_⟩
        simp only [h1, if_false, h2, if_true, Amount.add, ha, hsym]
      · exact ⟨s, a, hs, ha, by simp only [h1, if_false, h2]; rfl⟩
  -- an amount in another currency
  have other : ∀ x : Amount M, e.inferAmount entry p = .ok x → x.sym ≠ e.amount.sym →
      (e.Concerns p → e.inferLoop entry (p :: ps) s a = .error .panic) ∧
      (¬ e.Concerns p → e.inferLoop entry (p :: ps) s a = e.inferLoop entry ps s a) := by
    intro x hx hsym
    have hsym' : e.amount.sym ≠ x.sym := fun h => hsym h.symm
    simp only [Envelope.inferLoop, hx, bind, Except.bind]
    constructor
    · intro hcon
      by_cases h1 : p.account = e.account
      · simp [h1, Amount.add, hs, hsym', panicked]
      · have h2 : e.auto.contains p.account = true := by
          simpa using hcon.resolve_left h1
        simp only [h1, if_false, h2, if_true, Amount.add, ha, if_neg hsym', panicked]
    · intro hcon
      unfold Envelope.Concerns at hcon
      rw [not_or] at hcon
      have h2 : e.auto.contains p.account = false := by simpa using hcon.2
      simp only [if_neg hcon.1, h2]
      rfl
  have hbad : ∀ k, e.inferAmount entry p = .error (.err k) →
      ∃ k, e.inferLoop entry (p :: ps) s a = .error (.err k) :=
    fun k hk => ⟨k, by simp only [Envelope.inferLoop, hk, bind, Except.bind]⟩
  cases hpa : p.amount with
  | some x =>
    by_cases hsym : x.sym = e.amount.sym
    · left
      exact ⟨Or.inl ⟨x, Or.inl hpa, hsym⟩, good x (by
        simp [Envelope.inferAmount, hpa, hsym, bind, Except.bind, pure, Except.pure]) hsym⟩
    · have hnp : ∀ y, (p.amount = some y ∨ (p.amount = none ∧ entry.blankAmount = .ok (some y))) →
          y.sym ≠ e.amount.sym := by
        rintro y (h | ⟨h, _⟩)
        · rw [hpa] at h; cases h; exact hsym
        · rw [hpa] at h; cases h
      by_cases hes : e.amount.sym = none
      · have hxs : x.sym ≠ none := fun h => hsym (by rw [h, hes])
        cases hnv : p.nativeValue with
        | some m =>
          have hpr : p.Priced := ⟨⟨x, hpa, hxs⟩, by rw [hnv]; simp⟩
          have hin : e.inferAmount entry p = .ok { x with mag := m } := by
            simp [Envelope.inferAmount, hpa, hes, hxs, hnv, bind, Except.bind, pure, Except.pure]
          obtain ⟨o1, o2⟩ := other _ hin (by simpa using hsym)
          by_cases hcon : e.Concerns p
          · right; left
            refine ⟨?_, ⟨hes, hpr, hcon⟩, o1 hcon⟩
            rintro (⟨y, hy, hys⟩ | ⟨_, _, h⟩)
            · exact hnp y hy hys
            · exact h hcon
          · left
            exact ⟨Or.inr ⟨hes, hpr, hcon⟩, s, a, hs, ha, o2 hcon⟩
        | none =>
          right; right
          refine ⟨?_, fun h => h.2.1.2 hnv, hbad .processing (by
            simp [Envelope.inferAmount, hpa, hes, hxs, hnv, bind, Except.bind, pure, Except.pure, fail])⟩
          rintro (⟨y, hy, hys⟩ | ⟨_, h, _⟩)
          · exact hnp y hy hys
          · exact h.2 hnv
      · right; right
        refine ⟨?_, fun h => hes h.1, hbad .processing (by
          have : e.amount.sym.isSome = true := Option.isSome_iff_ne_none.2 hes
          simp [Envelope.inferAmount, hpa, hsym, this, bind, Except.bind, pure, Except.pure, fail])⟩
        rintro (⟨y, hy, hys⟩ | ⟨h, _⟩)
        · exact hnp y hy hys
        · exact hes h
  | none =>
    have hnv := p.nativeValue_blank hpa
    have hnc : ¬ e.Chokes p := fun h => h.2.1.2 hnv
    have hpass : e.Passes entry p → ∃ y, entry.blankAmount = .ok (some y) ∧ y.sym = e.amount.sym := by
      rintro (⟨y, h | ⟨_, h⟩, hys⟩ | ⟨_, h, _⟩)
      · rw [hpa] at h; cases h
      · exact ⟨y, h, hys⟩
      · exact absurd hnv h.2
    cases hbl : entry.blankAmount with
    | error f =>
      cases f with
      | panic =>
        exfalso
        obtain ⟨_, hall⟩ := (C17_blank_amount_crashes_iff entry).1 hbl
        apply hgiven
        unfold givenAmounts
        rw [List.filterMap_eq_nil_iff]
        exact hall
      | err k =>
        right; right
        refine ⟨fun h => ?_, hnc, hbad k (by
          simp [Envelope.inferAmount, hpa, hbl, bind, Except.bind])⟩
        obtain ⟨y, hy, _⟩ := hpass h
        rw [hbl] at hy; cases hy
    | ok b =>
      cases b with
      | none =>
        exfalso
        have hhb : entry.hasBlank = true := List.any_eq_true.2 ⟨p, hp, by simp [hpa]⟩
        exact blankAmount_ne_none entry hhb hbl
      | some y =>
        by_cases hsym : y.sym = e.amount.sym
        · left
          exact ⟨Or.inl ⟨y, Or.inr ⟨hpa, hbl⟩, hsym⟩, good y (by
            simp [Envelope.inferAmount, hpa, hbl, hsym, unwrap, bind, Except.bind, pure, Except.pure]) hsym⟩
        · right; right
          refine ⟨fun h => ?_, hnc, hbad .processing (by
            simp [Envelope.inferAmount, hpa, hbl, hsym, hnv, unwrap, bind, Except.bind, fail])⟩
          obtain ⟨z, hz, hzs⟩ := hpass h
          rw [hbl] at hz; cases hz
          exact hsym hzs

/-- C36, the exact rule for entries without envelope postings: processing one aborts exactly if it
concerns both the account and a `for` account, the envelope is native, and, before any posting that
cannot be valued, there is a posting to one of these accounts in a currency with a native price. -/
theorem C36_auto_crashes_iff (today : Date) (e : Envelope M) (entry : Entry M)
    (ht : today.Inner) (hc : e.OneCurrency) (hs : e.SafeSchedule)
    (h : entry.hasEnvelopePosting = false)
    (hgiven : givenAmounts entry.postings ≠ []) :
    e.processEntry today entry = .error .panic ↔
      touchesBoth entry e = true ∧ ∃ pre p post, entry.postings = pre ++ p :: post ∧
        (∀ q ∈ pre, e.Passes entry q) ∧ e.Chokes p := by
  unfold Envelope.processEntry
  rw [if_neg (by simp [h])]
  cases htb : touchesBoth entry e with
  | false =>
    rw [infer_untouched today e entry htb]
    constructor
    · intro hh; cases hh
    · rintro ⟨hh, _⟩; cases hh
  | true =>
    rw [infer_touched today e entry htb]
    have key : ∀ (ps : List (Posting M)), (∀ p ∈ ps, p ∈ entry.postings) →
        ∀ s a : Amount M, s.sym = e.amount.sym → a.sym = e.amount.sym →
        (e.inferLoop entry ps s a = .error .panic ↔
          ∃ pre p post, ps = pre ++ p :: post ∧ (∀ q ∈ pre, e.Passes entry q) ∧ e.Chokes p) := by
      intro ps
      induction ps with
      | nil =>
        intro _ s a _ _
        simp only [Envelope.inferLoop]
        constructor
        · intro hh; cases hh
        · rintro ⟨pre, p, post, hh, _⟩; simp at hh
      | cons p ps ih =>
        intro hmem s a hsy hay
        have hnb : e.Passes entry p → ¬ e.Chokes p := by
          rintro (⟨y, hy, hys⟩ | ⟨_, _, h3⟩) ⟨c1, ⟨⟨x, hx, hxs⟩, hnv⟩, c3⟩
          · rcases hy with hy | ⟨hy, _⟩
            · rw [hx] at hy; cases hy; exact hxs (by rw [hys, c1])
            · rw [hx] at hy; cases hy
          · exact h3 c3
        rcases inferLoop_step e entry hgiven p (hmem p (by simp)) ps s a hsy hay with
          ⟨hp, s', a', hs', ha', heq⟩ | ⟨hp, hch, heq⟩ | ⟨hp, hch, k, heq⟩
        · rw [heq, ih (fun q hq => hmem q (by simp [hq])) s' a' hs' ha']
          constructor
          · rintro ⟨pre, q, post, hps, hpre, hq⟩
            refine ⟨p :: pre, q, post, by rw [hps]; rfl, ?_, hq⟩
            intro r hr
            rcases List.mem_cons.1 hr with rfl | hr
            · exact hp
            · exact hpre r hr
          · rintro ⟨pre, q, post, hps, hpre, hq⟩
            cases pre with
            | nil =>
              simp only [List.nil_append, List.cons.injEq] at hps
              rw [← hps.1] at hq
              exact absurd hq (hnb hp)
            | cons r pre =>
              simp only [List.cons_append, List.cons.injEq] at hps
              exact ⟨pre, q, post, hps.2, fun x hx => hpre x (by simp [hx]), hq⟩
        · rw [heq]
          exact ⟨fun _ => ⟨[], p, ps, rfl, fun q hq => (by cases hq), hch⟩, fun _ => rfl⟩
        · rw [heq]
          constructor
          · intro hh; cases hh
          · rintro ⟨pre, q, post, hps, hpre, hq⟩
            cases pre with
            | nil =>
              simp only [List.nil_append, List.cons.injEq] at hps
              rw [← hps.1] at hq
              exact absurd hq hch
            | cons r pre =>
              simp only [List.cons_append, List.cons.injEq] at hps
              exact absurd (by rw [hps.1]; exact hpre r (by simp)) hp
    have k := key entry.postings (fun p hp => hp) ⟨Mag.zero, e.amount.sym⟩ ⟨Mag.zero, e.amount.sym⟩ rfl rfl
    rw [← k]
    simp only [bind, Except.bind, true_and]
    cases hl : e.inferLoop entry entry.postings ⟨Mag.zero, e.amount.sym⟩ ⟨Mag.zero, e.amount.sym⟩ with
    | error f => simp
    | ok r =>
      simp only [reduceCtorEq, iff_false]
      split
      · obtain ⟨e', he'⟩ := applyAmount_total today entry.date e
          ⟨if Mag.lt r.1.mag (Mag.zero : M) then Mag.neg (Mag.min r.2.mag (Mag.abs r.1.mag))
            else Mag.min r.2.mag (Mag.abs r.1.mag), e.amount.sym⟩ ht hc hs rfl
        rw [he']
        simp
      · simp [pure, Except.pure]

/-- Paying from the bank in euros of known price chokes the envelope; a priced posting to some other
account passes. -/
example : exFood.Chokes (.classic ⟨s%"assets:bank", some ⟨-5, some s%"EUR"⟩, some (.unit ⟨2, none⟩), none⟩) ∧
    exFood.Passes exBuy (.classic ⟨s%"income", some ⟨-5, some s%"EUR"⟩, some (.unit ⟨2, none⟩), none⟩) := by
  refine ⟨⟨rfl, ⟨⟨_, rfl, by simp⟩, ?_⟩, Or.inl rfl⟩, Or.inr ⟨rfl, ⟨⟨_, rfl, by simp⟩, ?_⟩, ?_⟩⟩
  · simp [Posting.nativeValue, Classic.nativeValue]
  · simp [Posting.nativeValue, Classic.nativeValue]
  · unfold Envelope.Concerns; decide +kernel

end Silverfox
