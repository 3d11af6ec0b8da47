import Verif.Props.Filling

/-
Who is served first when money is short: C100, C101.

Specification: the money of a currency is a number; envelopes are served one after the other, each
taking what it wishes if there is enough left, otherwise what is left, but never less than what
brings it out of debt.
-/

namespace Silverfox

/-! ### Specification -/

/-- What an envelope that is due on `due` wishes to receive today. -/
def Envelope.wish (today due : Date) (e : Envelope Rat) : Rat :=
  match e.funding with
  | .manual => 0
  | .aggressive => min e.amount.mag (e.amount.mag - e.next.mag)
  | .conservative => min ((e.amount.mag - e.next.mag) / ((due.daysSince today : Int) : Rat))
      (e.amount.mag - e.next.mag)

/-- `p` is what envelope `e` gets today when `left` is left of its currency. -/
structure Gets (today : Date) (e : Envelope Rat) (left : Rat) (p : EnvPosting Rat) : Prop where
  account : p.account = e.account
  envelope : p.envelope = e.name
  currency : p.amount.sym = e.amount.sym
  skipped : e.Skipped today → p.amount.mag = 0
  active : ¬ e.Skipped today → ∃ due, e.nextDue today = .ok (some due) ∧
    p.amount.mag = max (min (e.wish today due) left) (max (-e.holds) 0)

/-- The envelopes `es` are served one after the other from the money `left`. -/
inductive Served (today : Date) :
    List (Envelope Rat) → (Option Str → Rat) → List (EnvPosting Rat) → Prop
  | nil (left) : Served today [] left []
  | cons {e es left p ps} : Gets today e (left e.amount.sym) p →
      Served today es (fun s => left s - if p.amount.sym = s then p.amount.mag else 0) ps →
      Served today (e :: es) left (p :: ps)

/-! ### Lemmas -/

theorem gets_of_filling (today : Date) (e : Envelope Rat) (avail : Pool Rat) (p : EnvPosting Rat)
    (h : e.fillingPosting today avail = .ok p) :
    Gets today e (avail.bal e.amount.sym) p := by
  obtain ⟨h1, h2, h3⟩ := fillingPosting_ok today e avail p h
  obtain ⟨_, hs, h⟩ := fillingAmount_ok today e _ _ h3
  refine ⟨h1, h2, hs, fun hk => ?_, fun hk => ?_⟩
  · rcases h with ⟨_, h⟩ | ⟨hn, _⟩
    · exact h
    · exact absurd hk hn
  · rcases h with ⟨hn, _⟩ | ⟨_, _, due, hd, h⟩
    · exact absurd hn hk
    · refine ⟨due, hd, ?_⟩
      rw [h, fillMag_rat, max_assoc]
      have ht : e.totalMag = e.holds := rfl
      have hr : (Mag.add e.amount.mag (Mag.neg e.next.mag) : Rat) = e.amount.mag - e.next.mag :=
        (sub_eq_add_neg _ _).symm
      rw [ht, hr]
      have hb : (avail.only e.amount.sym).mag = avail.bal e.amount.sym := rfl
      rw [hb, min_assoc, min_comm (avail.bal _), ← min_assoc]
      congr 2
      unfold Envelope.wish Envelope.instalment
      cases hf : e.funding with
      | manual => exact absurd (Or.inl hf) hk
      | aggressive => rfl
      | conservative => rw [hr]; rfl

theorem served_of_loop (today : Date) (es : List (Envelope Rat)) (avail : Pool Rat)
    (ps : List (EnvPosting Rat)) (h : Account.fillLoop today es avail = .ok ps) :
    Served today es avail.bal ps := by
  induction es generalizing avail ps with
  | nil => cases h; exact .nil _
  | cons e es ih =>
    obtain ⟨p, ps', rfl, hp, hps⟩ := fillLoop_cons today e es avail ps h
    refine .cons (gets_of_filling today e avail p hp) ?_
    have := ih _ _ hps
    have hb : (Pool.subAssign avail p.amount).bal
        = fun s => avail.bal s - if p.amount.sym = s then p.amount.mag else 0 := by
      funext s; exact Pool.bal_subAssign _ _ _
    rwa [hb] at this

theorem Gets.nonneg {today : Date} {e : Envelope Rat} {left : Rat} {p : EnvPosting Rat}
    (h : Gets today e left p) : 0 ≤ p.amount.mag := by
  by_cases hk : e.Skipped today
  · rw [h.skipped hk]
  · obtain ⟨_, _, hm⟩ := h.active hk
    rw [hm]; exact le_trans (le_max_right _ _) (le_max_right _ _)

theorem Gets.unique {today : Date} {e : Envelope Rat} {left : Rat} {p q : EnvPosting Rat}
    (h : Gets today e left p) (h' : Gets today e left q) : p = q := by
  have hm : p.amount.mag = q.amount.mag := by
    by_cases hk : e.Skipped today
    · rw [h.skipped hk, h'.skipped hk]
    · obtain ⟨d, hd, hm⟩ := h.active hk
      obtain ⟨d', hd', hm'⟩ := h'.active hk
      rw [hd] at hd'; cases hd'
      rw [hm, hm']
  have h1 := h.account.trans h'.account.symm
  have h2 := h.envelope.trans h'.envelope.symm
  have h3 := h.currency.trans h'.currency.symm
  obtain ⟨a, n, ⟨m, s⟩⟩ := p
  obtain ⟨a', n', ⟨m', s'⟩⟩ := q
  simp_all

/-! ### C100 -/

/-- C100, the exact rule: the fills of an account are those of serving its envelopes in the reverse
of the order in which they stand, goals before expenses, from what is available. -/
theorem C100_exact_rule (today : Date) (a : Account Rat) (ps : List (EnvPosting Rat))
    (h : a.fillingPostings today = .ok ps) :
    Served today (a.goals.reverse ++ a.expenses.reverse) (fun s => (a.available.only s).mag) ps := by
  have := served_of_loop today _ _ _ h
  rwa [Account.envelopes, List.reverse_append] at this

/-- C100: the rule leaves no choice. -/
theorem C100_rule_is_exact (today : Date) (es : List (Envelope Rat)) (left : Option Str → Rat)
    (ps qs : List (EnvPosting Rat)) (h : Served today es left ps) (h' : Served today es left qs) :
    ps = qs := by
  induction h generalizing qs with
  | nil => cases h'; rfl
  | cons hg _ ih =>
    cases h' with
    | cons hg' hs' =>
      cases hg.unique hg'
      rw [ih _ hs']

/-- Nothing is left of currency `s`: envelopes that are not in debt get nothing. -/
theorem served_nothing_left (today : Date) (s : Option Str) (es : List (Envelope Rat))
    (left : Option Str → Rat) (ps : List (EnvPosting Rat)) (h : Served today es left ps)
    (h0 : left s ≤ 0) :
    List.Forall₂ (fun e p => e.amount.sym = s → 0 ≤ e.holds → p.amount.mag = 0) es ps := by
  induction h with
  | nil => exact .nil
  | @cons e es left p ps hg _ ih =>
    refine .cons ?_ (ih ?_)
    · intro hs hp
      by_cases hk : e.Skipped today
      · exact hg.skipped hk
      · obtain ⟨d, _, hm⟩ := hg.active hk
        rw [hm, hs]
        rw [max_eq_right (by linarith : -e.holds ≤ 0)]
        exact max_eq_right (le_trans (min_le_right _ _) h0)
    · have := hg.nonneg
      show left s - _ ≤ 0
      split <;> linarith

/-- C100 (the claim, that the envelope due soonest is served first, is false, see
`C100_soonest_due_is_last`). What holds: envelopes are served in the reverse of the order in which
they stand, goals before expenses. If one of them gets less than it wishes, then all that come after
it, of its currency and not in debt, get nothing. Missing: the order by due date. -/
theorem C100_short_money_partial (today : Date) (a : Account Rat) (ps : List (EnvPosting Rat))
    (h : a.fillingPostings today = .ok ps) (before after : List (Envelope Rat)) (e : Envelope Rat)
    (hes : a.goals.reverse ++ a.expenses.reverse = before ++ e :: after) (due : Date)
    (hact : ¬ e.Skipped today) (hdue : e.nextDue today = .ok (some due)) :
    ∃ ps1 p ps2, ps = ps1 ++ p :: ps2 ∧ ps1.length = before.length ∧ p.envelope = e.name ∧
      (p.amount.mag < e.wish today due →
        List.Forall₂ (fun e' p' => e'.amount.sym = e.amount.sym → 0 ≤ e'.holds → p'.amount.mag = 0)
          after ps2) := by
  have hs := C100_exact_rule today a ps h
  rw [hes] at hs
  clear hes h
  generalize (fun s => (a.available.only s).mag) = left at hs
  induction before generalizing left ps with
  | nil =>
    cases hs with
    | @cons _ _ _ p ps hg hr =>
      refine ⟨[], p, ps, rfl, rfl, hg.envelope, fun hlt => ?_⟩
      refine served_nothing_left today e.amount.sym after _ ps hr ?_
      obtain ⟨d, hd, hm⟩ := hg.active hact
      rw [hdue] at hd; cases hd
      rw [if_pos hg.currency]
      have h1 : left e.amount.sym < e.wish today due := by
        by_contra hc
        rw [min_eq_left (not_lt.mp hc)] at hm
        have := le_max_left (e.wish today due) (max (-e.holds) 0)
        linarith
      have h2 : left e.amount.sym ≤ p.amount.mag := by
        rw [hm, min_eq_right (le_of_lt h1)]; exact le_max_left _ _
      linarith
  | cons b before ih =>
    cases hs with
    | @cons _ _ _ p ps hg hr =>
      obtain ⟨ps1, q, ps2, h1, h2, h3, h4⟩ := ih ps _ hr
      exact ⟨p :: ps1, q, ps2, by rw [h1]; rfl, by simp [h2], h3, h4⟩

/-- Rent due every 16th, and a holiday due in the winter of the next year. -/
def exRentText : Str :=
  s%"account assets:bank\n  expense rent due every 16th\n    amount 500\n    for expenses:rent\n    funding aggressive\n  goal holiday due 2025/12/25\n    amount 2000\n    for expenses:holiday\n    funding aggressive"

/-- Wages of 500. -/
def exWagesText : Str := s%"2024/6/10 * wages\n  assets:bank  500\n  income:job  -500"

set_option synthInstance.maxHeartbeats 400000 in
set_option synthInstance.maxSize 1000 in
/-- C100 is false: rent is due tomorrow, a holiday in a year and a half; with 500 available the
holiday gets it all and the rent nothing. -/
theorem C100_soonest_due_is_last :
    ∃ a : Account Rat, Account.parse (stdEnv june15) exRentText '.' s%"%Y/%m/%d" = .ok a ∧
    ∃ x : Entry Rat, Entry.parse (stdEnv june15) exWagesText s%"%Y/%m/%d" '.'
        [s%"assets:bank", s%"income:job"] = .ok x ∧
    ∃ a', a.processEntry june15 x = .ok a' ∧
    (a'.fillingPostings june15 = .ok
      [⟨s%"assets:bank", s%"holiday", ⟨500, none⟩⟩, ⟨s%"assets:bank", s%"rent", ⟨0, none⟩⟩] ∧
    ∀ e ∈ a'.envelopes,
      (e.name = s%"rent" → e.nextDue june15 = .ok (some ⟨2024, 6, 16, by decide⟩)) ∧
      (e.name = s%"holiday" → e.nextDue june15 = .ok (some ⟨2025, 12, 25, by decide⟩))) := by
  decide +kernel

/-! ### C101 -/

theorem Gets.mono {today : Date} {e : Envelope Rat} {l l' : Rat} {p q : EnvPosting Rat}
    (h : Gets today e l p) (h' : Gets today e l' q) (hl : l ≤ l') :
    p.amount.mag ≤ q.amount.mag ∧ l - p.amount.mag ≤ l' - q.amount.mag := by
  by_cases hk : e.Skipped today
  · rw [h.skipped hk, h'.skipped hk]; exact ⟨le_refl _, by linarith⟩
  · obtain ⟨d, hd, hm⟩ := h.active hk
    obtain ⟨d', hd', hm'⟩ := h'.active hk
    rw [hd] at hd'; cases hd'
    rw [hm, hm']
    generalize max (-e.holds) 0 = c
    generalize e.wish today d = w
    simp only [min_def, max_def]
    split_ifs <;> constructor <;> linarith

theorem served_mono (today : Date) (es : List (Envelope Rat)) (l l' : Option Str → Rat)
    (ps qs : List (EnvPosting Rat)) (h : Served today es l ps) (h' : Served today es l' qs)
    (hl : ∀ s, l s ≤ l' s) :
    List.Forall₂ (fun p q => p.account = q.account ∧ p.envelope = q.envelope ∧
      p.amount.sym = q.amount.sym ∧ p.amount.mag ≤ q.amount.mag) ps qs ∧
    ∀ s, l s - fillsIn s ps ≤ l' s - fillsIn s qs := by
  induction h generalizing l' qs with
  | nil =>
    cases h'
    exact ⟨.nil, fun s => by simpa [fillsIn] using hl s⟩
  | @cons e es l p ps hg _ ih =>
    cases h' with
    | @cons _ _ _ q qs hg' hs' =>
      have hm := hg.mono hg' (hl _)
      have hc := hg.currency.trans hg'.currency.symm
      have := ih _ _ hs' (fun s => by
        by_cases hs : p.amount.sym = s
        · have hs' : q.amount.sym = s := hc ▸ hs
          simp only [hs, hs', if_true]
          have : e.amount.sym = s := hg.currency ▸ hs
          subst this
          exact hm.2
        · have hs' : q.amount.sym ≠ s := hc ▸ hs
          simpa only [hs, hs', if_false, sub_zero] using hl s)
      refine ⟨.cons ⟨hg.account.trans hg'.account.symm, hg.envelope.trans hg'.envelope.symm, hc,
        hm.1⟩ this.1, fun s => ?_⟩
      have := this.2 s
      rw [fillsIn_cons, fillsIn_cons]
      unfold Amount.inSym
      linarith

/-- C101: of two accounts with the same envelopes, the one that has at least as much real money in
every currency fills every envelope at least as much, and still has at least as much left. -/
theorem C101_more_money_fills_more (today : Date) (a b : Account Rat)
    (he : a.expenses = b.expenses) (hg : a.goals = b.goals)
    (hr : ∀ s, (a.real.only s).mag ≤ (b.real.only s).mag)
    (ps qs : List (EnvPosting Rat)) (ha : a.fillingPostings today = .ok ps)
    (hb : b.fillingPostings today = .ok qs) :
    List.Forall₂ (fun p q => p.account = q.account ∧ p.envelope = q.envelope ∧
      p.amount.sym = q.amount.sym ∧ p.amount.mag ≤ q.amount.mag) ps qs ∧
    ∀ s, (a.available.only s).mag - fillsIn s ps ≤ (b.available.only s).mag - fillsIn s qs := by
  have h1 := C100_exact_rule today a ps ha
  have h2 := C100_exact_rule today b qs hb
  rw [he, hg] at h1
  refine served_mono today _ _ _ ps qs h1 h2 fun s => ?_
  show (a.available.only s).mag ≤ (b.available.only s).mag
  rw [C44_available, C44_available, he, hg]
  linarith [hr s]

/-- Rent and food, both saved for aggressively, with `n` in the bank. -/
def exTwo (n : Rat) : Account Rat :=
  ⟨s%"assets:bank",
    [⟨s%"rent", ⟨500, none⟩, .expense, [], .monthly 15, .aggressive, none, ⟨0, none⟩, ⟨0, none⟩,
      s%"assets:bank", Date.zero⟩,
     ⟨s%"food", ⟨300, none⟩, .expense, [], .monthly 20, .aggressive, none, ⟨0, none⟩, ⟨-20, none⟩,
      s%"assets:bank", Date.zero⟩], [], [⟨n, none⟩]⟩

example : (exTwo 200).fillingPostings june15 = .ok
      [⟨s%"assets:bank", s%"food", ⟨220, none⟩⟩, ⟨s%"assets:bank", s%"rent", ⟨0, none⟩⟩] ∧
    (exTwo 700).fillingPostings june15 = .ok
      [⟨s%"assets:bank", s%"food", ⟨300, none⟩⟩, ⟨s%"assets:bank", s%"rent", ⟨420, none⟩⟩] := by
  decide +kernel

end Silverfox
