import Verif.Proofs.Due
import Verif.Model.Envelope
import Verif.Codec

/-
C22-C30: due dates.
-/

namespace Silverfox

open Frequency

variable {M : Type}

/-! ### Specification -/

/-- `d` is the first date after `today` with the property `P`. -/
def FirstAfter (today : Date) (P : Date → Prop) (d : Date) : Prop :=
  Date.lt today d = true ∧ P d ∧ ∀ x, Date.lt today x = true → P x → Date.le d x = true

/-- `d` is the first date from `today` on with the property `P`. -/
def FirstFrom (today : Date) (P : Date → Prop) (d : Date) : Prop :=
  Date.le today d = true ∧ P d ∧ ∀ x, Date.le today x = true → P x → Date.le d x = true

/-- There is at most one first date. -/
theorem firstAfter_unique {today : Date} {P : Date → Prop} {d d' : Date}
    (h : FirstAfter today P d) (h' : FirstAfter today P d') : d = d' := by
  have h1 := (Date.le_iff_dayNum _ _).1 (h.2.2 d' h'.1 h'.2.1)
  have h2 := (Date.le_iff_dayNum _ _).1 (h'.2.2 d h.1 h.2.1)
  exact Date.dayNum_inj (by omega)

/-- Specification of "the `day`-th of its month, or the last day of a month that lacks that day". -/
def OnMonthly (day : Nat) (x : Date) : Prop :=
  x.d = day ∨ ((day = 0 ∨ monthLen x.y x.m < day) ∧ x.d = monthLen x.y x.m)

/-- Specification of "a whole number of fortnights after `start`, not before it". -/
def OnBiweekly (start x : Date) : Prop := ∃ k : Nat, x.dayNum = start.dayNum + 14 * k

/-- The 15th of June 2024, a Saturday; used in the examples. -/
def june15 : Date := ⟨2024, 6, 15, by decide⟩

theorem june15_inner : june15.Inner := by decide

theorem fst_iff_dayNum {today : Date} {P : Date → Prop} {d : Date} :
    FirstAfter today P d ↔ today.dayNum < d.dayNum ∧ P d ∧
      ∀ x : Date, today.dayNum < x.dayNum → P x → d.dayNum ≤ x.dayNum := by
  unfold FirstAfter
  simp only [Date.lt_iff_dayNum, Date.le_iff_dayNum]

theorem onMonthly_iff (day : Nat) (x : Date) : OnMonthly day x ↔ x.d = dueDay x.y x.m day := by
  have hv := x.valid
  unfold OnMonthly dueDay
  split <;> omega

/-! ### C22 -/

/-- C22: the next due date of a weekly schedule is the first date after today on that weekday. -/
theorem C22_weekly_next (today : Date) (w : Weekday) (h : today.Inner) :
    ∃ d, nextDue today (.weekly w) = .ok (some d) ∧
      FirstAfter today (fun x => x.weekday = w) d := by
  obtain ⟨d, hd, h1, _, h3, h4⟩ := nextDue_weekly today w (by have := h.range; omega)
  exact ⟨d, hd, fst_iff_dayNum.2 ⟨h1, h3, h4⟩⟩

/-- C22: it is at most a week away, and the last due date, on the same weekday, is on or before
today, seven days earlier. -/
theorem C22_weekly_last (today : Date) (w : Weekday) (h : today.Inner) :
    ∃ d l, nextDue today (.weekly w) = .ok (some d) ∧ lastDue today (.weekly w) = .ok (some l) ∧
      Date.le l today = true ∧ Date.lt today d = true ∧ Date.daysSince d l = 7 ∧
      l.weekday = w := by
  obtain ⟨d, hd, h1, h2, h3, _⟩ := nextDue_weekly today w (by have := h.range; omega)
  obtain ⟨l, hl⟩ := Date.addDays_isSome (a := d) (k := -7) (by have := h.range; omega)
    (by have := d.dayNum_range; omega)
  have hln := Date.addDays_dayNum hl
  refine ⟨d, l, hd, ?_, ?_, ?_, ?_, ?_⟩
  · simp [lastDue, hd, bind, Except.bind, hl, unwrap, pure, Except.pure]
  · rw [Date.le_iff_dayNum]; omega
  · rw [Date.lt_iff_dayNum]; omega
  · rw [Date.daysSince_eq]; omega
  · rw [← h3]; apply Date.weekday_congr; omega

/-- From Saturday 15 June 2024: next Monday is the 17th, next Saturday the 22nd. -/
example : nextDue june15 (.weekly .mon) = .ok (some ⟨2024, 6, 17, by decide⟩) ∧
    nextDue june15 (.weekly .sat) = .ok (some ⟨2024, 6, 22, by decide⟩) ∧
    lastDue june15 (.weekly .sat) = .ok (some june15) := by decide +kernel

/-! ### C23 -/

/-- C23: the next due date of a monthly schedule is the first date after today on the chosen day of
its month, or on the last day of a month that lacks that day. For every day number, also 0 and those
above 31, which the parser lets through. -/
theorem C23_monthly_next (today : Date) (day : Nat) (h : today.Inner) :
    ∃ d, nextDue today (.monthly day) = .ok (some d) ∧ FirstAfter today (OnMonthly day) d := by
  obtain ⟨d, hd, h1, h2⟩ := nextByDayOfMonth_spec today day (by have := h.2; omega)
  refine ⟨d, by simp [nextDue, hd, bind, Except.bind, pure, Except.pure], ?_, ?_, ?_⟩
  · rw [lt_iff_monthIdx]; omega
  · rw [onMonthly_iff]; exact h1
  · intro x hx hp
    rw [onMonthly_iff] at hp
    have hx' := (lt_iff_monthIdx today x).1 hx
    unfold Date.le
    cases hlt : Date.lt x d with
    | false => rfl
    | true =>
      have hlt' := (lt_iff_monthIdx x d).1 hlt
      exfalso
      have hsame : ∀ y : Date, x.monthIdx = y.monthIdx → x.d = dueDay y.y y.m day := by
        intro y hy
        obtain ⟨e1, e2⟩ := monthIdx_inj hy
        rw [hp, e1, e2]
      rcases h2 with ⟨h2, h3⟩ | ⟨h2, h3⟩
      · have : x.monthIdx = d.monthIdx := by omega
        have := hsame d this
        omega
      · by_cases he : x.monthIdx = today.monthIdx
        · have := hsame today he
          omega
        · have : x.monthIdx = d.monthIdx := by omega
          have := hsame d this
          omega

/-- On 31 January 2023 the 30th is next due on 28 February. -/
example : nextDue ⟨2023, 1, 31, by decide⟩ (.monthly 30) = .ok (some ⟨2023, 2, 28, by decide⟩) ∧
    nextDue june15 (.monthly 15) = .ok (some ⟨2024, 7, 15, by decide⟩) ∧
    nextDue ⟨2024, 12, 31, by decide⟩ (.monthly 31) = .ok (some ⟨2025, 1, 31, by decide⟩) := by
  decide +kernel

/-! ### Envelopes: where the starting date comes from -/

section

variable [Mag M]

theorem Frequency.parse_start (env : Env) (s fmt : Str) (starting : Option Date) (f : Frequency)
    (h : Frequency.parse env s fmt starting = .ok f) :
    (∀ d, f = .biweekly d → starting = some d) ∧ (∀ d, f = .bimonthly d → starting = some d) ∧
      (∀ d, f = .annually d → starting = some d) := by
  unfold Frequency.parse at h
  split at h
  · split at h
    · cases h
    · split at h
      · cases h; simp
      · split at h
        · cases h; simp
        · cases h
  · split at h
    · split at h
      · cases h; simp
      · split at h
        · cases h; simp
        · split at h
          · split at h
            · cases h; simp
            · cases h
          · cases h
    · split at h
      · cases h; simp
      · cases h

/-- The schedule of an envelope and its `starting` date belong together. -/
def Envelope.Coherent (e : Envelope M) : Prop :=
  (∀ d, e.freq = .biweekly d → e.starting = some d) ∧
  (∀ d, e.freq = .bimonthly d → e.starting = some d) ∧
  (∀ d, e.freq = .annually d → e.starting = some d)

theorem Envelope.extractFrequency_start (env : Env) (h fmt : Str) (starting : Option Date)
    (f : Frequency) (hf : Envelope.extractFrequency env h fmt starting = .ok f) :
    (∀ d, f = .biweekly d → starting = some d) ∧ (∀ d, f = .bimonthly d → starting = some d) ∧
      (∀ d, f = .annually d → starting = some d) := by
  unfold Envelope.extractFrequency at hf
  simp only at hf
  split at hf
  · cases hf; simp
  · split at hf
    · exact Frequency.parse_start _ _ _ _ _ hf
    · split at hf
      · exact Frequency.parse_start _ _ _ _ _ hf
      · cases hf

theorem Envelope.fromHeader_coherent (env : Env) (h fmt acc : Str) (e : Envelope M)
    (he : Envelope.fromHeader env h fmt acc = .ok e) : e.Coherent := by
  unfold Envelope.fromHeader at he
  split at he
  · simp only [bind, Except.bind, pure, Except.pure] at he
    split at he
    · cases he
    · split at he
      · cases he
      · split at he
        · cases he
        · rename_i f hf
          cases he
          exact Envelope.extractFrequency_start _ _ _ _ _ hf
  · cases he

theorem Envelope.addBodyLine_keeps (e e' : Envelope M) (dec : Char) (l : Str)
    (h : e.addBodyLine dec l = .ok e') :
    e'.freq = e.freq ∧ e'.starting = e.starting ∧ e'.name = e.name ∧ e'.account = e.account ∧
      e'.kind = e.kind := by
  unfold Envelope.addBodyLine at h
  simp only at h
  split at h
  · cases h
  · split at h
    · cases h
    · split at h
      · cases h; simp
      · split at h
        · unfold Envelope.addAccount at h
          split at h
          · cases h; simp
          · cases h
        · split at h
          · simp only [bind, Except.bind, pure, Except.pure] at h
            split at h
            · cases h
            · cases h; simp
          · split at h
            · simp only [bind, Except.bind, pure, Except.pure] at h
              split at h
              · cases h
              · cases h; simp
            · cases h

theorem Envelope.addBody_keeps (dec : Char) (ls : List Str) (e e' : Envelope M)
    (h : Envelope.addBody dec ls e = .ok e') :
    e'.freq = e.freq ∧ e'.starting = e.starting ∧ e'.name = e.name ∧ e'.account = e.account ∧
      e'.kind = e.kind := by
  induction ls generalizing e with
  | nil => cases h; simp
  | cons l ls ih =>
    simp only [Envelope.addBody, bind, Except.bind] at h
    split at h
    · cases h
    · rename_i e1 h1
      have := ih e1 h
      have := Envelope.addBodyLine_keeps e e1 dec l h1
      simp_all

/-- Every envelope read from a journal is coherent, which the theorems below assume. -/
theorem parsed_envelope_coherent (env : Env) (chunk acc : Str) (dec : Char) (fmt : Str)
    (e : Envelope M) (h : Envelope.parse env chunk acc dec fmt = .ok e) : e.Coherent := by
  unfold Envelope.parse at h
  split at h
  · cases h
  · simp only [bind, Except.bind] at h
    split at h
    · cases h
    · rename_i e1 h1
      have hc := Envelope.fromHeader_coherent _ _ _ _ _ h1
      have hk := Envelope.addBody_keeps _ _ _ _ h
      unfold Envelope.Coherent at hc ⊢
      rw [hk.1, hk.2.1]
      exact hc

end

/-! ### C24 -/

theorem tdiv14 (a : Int) :
    (a.tdiv 7).tdiv 2 = a.tdiv 14 ∧ (0 ≤ a → a.tdiv 14 = a / 14) ∧
      (a ≤ 0 → a.tdiv 14 = - (-a / 14)) := by
  have h2 : ∀ b : Int, b.tdiv 14 = if 0 ≤ b then b / 14 else - (-b / 14) := by
    intro b
    split
    · exact Int.tdiv_eq_ediv_of_nonneg (by assumption)
    · have := Int.tdiv_eq_ediv_of_nonneg (a := -b) (b := 14) (by omega)
      rw [Int.neg_tdiv] at this; omega
  have h3 : ∀ b : Int, b.tdiv 7 = if 0 ≤ b then b / 7 else - (-b / 7) := by
    intro b
    split
    · exact Int.tdiv_eq_ediv_of_nonneg (by assumption)
    · have := Int.tdiv_eq_ediv_of_nonneg (a := -b) (b := 7) (by omega)
      rw [Int.neg_tdiv] at this; omega
  have h4 : ∀ b : Int, b.tdiv 2 = if 0 ≤ b then b / 2 else - (-b / 2) := by
    intro b
    split
    · exact Int.tdiv_eq_ediv_of_nonneg (by assumption)
    · have := Int.tdiv_eq_ediv_of_nonneg (a := -b) (b := 2) (by omega)
      rw [Int.neg_tdiv] at this; omega
  rw [h4, h3, h2]
  refine ⟨?_, ?_, ?_⟩
  · by_cases h : 0 ≤ a
    · rw [if_pos h, if_pos h]; split <;> omega
    · rw [if_neg h, if_neg h]; split <;> omega
  · intro h; simp [h]
  · intro h; split <;> omega

theorem nextDue_biweekly (today start : Date) (h1 : today.Inner) (h2 : start.Inner) :
    ∃ d, nextDue today (.biweekly start) = .ok (some d) ∧
      d.dayNum = start.dayNum + 14 * ((today.dayNum - start.dayNum).tdiv 14 + 1) := by
  have hr1 := h1.range
  have hr2 := h2.range
  obtain ⟨ht, ht1, ht2⟩ := tdiv14 (today.dayNum - start.dayNum)
  obtain ⟨d, hd⟩ := Date.addDays_isSome (a := start)
    (k := ((today.dayNum - start.dayNum).tdiv 14 + 1) * 2 * 7) (by omega) (by omega)
  refine ⟨d, ?_, by have := Date.addDays_dayNum hd; omega⟩
  simp [nextDue, Date.daysSince_eq, ht, hd, unwrap, bind, Except.bind, pure, Except.pure]

/-- C24, where it holds: the next due date of an every-other-week envelope is the first date after
today a whole number of fortnights after its starting date, unless the starting date is one to
thirteen days ahead. -/
theorem C24_biweekly_next_partial (e : Envelope M) (start today : Date)
    (hf : e.freq = .biweekly start) (hs : e.starting = some start)
    (h1 : today.Inner) (h2 : start.Inner)
    (hgap : ¬ (0 < Date.daysSince start today ∧ Date.daysSince start today < 14)) :
    ∃ d, e.nextDue today = .ok (some d) ∧ FirstAfter today (OnBiweekly start) d := by
  obtain ⟨d, hd, hn⟩ := nextDue_biweekly today start h1 h2
  obtain ⟨_, ht1, ht2⟩ := tdiv14 (today.dayNum - start.dayNum)
  refine ⟨Date.max start d, ?_, ?_⟩
  · simp [Envelope.nextDue, hs, hf, hd, bind, Except.bind, pure, Except.pure]
  · rw [fst_iff_dayNum, Date.dayNum_max]
    rw [Date.daysSince_eq] at hgap
    refine ⟨by split <;> omega, ?_, ?_⟩
    · unfold OnBiweekly
      rw [Date.dayNum_max]
      by_cases hle : start.dayNum ≤ today.dayNum
      · exact ⟨((today.dayNum - start.dayNum).tdiv 14 + 1).toNat, by split <;> omega⟩
      · exact ⟨0, by split <;> omega⟩
    · rintro x hx ⟨k, hk⟩
      split <;> omega

/-- C24, where it fails: one to thirteen days ahead of the starting date, the due date given is a
fortnight after the starting date, although the starting date itself is still to come. -/
theorem C24_biweekly_skips_first (e : Envelope M) (start today : Date)
    (hf : e.freq = .biweekly start) (hs : e.starting = some start)
    (h1 : today.Inner) (h2 : start.Inner)
    (hgap : 0 < Date.daysSince start today ∧ Date.daysSince start today < 14) :
    ∃ d, e.nextDue today = .ok (some d) ∧ Date.daysSince d start = 14 ∧
      ¬ FirstAfter today (OnBiweekly start) d := by
  obtain ⟨d, hd, hn⟩ := nextDue_biweekly today start h1 h2
  obtain ⟨_, ht1, ht2⟩ := tdiv14 (today.dayNum - start.dayNum)
  rw [Date.daysSince_eq] at hgap
  refine ⟨Date.max start d, ?_, ?_, ?_⟩
  · simp [Envelope.nextDue, hs, hf, hd, bind, Except.bind, pure, Except.pure]
  · rw [Date.daysSince_eq, Date.dayNum_max]; split <;> omega
  · rw [fst_iff_dayNum, Date.dayNum_max]
    rintro ⟨_, _, h⟩
    have := h start (by omega) ⟨0, by omega⟩
    split at this <;> omega

/-- An envelope for examples. -/
def exEnv (f : Frequency) (s : Option Date) : Envelope Rat :=
  ⟨s%"x", ⟨30, none⟩, .expense, [], f, .conservative, s, ⟨0, none⟩, ⟨0, none⟩, s%"assets:bank", Date.zero⟩

example : (exEnv (.biweekly ⟨2024, 1, 1, by decide⟩) (some ⟨2024, 1, 1, by decide⟩)).nextDue june15
      = .ok (some ⟨2024, 6, 17, by decide⟩) ∧
    (exEnv (.biweekly ⟨2024, 6, 20, by decide⟩) (some ⟨2024, 6, 20, by decide⟩)).nextDue june15
      = .ok (some ⟨2024, 7, 4, by decide⟩) := by decide +kernel

/-! ### C25 -/

/-- C25, where it holds: the next due date of an every-other-month envelope is the first such date from
today on. Missing for the full claim: if today is itself a due date, it is returned although the
next one should be. -/
theorem C25_bimonthly_next_partial (e : Envelope M) (start today : Date)
    (hf : e.freq = .bimonthly start) (hs : e.starting = some start) (h1 : today.Inner) :
    ∃ d, e.nextDue today = .ok (some d) ∧ FirstFrom today (OnBimonthly start) d ∧
      (¬ OnBimonthly start today → FirstAfter today (OnBimonthly start) d) := by
  obtain ⟨d, hd, hp, hle, hmin⟩ := nextDue_bimonthly today start h1.2
  have hsd := onBimonthly_le hp
  have hmax : Date.max start d = d := by
    unfold Date.max; rw [if_neg]; simp [hsd]
  refine ⟨d, ?_, ⟨hle, hp, fun x hx hpx => hmin x hpx hx⟩, ?_⟩
  · simp [Envelope.nextDue, hs, hf, hd, bind, Except.bind, pure, Except.pure, hmax]
  · intro hno
    refine ⟨?_, hp, ?_⟩
    · rw [Date.le_iff_dayNum] at hle
      rw [Date.lt_iff_dayNum]
      have : today.dayNum ≠ d.dayNum := fun he => hno (Date.dayNum_inj he ▸ hp)
      omega
    · intro x hx hpx
      apply hmin x hpx
      rw [Date.lt_iff_dayNum] at hx
      rw [Date.le_iff_dayNum]; omega

/-- C25, where it fails: on a due date the "next" due date is today. -/
theorem C25_bimonthly_returns_today (e : Envelope M) (start today : Date)
    (hf : e.freq = .bimonthly start) (hs : e.starting = some start) (h1 : today.Inner)
    (ht : OnBimonthly start today) :
    e.nextDue today = .ok (some today) := by
  obtain ⟨d, hd, ⟨h2, _, h3⟩, _⟩ := C25_bimonthly_next_partial e start today hf hs h1
  have h4 := h3 today (by rw [Date.le_iff_dayNum]; omega) ht
  rw [Date.le_iff_dayNum] at h2 h4
  rw [hd, Date.dayNum_inj (a := d) (b := today) (by omega)]

/-- Started on 31 December: due on the last of February, and again on 30 April. -/
example : (exEnv (.bimonthly ⟨2023, 12, 31, by decide⟩) (some ⟨2023, 12, 31, by decide⟩)).nextDue
      ⟨2024, 2, 10, by decide⟩ = .ok (some ⟨2024, 2, 29, by decide⟩) ∧
    (exEnv (.bimonthly ⟨2023, 12, 31, by decide⟩) (some ⟨2023, 12, 31, by decide⟩)).nextDue
      ⟨2024, 3, 10, by decide⟩ = .ok (some ⟨2024, 4, 30, by decide⟩) ∧
    OnBimonthly ⟨2024, 4, 15, by decide⟩ june15 := by
  refine ⟨by decide +kernel, by decide +kernel, ⟨1, by decide⟩, by decide⟩

/-! ### C26 -/

/-- C26, where it holds: an annual envelope's next due date is after today as long as less than a
year has passed since the starting date, and it is then the first anniversary (or the starting
date). -/
theorem C26_annual_next_partial (e : Envelope M) (start today due : Date)
    (hf : e.freq = .annually start) (hs : e.starting = some start)
    (hdue : start.withYear (start.y + 1) = some due) (h : Date.lt today due = true) :
    ∃ d, e.nextDue today = .ok (some d) ∧
      FirstAfter today (fun x => x = start ∨ x = due) d := by
  obtain ⟨hy, hm, hd⟩ := Date.ofYmd?_eq_some.1 hdue
  have hsd : Date.lt start due = true := by rw [Date.lt_iff]; omega
  rw [Date.lt_iff_dayNum] at h hsd
  have hmax : Date.max start due = due := by
    unfold Date.max; rw [if_neg]; rw [Date.lt_iff_dayNum]; omega
  have hmax' : Date.max start start = start := by unfold Date.max; split <;> rfl
  by_cases hlt : Date.lt today start = true
  · refine ⟨start, ?_, fst_iff_dayNum.2 ⟨(Date.lt_iff_dayNum _ _).1 hlt, Or.inl rfl, ?_⟩⟩
    · simp [Envelope.nextDue, hs, hf, nextDue, hlt, bind, Except.bind, pure, Except.pure, hmax']
    · rintro x hx (rfl | rfl) <;> omega
  · refine ⟨due, ?_, fst_iff_dayNum.2 ⟨h, Or.inr rfl, ?_⟩⟩
    · simp [Envelope.nextDue, hs, hf, nextDue, hlt, hdue, bind, Except.bind, pure, Except.pure, hmax]
    · have := mt (Date.lt_iff_dayNum _ _).2 hlt
      rintro x hx (rfl | rfl) <;> omega

/-- C26, where it fails: from the first anniversary on the due date given is not after today any more,
and it stays the same for ever. -/
theorem C26_annual_stuck (e : Envelope M) (start today due : Date)
    (hf : e.freq = .annually start) (hs : e.starting = some start)
    (hdue : start.withYear (start.y + 1) = some due) (h : Date.le due today = true) :
    e.nextDue today = .ok (some due) := by
  obtain ⟨hy, hm, hd⟩ := Date.ofYmd?_eq_some.1 hdue
  have hsd : Date.lt start due = true := by rw [Date.lt_iff]; omega
  rw [Date.lt_iff_dayNum] at hsd
  rw [Date.le_iff_dayNum] at h
  have hmax : Date.max start due = due := by
    unfold Date.max; rw [if_neg]; rw [Date.lt_iff_dayNum]; omega
  have hlt : ¬ Date.lt today start = true := by rw [Date.lt_iff_dayNum]; omega
  simp [Envelope.nextDue, hs, hf, nextDue, hlt, hdue, bind, Except.bind, pure, Except.pure, hmax]

example : (exEnv (.annually ⟨2024, 1, 1, by decide⟩) (some ⟨2024, 1, 1, by decide⟩)).nextDue june15
      = .ok (some ⟨2025, 1, 1, by decide⟩) ∧
    (exEnv (.annually ⟨2020, 1, 1, by decide⟩) (some ⟨2020, 1, 1, by decide⟩)).nextDue june15
      = .ok (some ⟨2021, 1, 1, by decide⟩) := by decide +kernel

/-! ### C27 -/

/-- C27, where it holds: without a `starting` clause, a one-off envelope is due on its date until that
date arrives and never after; an envelope without date is never due. -/
theorem C27_one_off_partial (e : Envelope M) (d today : Date) (hs : e.starting = none) :
    (e.freq = .once d → e.nextDue today = .ok (if Date.lt today d then some d else none)) ∧
    (e.freq = .never → e.nextDue today = .ok none) := by
  constructor
  · intro hf
    by_cases h : Date.lt today d = true
    · have : Date.le d today = false := by simp [Date.le, h]
      simp [Envelope.nextDue, hs, hf, nextDue, h, this]
    · have : Date.le d today = true := by simpa [Date.le] using h
      simp [Envelope.nextDue, hs, hf, nextDue, h, this]
  · intro hf
    simp [Envelope.nextDue, hs, hf, nextDue]

/-- C27, where it fails: with a `starting` clause the envelope stays due for ever, at the starting
date, even though it has no date or its date has passed. -/
theorem C27_starting_clause_keeps_due (e : Envelope M) (s d today : Date)
    (hs : e.starting = some s)
    (hf : e.freq = .never ∨ (e.freq = .once d ∧ Date.le d today = true)) :
    e.nextDue today = .ok (some s) := by
  rcases hf with hf | ⟨hf, h⟩
  · simp [Envelope.nextDue, hs, hf, nextDue, bind, Except.bind, pure, Except.pure]
  · simp [Envelope.nextDue, hs, hf, nextDue, h, bind, Except.bind, pure, Except.pure]

/-- Such envelopes can be declared. -/
example : ∃ e : Envelope Rat, Envelope.parse (stdEnv june15)
    s%"goal car by 2024/1/31 starting 2024/1/1" s%"assets:bank" '.' s%"%Y/%m/%d" = .ok e ∧
    e.nextDue june15 = .ok (some ⟨2024, 1, 1, by decide⟩) :=
  ⟨_, rfl, by decide +kernel⟩

/-! ### C28 -/

/-- Specification: the schedules whose last due date can always be computed. -/
def Frequency.Safe : Frequency → Prop
  | .monthly day => 1 ≤ day ∧ day ≤ 28
  | .bimonthly s => s.d ≤ 28 ∨ (s.m % 2 = 1 ∧ s.d ≤ 30)
  | .annually s => ¬ (s.m = 2 ∧ s.d = 29)
  | _ => True

/-- The dates of a schedule are not at the ends of the calendar. -/
def Frequency.Inner : Frequency → Prop
  | .biweekly s => s.Inner
  | .bimonthly s => s.Inner
  | .annually s => s.Inner
  | .once s => s.Inner
  | _ => True

/-- C28: the next due date is computed without aborting, for every schedule and every day. -/
theorem C28_next_due_never_crashes (today : Date) (f : Frequency) (h1 : today.Inner)
    (h2 : f.Inner) : ∃ d, nextDue today f = .ok d := by
  cases f with
  | never => exact ⟨_, rfl⟩
  | once d => exact ⟨_, rfl⟩
  | weekly w => obtain ⟨d, hd, _⟩ := C22_weekly_next today w h1; exact ⟨_, hd⟩
  | biweekly s => obtain ⟨d, hd, _⟩ := nextDue_biweekly today s h1 h2; exact ⟨_, hd⟩
  | monthly day => obtain ⟨d, hd, _⟩ := C23_monthly_next today day h1; exact ⟨_, hd⟩
  | bimonthly s => obtain ⟨d, hd, _⟩ := nextDue_bimonthly today s h1.2; exact ⟨_, hd⟩
  | annually s =>
    simp only [nextDue]
    split
    · exact ⟨_, rfl⟩
    · exact ⟨_, rfl⟩

theorem subtractMonths_ok (a : Date) (num : Nat) (hn : num ≤ 12) (hy : minYear < a.y)
    (hd : ∀ (y : Int) (m : Nat), 12 * y + (m : Int) = a.monthIdx - num → 1 ≤ m → m ≤ 12 → a.d ≤ monthLen y m) :
    ∃ b, subtractMonths a num = .ok b ∧ b.monthIdx = a.monthIdx - num ∧ b.d = a.d := by
  have hv := a.valid
  unfold subtractMonths
  simp only
  split
  · rename_i hneg
    have hm : 1 ≤ (((a.m - 1 : Nat) : Int) - num + 12).toNat + 1 ∧
        (((a.m - 1 : Nat) : Int) - num + 12).toNat + 1 ≤ 12 := by omega
    have hi : 12 * (a.y - 1) + (((((a.m - 1 : Nat) : Int) - num + 12).toNat + 1 : Nat) : Int)
        = a.monthIdx - num := by unfold Date.monthIdx; omega
    have hval : validYmd (a.y - 1) ((((a.m - 1 : Nat) : Int) - num + 12).toNat + 1) a.d = true :=
      (validYmd_iff _ _ _).2 ⟨by omega, by omega, hm.1, hm.2, by omega, hd _ _ hi hm.1 hm.2⟩
    rw [Date.ofYmd?_some hval]
    exact ⟨_, rfl, hi, rfl⟩
  · rename_i hneg
    have hm : 1 ≤ (((a.m - 1 : Nat) : Int) - num).toNat + 1 ∧
        (((a.m - 1 : Nat) : Int) - num).toNat + 1 ≤ 12 := by omega
    have hi : 12 * a.y + (((((a.m - 1 : Nat) : Int) - num).toNat + 1 : Nat) : Int)
        = a.monthIdx - num := by unfold Date.monthIdx; omega
    have hval : validYmd a.y ((((a.m - 1 : Nat) : Int) - num).toNat + 1) a.d = true :=
      (validYmd_iff _ _ _).2 ⟨by omega, by omega, hm.1, hm.2, by omega, hd _ _ hi hm.1 hm.2⟩
    rw [Date.ofYmd?_some hval]
    exact ⟨_, rfl, hi, rfl⟩

theorem subtractMonths_panic (a : Date) (num : Nat) (hn : num ≤ 12)
    (hd : ∀ (y : Int) (m : Nat), 12 * y + (m : Int) = a.monthIdx - num → 1 ≤ m → m ≤ 12 → monthLen y m < a.d) :
    subtractMonths a num = .error .panic := by
  have hv := a.valid
  unfold subtractMonths
  simp only
  split
  · rename_i hneg
    have hm : 1 ≤ (((a.m - 1 : Nat) : Int) - num + 12).toNat + 1 ∧
        (((a.m - 1 : Nat) : Int) - num + 12).toNat + 1 ≤ 12 := by omega
    have hi : 12 * (a.y - 1) + (((((a.m - 1 : Nat) : Int) - num + 12).toNat + 1 : Nat) : Int)
        = a.monthIdx - num := by unfold Date.monthIdx; omega
    have := hd _ _ hi hm.1 hm.2
    have hval : validYmd (a.y - 1) ((((a.m - 1 : Nat) : Int) - num + 12).toNat + 1) a.d = false := by
      rw [← Bool.not_eq_true, validYmd_iff]; omega
    rw [Date.ofYmd?_none.2 hval]; rfl
  · rename_i hneg
    have hm : 1 ≤ (((a.m - 1 : Nat) : Int) - num).toNat + 1 ∧
        (((a.m - 1 : Nat) : Int) - num).toNat + 1 ≤ 12 := by omega
    have hi : 12 * a.y + (((((a.m - 1 : Nat) : Int) - num).toNat + 1 : Nat) : Int)
        = a.monthIdx - num := by unfold Date.monthIdx; omega
    have := hd _ _ hi hm.1 hm.2
    have hval : validYmd a.y ((((a.m - 1 : Nat) : Int) - num).toNat + 1) a.d = false := by
      rw [← Bool.not_eq_true, validYmd_iff]; omega
    rw [Date.ofYmd?_none.2 hval]; rfl

/-- A date after an inner date is not in the first year. -/
theorem minYear_lt_of_le {a b : Date} (h : a.Inner) (hle : a.dayNum ≤ b.dayNum) : minYear < b.y := by
  have := mt (Date.lt_iff_dayNum b a).1 (by omega)
  rw [Date.lt_iff] at this
  have := h.1
  omega

theorem monthLen_of_idx_odd {y : Int} {m : Nat} {n : Int} (h : 12 * y + (m : Int) = n) (h1 : 1 ≤ m)
    (h2 : m ≤ 12) (hn : n % 2 = 1) : 30 ≤ monthLen y m := by
  rcases month_cases h1 h2 with
    rfl | rfl | rfl | rfl | rfl | rfl | rfl | rfl | rfl | rfl | rfl | rfl <;>
    first | (simp [monthLen]; done) | (exfalso; omega)

/-- C28, where it holds: the last due date is computed without aborting for every safe schedule. -/
theorem C28_last_due_never_crashes_partial (today : Date) (f : Frequency) (h1 : today.Inner)
    (h2 : f.Inner) (hs : f.Safe) : ∃ d, lastDue today f = .ok d := by
  cases f with
  | never => exact ⟨_, rfl⟩
  | once d =>
    unfold lastDue
    simp only [nextDue, bind, Except.bind]
    split <;> exact ⟨_, rfl⟩
  | weekly w =>
    obtain ⟨_, l, _, hl, _⟩ := C22_weekly_last today w h1
    exact ⟨_, hl⟩
  | biweekly s =>
    obtain ⟨d, hd, hn⟩ := nextDue_biweekly today s h1 h2
    obtain ⟨_, ht1, ht2⟩ := tdiv14 (today.dayNum - s.dayNum)
    have hr1 := h1.range
    have hr2 := Date.Inner.range (show s.Inner from h2)
    obtain ⟨l, hl⟩ := Date.addDays_isSome (a := d) (k := -14) (by omega)
      (by have := d.dayNum_range; omega)
    exact ⟨some l, by simp [lastDue, hd, hl, bind, Except.bind, unwrap, pure, Except.pure]⟩
  | monthly day =>
    obtain ⟨d, hd, hlt, hp, _⟩ := C23_monthly_next today day h1
    rw [Date.lt_iff_dayNum] at hlt
    have hdd : d.d ≤ 28 := by
      have := monthLen_pos d.y d.m
      obtain ⟨_, _⟩ := hs
      unfold OnMonthly at hp
      omega
    obtain ⟨b, hb, _⟩ := subtractMonths_ok d 1 (by omega) (minYear_lt_of_le h1 (by omega))
      (fun y m _ _ _ => by have := monthLen_pos y m; omega)
    exact ⟨some b, by simp [lastDue, hd, hb, bind, Except.bind, pure, Except.pure]⟩
  | bimonthly s =>
    obtain ⟨d, hd, hp, hle, _⟩ := nextDue_bimonthly today s h1.2
    rw [Date.le_iff_dayNum] at hle
    obtain ⟨⟨k, hk⟩, hdd⟩ := hp
    obtain ⟨b, hb, _⟩ := subtractMonths_ok d 2 (by omega) (minYear_lt_of_le h1 (by omega))
      (fun y m hi hm1 hm2 => by
        have := monthLen_pos y m
        rcases hs with hs | ⟨hm, hs⟩
        · omega
        · have := monthLen_of_idx_odd hi hm1 hm2 (by unfold Date.monthIdx at hk ⊢; omega)
          omega)
    exact ⟨some b, by simp [lastDue, hd, hb, bind, Except.bind, pure, Except.pure]⟩
  | annually s =>
    have hi : s.Inner := h2
    have hv := s.valid
    have hne : ¬ (s.m = 2 ∧ s.d = 29) := hs
    have hval : ∀ y : Int, minYear ≤ y → y ≤ maxYear → validYmd y s.m s.d = true := by
      intro y ha hb
      refine (validYmd_iff _ _ _).2 ⟨ha, hb, hv.2.2.1, hv.2.2.2.1, hv.2.2.2.2.1, ?_⟩
      have h3 := hv.2.2.2.2.2
      have h29 : ∀ y, monthLen y 2 = if isLeap y then 29 else 28 := fun _ => rfl
      by_cases hm : s.m = 2
      · rw [hm, h29] at h3 ⊢
        have : s.d ≤ 29 := by split at h3 <;> omega
        split <;> omega
      · have : monthLen y s.m = monthLen s.y s.m := by
          unfold monthLen; split <;> simp_all
        rw [this]; exact h3
    have ha := Date.ofYmd?_some (hval (s.y + 1) (by have := hi.1; omega) (by have := hi.2; omega))
    have hb := Date.ofYmd?_some (hval (s.y - 1) (by have := hi.1; omega) (by have := hi.2; omega))
    by_cases hlt : Date.lt today s = true
    · exact ⟨some _, by
        simp [lastDue, nextDue, Date.withYear, hlt, hb, bind, Except.bind, unwrap, pure, Except.pure]; rfl⟩
    · exact ⟨some _, by
        simp [lastDue, nextDue, Date.withYear, hlt, ha, hb, bind, Except.bind, unwrap, pure, Except.pure]; rfl⟩

/-- C28, where it fails: for every other schedule there is a day on which computing the last due date
aborts the program. -/
theorem C28_unsafe_crashes (f : Frequency) (h2 : f.Inner) (hs : ¬ f.Safe)
    (hin : ∀ s, f = .bimonthly s → s.y + 5 < maxYear) :
    ∃ today : Date, lastDue today f = .error .panic := by
  cases f with
  | never => exact absurd trivial hs
  | once d => exact absurd trivial hs
  | weekly w => exact absurd trivial hs
  | biweekly s => exact absurd trivial hs
  | monthly day =>
    let t : Date := ⟨2023, 3, 15, by decide⟩
    refine ⟨t, ?_⟩
    have hday : day = 0 ∨ 29 ≤ day := by
      simp only [Frequency.Safe] at hs; omega
    obtain ⟨d, hd, hp, hidx⟩ := nextByDayOfMonth_spec t day (by decide)
    have hdue : dueDay 2023 3 day ≥ 29 := by
      unfold dueDay
      have : monthLen 2023 3 = 31 := rfl
      rw [this]; split <;> omega
    have hti : t.monthIdx = 12 * 2023 + 3 := rfl
    have hi : d.monthIdx = 12 * 2023 + 3 := by
      rcases hidx with h | h
      · rw [h.1, hti]
      · exfalso
        have h15 : t.d = 15 := rfl
        have : dueDay t.y t.m day = dueDay 2023 3 day := rfl
        omega
    have hym : d.y = 2023 ∧ d.m = 3 := by
      have hv := d.valid
      unfold Date.monthIdx at hi; omega
    rw [hym.1, hym.2] at hp
    have := subtractMonths_panic d 1 (by omega) (by
      intro y m he h1 h2
      have : y = 2023 ∧ m = 2 := by omega
      rw [this.1, this.2]
      have : monthLen 2023 2 = 28 := rfl
      omega)
    simp [lastDue, nextDue, hd, this, bind, Except.bind, pure, Except.pure]
  | bimonthly s =>
    have hi : s.Inner := h2
    have hv := s.valid
    have hml := monthLen_pos s.y s.m
    have hbound := hin s rfl
    simp only [Frequency.Safe] at hs
    by_cases hodd : s.m % 2 = 1
    · -- the 31st of an odd month: 31 January minus two months
      have h31 : s.d = 31 := by omega
      have hval : validYmd (s.y + 1) 1 1 = true :=
        (validYmd_iff _ _ _).2 ⟨by have := hi.1; omega, by omega, by omega, by omega, by omega, by simp [monthLen]⟩
      have hval31 : validYmd (s.y + 1) 1 31 = true :=
        (validYmd_iff _ _ _).2 ⟨by have := hi.1; omega, by omega, by omega, by omega, by omega, by simp [monthLen]⟩
      refine ⟨⟨s.y + 1, 1, 1, hval⟩, ?_⟩
      obtain ⟨d, hd, hp, hle, hmin⟩ := nextDue_bimonthly ⟨s.y + 1, 1, 1, hval⟩ s (by simp; omega)
      have hx := hmin ⟨s.y + 1, 1, 31, hval31⟩ ⟨⟨((13 - s.m) / 2), by simp only [Date.monthIdx]; omega⟩, by
        simp [monthLen, h31]⟩ (by simp [Date.le, Date.lt])
      have hdi : d.monthIdx = 12 * (s.y + 1) + 1 := by
        simp only [Date.le, Bool.not_eq_true'] at hle hx
        have h1 := mt (lt_iff_monthIdx _ _).2 (by simpa using hle)
        have h2 := mt (lt_iff_monthIdx _ _).2 (by simpa using hx)
        simp only [Date.monthIdx] at h1 h2 ⊢
        omega
      have hym : d.y = s.y + 1 ∧ d.m = 1 := by
        have := d.valid
        unfold Date.monthIdx at hdi; omega
      have hdd : d.d = 31 := by
        rw [hp.2, hym.1, hym.2, h31]; rfl
      have := subtractMonths_panic d 2 (by omega) (by
        intro y m he h1 h2
        have : m = 11 := by omega
        rw [this]; simp [monthLen]; omega)
      simp [lastDue, hd, this, bind, Except.bind]
    · -- the 29th to 31st of an even month: April minus two months, in a year that is no leap year
      have h29 : 29 ≤ s.d := by omega
      obtain ⟨y, hy1, hy2, hleap⟩ : ∃ y : Int, s.y < y ∧ y ≤ s.y + 4 ∧ isLeap y = false := by
        by_cases h : (s.y + 1) % 4 = 0
        · exact ⟨s.y + 2, by omega, by omega, by simp [isLeap]; omega⟩
        · exact ⟨s.y + 1, by omega, by omega, by simp [isLeap]; omega⟩
      have hval : validYmd y 3 1 = true :=
        (validYmd_iff _ _ _).2 ⟨by have := hi.1; omega, by omega, by omega, by omega, by omega, by simp [monthLen]⟩
      have hval4 : validYmd y 4 (min s.d 30) = true :=
        (validYmd_iff _ _ _).2 ⟨by have := hi.1; omega, by omega, by omega, by omega, by omega, by simp [monthLen]; omega⟩
      refine ⟨⟨y, 3, 1, hval⟩, ?_⟩
      obtain ⟨d, hd, hp, hle, hmin⟩ := nextDue_bimonthly ⟨y, 3, 1, hval⟩ s (by simp; omega)
      have hx := hmin ⟨y, 4, min s.d 30, hval4⟩ ⟨⟨((12 * (y - s.y) + 4 - s.m) / 2).toNat, by
        simp only [Date.monthIdx]; omega⟩, by simp [monthLen]⟩ (by simp [Date.le, Date.lt])
      have hdi : d.monthIdx = 12 * y + 4 := by
        simp only [Date.le, Bool.not_eq_true'] at hle hx
        have h1 := mt (lt_iff_monthIdx _ _).2 (by simpa using hle)
        have h2 := mt (lt_iff_monthIdx _ _).2 (by simpa using hx)
        obtain ⟨k, hk⟩ := hp.1
        simp only [Date.monthIdx] at h1 h2 hk ⊢
        omega
      have hym : d.y = y ∧ d.m = 4 := by
        have := d.valid
        unfold Date.monthIdx at hdi; omega
      have hdd : 29 ≤ d.d := by
        rw [hp.2, hym.1, hym.2]
        have : monthLen y 4 = 30 := rfl
        omega
      have := subtractMonths_panic d 2 (by omega) (by
        intro y' m he h1 h2
        have : y' = y ∧ m = 2 := by omega
        rw [this.1, this.2]
        simp [monthLen, hleap]; omega)
      simp [lastDue, hd, this, bind, Except.bind]
  | annually s =>
    have hf : s.m = 2 ∧ s.d = 29 := by
      simp only [Frequency.Safe] at hs; simpa using hs
    have hv := s.valid
    have hl : isLeap s.y = true := by
      have h3 := hv.2.2.2.2.2
      rw [hf.1, hf.2] at h3
      by_cases hl : isLeap s.y = true
      · exact hl
      · simp [monthLen, hl] at h3
    refine ⟨s, ?_⟩
    have hno : validYmd (s.y + 1) s.m s.d = false := by
      rw [← Bool.not_eq_true, validYmd_iff]
      rintro ⟨_, _, _, _, _, h6⟩
      rw [hf.1, hf.2] at h6
      have : isLeap (s.y + 1) = false := by
        simp [isLeap] at hl ⊢; omega
      simp [monthLen, this] at h6
    have hlt : Date.lt s s = false := by rw [Date.lt_false_iff_dayNum]; omega
    simp [lastDue, nextDue, hlt, Date.withYear, Date.ofYmd?_none.2 hno, bind, Except.bind, panicked]

/-- The parser accepts unsafe schedules. -/
example : Frequency.parse (stdEnv june15) s%"every 31st" s%"%Y/%m/%d" none = .ok (.monthly 31) ∧
    ¬ (Frequency.monthly 31).Safe ∧
    lastDue ⟨2024, 3, 10, by decide⟩ (.monthly 31) = .error .panic := by
  refine ⟨by decide +kernel, by simp [Frequency.Safe], by decide +kernel⟩

example : (Frequency.monthly 15).Safe ∧ (Frequency.bimonthly june15).Safe := by
  simp [Frequency.Safe, june15]

/-! ### C29 -/

/-- C29, where it holds: the last due date is on or before today, the next one after it, exactly one
period apart. Missing: annual schedules and the starting phase, where this is false (see
`C29_annual_two_years_apart`), and schedules that are not `Safe`, which abort. -/
theorem C29_last_next_bracket_today_partial (today : Date) (h1 : today.Inner) :
    (∀ w, ∃ l n, lastDue today (.weekly w) = .ok (some l) ∧ nextDue today (.weekly w) = .ok (some n) ∧
      Date.le l today = true ∧ Date.lt today n = true ∧ Date.daysSince n l = 7) ∧
    (∀ s : Date, s.Inner → Date.le s today = true →
      ∃ l n, lastDue today (.biweekly s) = .ok (some l) ∧ nextDue today (.biweekly s) = .ok (some n) ∧
      Date.le l today = true ∧ Date.lt today n = true ∧ Date.daysSince n l = 14) ∧
    (∀ day, 1 ≤ day → day ≤ 28 →
      ∃ l n, lastDue today (.monthly day) = .ok (some l) ∧ nextDue today (.monthly day) = .ok (some n) ∧
      Date.le l today = true ∧ Date.lt today n = true ∧ n.monthIdx = l.monthIdx + 1 ∧ l.d = day ∧
      n.d = day) ∧
    (∀ s : Date, s.Inner → s.d ≤ 28 → ¬ OnBimonthly s today →
      ∃ l n, lastDue today (.bimonthly s) = .ok (some l) ∧ nextDue today (.bimonthly s) = .ok (some n) ∧
      (Date.le s today = true → Date.le l today = true) ∧ Date.lt today n = true ∧
      n.monthIdx = l.monthIdx + 2 ∧ l.d = s.d ∧ n.d = s.d) := by
  refine ⟨?_, ?_, ?_, ?_⟩
  · intro w
    obtain ⟨n, l, hn, hl, h2, h3, h4, _⟩ := C22_weekly_last today w h1
    exact ⟨l, n, hl, hn, h2, h3, h4⟩
  · intro s hs hle
    obtain ⟨n, hn, hnn⟩ := nextDue_biweekly today s h1 hs
    obtain ⟨_, ht1, ht2⟩ := tdiv14 (today.dayNum - s.dayNum)
    have hr1 := h1.range
    have hr2 := hs.range
    rw [Date.le_iff_dayNum] at hle
    obtain ⟨l, hl⟩ := Date.addDays_isSome (a := n) (k := -14) (by omega)
      (by have := n.dayNum_range; omega)
    have hln := Date.addDays_dayNum hl
    refine ⟨l, n, ?_, hn, ?_, ?_, ?_⟩
    · simp [lastDue, hn, hl, bind, Except.bind, unwrap, pure, Except.pure]
    · rw [Date.le_iff_dayNum]; omega
    · rw [Date.lt_iff_dayNum]; omega
    · rw [Date.daysSince_eq]; omega
  · intro day hd1 hd28
    obtain ⟨n, hn, hlt, hp, hmin⟩ := C23_monthly_next today day h1
    have hnd : n.d = day := by
      have := monthLen_pos n.y n.m
      unfold OnMonthly at hp; omega
    have hlt' := (Date.lt_iff_dayNum _ _).1 hlt
    obtain ⟨l, hl, hli, hld⟩ := subtractMonths_ok n 1 (by omega) (minYear_lt_of_le h1 (by omega))
      (fun y m _ _ _ => by have := monthLen_pos y m; omega)
    refine ⟨l, n, ?_, hn, ?_, hlt, by omega, by omega, hnd⟩
    · simp [lastDue, hn, hl, bind, Except.bind, pure, Except.pure]
    · rw [Date.le_iff_dayNum]
      apply Int.le_of_not_gt
      intro hgt
      have := (Date.le_iff_dayNum _ _).1 (hmin l ((Date.lt_iff_dayNum _ _).2 hgt) (Or.inl (by omega)))
      have h3 : Date.lt l n = true := (lt_iff_monthIdx l n).2 (by omega)
      rw [Date.lt_iff_dayNum] at h3
      omega
  · intro s hs hd28 hno
    obtain ⟨n, hn, hp, hle, hmin⟩ := nextDue_bimonthly today s h1.2
    rw [Date.le_iff_dayNum] at hle
    have hlt : today.dayNum < n.dayNum := by
      have : today.dayNum ≠ n.dayNum := fun he => hno (Date.dayNum_inj he ▸ hp)
      omega
    obtain ⟨⟨k, hk⟩, hnd⟩ := hp
    have hml := monthLen_pos n.y n.m
    have hnd' : n.d = s.d := by omega
    obtain ⟨l, hl, hli, hld⟩ := subtractMonths_ok n 2 (by omega) (minYear_lt_of_le h1 (by omega))
      (fun y m _ _ _ => by have := monthLen_pos y m; omega)
    refine ⟨l, n, ?_, hn, ?_, by rw [Date.lt_iff_dayNum]; exact hlt, by omega, by omega, hnd'⟩
    · simp [lastDue, hn, hl, bind, Except.bind, pure, Except.pure]
    · intro hst
      rw [Date.le_iff_dayNum] at hst ⊢
      apply Int.le_of_not_gt
      intro hgt
      have h3 : Date.lt l n = true := (lt_iff_monthIdx l n).2 (by omega)
      rw [Date.lt_iff_dayNum] at h3
      by_cases hk0 : k = 0
      · have : n = s := by
          obtain ⟨e1, e2⟩ := monthIdx_inj (a := n) (b := s) (by omega)
          exact Date.ext' e1 e2 hnd'
        rw [this] at hlt
        omega
      · have hpl : OnBimonthly s l := ⟨⟨k - 1, by omega⟩, by
          have := monthLen_pos l.y l.m; omega⟩
        have := (Date.le_iff_dayNum _ _).1 (hmin l hpl ((Date.le_iff_dayNum _ _).2 (by omega)))
        omega

/-- C29, where it fails: after its first year, an annual schedule's next due date is in the past, and
its last due date two years before that. -/
theorem C29_annual_two_years_apart :
    lastDue june15 (.annually ⟨2020, 1, 1, by decide⟩) = .ok (some ⟨2019, 1, 1, by decide⟩) ∧
    nextDue june15 (.annually ⟨2020, 1, 1, by decide⟩) = .ok (some ⟨2021, 1, 1, by decide⟩) := by
  decide +kernel

/-! ### C30 -/

/-- C30: whatever weekday or day is named after `every other`, the schedule only depends on the
starting date. -/
theorem C30_named_day_is_ignored (env : Env) (what fmt : Str) (start : Date) :
    ((Weekday.parse what).isSome →
      Frequency.parse env (s%"every other " ++ what) fmt (some start) = .ok (.biweekly start)) ∧
    ((Weekday.parse what).isNone → (parseDayOfMonth what).isSome →
      Frequency.parse env (s%"every other " ++ what) fmt (some start) = .ok (.bimonthly start)) := by
  have hp : stripPrefix s%"every other " (s%"every other " ++ what) = some what := by
    simp [stripPrefix]
  constructor
  · intro h
    unfold Frequency.parse; rw [hp]; simp [h]
  · intro h1 h2
    have : (Weekday.parse what).isSome = false := by simpa using h1
    unfold Frequency.parse; rw [hp]; simp [this, h2]

/-- C30, where it holds: if the starting date is on the weekday named, so is the due date. (Same for a
day of the month up to 28, by `C29_last_next_bracket_today_partial`.) -/
theorem C30_every_other_weekday_partial (today start : Date) (w : Weekday)
    (h1 : today.Inner) (h2 : start.Inner) (hw : start.weekday = w) :
    ∃ d, nextDue today (.biweekly start) = .ok (some d) ∧ d.weekday = w := by
  obtain ⟨d, hd, hn⟩ := nextDue_biweekly today start h1 h2
  obtain ⟨_, ht1, ht2⟩ := tdiv14 (today.dayNum - start.dayNum)
  refine ⟨d, hd, ?_⟩
  rw [← hw]
  apply Date.weekday_congr
  omega

/-- C30, where it fails: `every other monday starting 2024/6/15` is due on Saturdays. -/
theorem C30_every_other_monday_on_saturday :
    Frequency.parse (stdEnv june15) s%"every other monday" s%"%Y/%m/%d" (some june15)
      = .ok (.biweekly june15) ∧
    ∃ d, nextDue june15 (.biweekly june15) = .ok (some d) ∧ d.weekday = .sat :=
  ⟨by decide +kernel, ⟨2024, 6, 29, by decide⟩, by decide +kernel, by decide +kernel⟩

end Silverfox
