import Verif.Proofs.Calendar
import Verif.Model.Frequency

/-
Lemmas about schedules.
-/

namespace Silverfox

open Frequency

/-! ### Weekly -/

theorem weeklyLoop_spec (w : Weekday) (k f : Nat) (a : Date) (hk : k < f)
    (hr : a.dayNum + k ≤ Date.maxDay) (hw : (a.dayNum + k - 1) % 7 = (w.toNat : Int))
    (hno : ∀ j : Nat, j < k → (a.dayNum + j - 1) % 7 ≠ (w.toNat : Int)) :
    ∃ d, weeklyLoop w f a = .ok d ∧ d.dayNum = a.dayNum + k := by
  induction k generalizing f a with
  | zero =>
    match f, hk with
    | f + 1, _ =>
      have : a.weekday = w := by
        have h1 := Date.weekday_toNat a
        have h2 : a.weekday.toNat = w.toNat := by omega
        rw [← Date.ofIdx_toNat a.weekday, h2, Date.ofIdx_toNat]
      exact ⟨a, by simp [weeklyLoop, this], by omega⟩
  | succ k ih =>
    match f, hk with
    | f + 1, hk =>
      have hne : a.weekday ≠ w := by
        intro h
        have h1 := Date.weekday_toNat a
        rw [h] at h1
        exact hno 0 (by omega) (by omega)
      obtain ⟨b, hb⟩ := Date.addDays_isSome (a := a) (k := 1) (by have := a.dayNum_range; omega) (by omega)
      have hbn := Date.addDays_dayNum hb
      obtain ⟨d, hd, hdn⟩ := ih f b (by omega) (by omega) (by omega) (by
        intro j hj
        have := hno (j + 1) (by omega)
        intro h
        apply this
        omega)
      refine ⟨d, ?_, by omega⟩
      simp [weeklyLoop, hne, hb, unwrap, bind, Except.bind, hd]

theorem exists_offset (n : Int) (w : Weekday) :
    ∃ k : Nat, k < 7 ∧ (n + k - 1) % 7 = (w.toNat : Int) ∧
      ∀ j : Nat, j < k → (n + j - 1) % 7 ≠ (w.toNat : Int) := by
  have hw : w.toNat < 7 := by cases w <;> decide
  refine ⟨(((w.toNat : Int) + 1 - n) % 7).toNat, ?_, ?_, ?_⟩
  · omega
  · omega
  · intro j hj; omega

theorem nextDue_weekly (today : Date) (w : Weekday) (h : today.dayNum + 7 ≤ Date.maxDay) :
    ∃ d, nextDue today (.weekly w) = .ok (some d) ∧ today.dayNum < d.dayNum ∧
      d.dayNum ≤ today.dayNum + 7 ∧ d.weekday = w ∧
      ∀ x : Date, today.dayNum < x.dayNum → x.weekday = w → d.dayNum ≤ x.dayNum := by
  obtain ⟨t, ht⟩ := Date.addDays_isSome (a := today) (k := 1)
    (by have := today.dayNum_range; omega) (by omega)
  have htn := Date.addDays_dayNum ht
  obtain ⟨k, hk, hw, hno⟩ := exists_offset t.dayNum w
  obtain ⟨d, hd, hdn⟩ := weeklyLoop_spec w k 7 t hk (by omega) hw hno
  refine ⟨d, ?_, by omega, by omega, ?_, ?_⟩
  · simp [nextDue, ht, unwrap, bind, Except.bind, hd, pure, Except.pure]
  · have h1 := Date.weekday_toNat d
    have h2 : d.weekday.toNat = w.toNat := by
      rw [hdn] at h1; omega
    rw [← Date.ofIdx_toNat d.weekday, h2, Date.ofIdx_toNat]
  · intro x hx hxw
    have h1 := Date.weekday_toNat x
    rw [hxw] at h1
    apply Int.le_of_not_gt
    intro hlt
    apply hno (x.dayNum - t.dayNum).toNat (by omega)
    have : t.dayNum + ((x.dayNum - t.dayNum).toNat : Int) - 1 = x.dayNum - 1 := by omega
    rw [this]; exact h1.symm

/-! ### Months -/

/-- Number of a month, counted from year 0. -/
def Date.monthIdx (a : Date) : Int := 12 * a.y + a.m

theorem monthIdx_inj {a b : Date} (h : a.monthIdx = b.monthIdx) : a.y = b.y ∧ a.m = b.m := by
  have ha := a.valid
  have hb := b.valid
  unfold Date.monthIdx at h
  omega

theorem lt_iff_monthIdx (a b : Date) : Date.lt a b = true ↔
    a.monthIdx < b.monthIdx ∨ (a.monthIdx = b.monthIdx ∧ a.d < b.d) := by
  have ha := a.valid
  have hb := b.valid
  rw [Date.lt_iff]
  unfold Date.monthIdx
  omega

/-- `day` if the month has it, otherwise the last day of the month. -/
def dueDay (y : Int) (m day : Nat) : Nat :=
  if 1 ≤ day ∧ day ≤ monthLen y m then day else monthLen y m

theorem dueDay_valid (y : Int) (m day : Nat) :
    1 ≤ dueDay y m day ∧ dueDay y m day ≤ monthLen y m := by
  have := monthLen_pos y m
  unfold dueDay
  split <;> omega

theorem lastDateOfMonth_spec (a : Date) (h : a.y < maxYear) :
    ∃ d, lastDateOfMonth a = .ok d ∧ d.y = a.y ∧ d.m = a.m ∧ d.d = monthLen a.y a.m := by
  have hv := a.valid
  have hp := monthLen_pos a.y a.m
  have hval : validYmd a.y a.m (monthLen a.y a.m) = true :=
    (validYmd_iff _ _ _).2 ⟨hv.1, hv.2.1, hv.2.2.1, hv.2.2.2.1, by omega, by omega⟩
  refine ⟨⟨a.y, a.m, monthLen a.y a.m, hval⟩, ?_, rfl, rfl, rfl⟩
  unfold lastDateOfMonth
  by_cases hm : a.m < 12
  · have h1 : validYmd a.y (a.m + 1) 1 = true :=
      (validYmd_iff _ _ _).2 ⟨hv.1, hv.2.1, by omega, by omega, by omega,
        by have := monthLen_pos a.y (a.m + 1); omega⟩
    have h2 : 1 < a.m + 1 := by omega
    simp only [Date.ofYmd?_some h1, Date.pred?, bind, Except.bind, pure, Except.pure]
    simp [h2, Date.ofYmd?_some hval, unwrap]
  · have hm12 : a.m = 12 := by omega
    have h0 : validYmd a.y (a.m + 1) 1 = false := by
      rw [hm12]; simp [validYmd]
    have h1 : validYmd (a.y + 1) 1 1 = true :=
      (validYmd_iff _ _ _).2 ⟨by omega, by omega, by omega, by omega, by omega,
        by have := monthLen_pos (a.y + 1) 1; omega⟩
    have h3 : monthLen a.y a.m = 31 := by rw [hm12]; rfl
    have hval' : validYmd a.y 12 31 = true := by
      rw [hm12] at hval
      exact hval
    simp only [Date.ofYmd?_none.2 h0, Date.ofYmd?_some h1, Date.pred?, bind, Except.bind, unwrap]
    simp [Date.ofYmd?_some hval', hm12, monthLen]

theorem withDay_getD (l : Date) (day : Nat) (hl : l.d = monthLen l.y l.m) :
    ((l.withDay day).getD l).y = l.y ∧ ((l.withDay day).getD l).m = l.m ∧
      ((l.withDay day).getD l).d = dueDay l.y l.m day := by
  have hv := l.valid
  unfold Date.withDay dueDay
  by_cases h : 1 ≤ day ∧ day ≤ monthLen l.y l.m
  · have : validYmd l.y l.m day = true := (validYmd_iff _ _ _).2 (by grind)
    rw [Date.ofYmd?_some this]
    simp [h]
  · have : validYmd l.y l.m day = false := by
      rw [← Bool.not_eq_true, validYmd_iff]; grind
    rw [Date.ofYmd?_none.2 this]
    simp [h, hl]

theorem withDay_getD' (today l : Date) (day : Nat) (hy : l.y = today.y) (hm : l.m = today.m)
    (hl : l.d = monthLen today.y today.m) :
    ((today.withDay day).getD l).y = today.y ∧ ((today.withDay day).getD l).m = today.m ∧
      ((today.withDay day).getD l).d = dueDay today.y today.m day := by
  have : today.withDay day = l.withDay day := by unfold Date.withDay; rw [hy, hm]
  rw [this]
  have := withDay_getD l day (by rw [hy, hm]; exact hl)
  rw [hy, hm] at this
  exact this

theorem firstAfterNext_spec (today : Date) (h : today.y < maxYear) :
    ∃ first l : Date, (match Date.ofYmd? today.y (today.m + 2) 1 with
      | some d => pure d
      | none => unwrap (Date.ofYmd? (today.y + 1) (((today.m - 1) + 2) % 12 + 1) 1)) = (.ok first : Res Date) ∧
      first.pred? = some l ∧ l.monthIdx = today.monthIdx + 1 ∧ l.d = monthLen l.y l.m := by
  have hv := today.valid
  by_cases hm : today.m ≤ 10
  · have h1 : validYmd today.y (today.m + 2) 1 = true :=
      (validYmd_iff _ _ _).2 ⟨hv.1, hv.2.1, by omega, by omega, by omega,
        by have := monthLen_pos today.y (today.m + 2); omega⟩
    have h2 : validYmd today.y (today.m + 1) (monthLen today.y (today.m + 1)) = true :=
      (validYmd_iff _ _ _).2 ⟨hv.1, hv.2.1, by omega, by omega,
        by have := monthLen_pos today.y (today.m + 1); omega, by omega⟩
    refine ⟨⟨_, _, _, h1⟩, ⟨_, _, _, h2⟩, by rw [Date.ofYmd?_some h1]; rfl, ?_, ?_, rfl⟩
    · have : 1 < today.m + 2 := by omega
      simp [Date.pred?, Date.ofYmd?_some h2]
    · simp only [Date.monthIdx]; omega
  · have h0 : validYmd today.y (today.m + 2) 1 = false := by
      rw [← Bool.not_eq_true, validYmd_iff]; omega
    rw [Date.ofYmd?_none.2 h0]
    by_cases h11 : today.m = 11
    · have h1 : validYmd (today.y + 1) 1 1 = true :=
        (validYmd_iff _ _ _).2 ⟨by omega, by omega, by omega, by omega, by omega, by simp [monthLen]⟩
      have h2 : validYmd today.y 12 31 = true :=
        (validYmd_iff _ _ _).2 ⟨by omega, by omega, by omega, by omega, by omega, by simp [monthLen]⟩
      refine ⟨⟨_, _, _, h1⟩, ⟨_, _, _, h2⟩, by rw [h11]; simp [Date.ofYmd?_some h1, unwrap], ?_, ?_, rfl⟩
      · simp [Date.pred?, Date.ofYmd?_some h2]
      · simp only [Date.monthIdx]; omega
    · have h12 : today.m = 12 := by omega
      have h1 : validYmd (today.y + 1) 2 1 = true :=
        (validYmd_iff _ _ _).2 ⟨by omega, by omega, by omega, by omega, by omega,
          by have := monthLen_pos (today.y + 1) 2; omega⟩
      have h2 : validYmd (today.y + 1) 1 31 = true :=
        (validYmd_iff _ _ _).2 ⟨by omega, by omega, by omega, by omega, by omega, by simp [monthLen]⟩
      refine ⟨⟨_, _, _, h1⟩, ⟨_, _, _, h2⟩, by rw [h12]; simp [Date.ofYmd?_some h1, unwrap], ?_, ?_, rfl⟩
      · simp [Date.pred?, monthLen, Date.ofYmd?_some h2]
      · simp only [Date.monthIdx]; omega

/-- The date found: this month's due day if it is still to come, otherwise next month's. -/
theorem nextByDayOfMonth_spec (today : Date) (day : Nat) (h : today.y < maxYear) :
    ∃ d, nextByDayOfMonth today day = .ok d ∧ d.d = dueDay d.y d.m day ∧
      ((d.monthIdx = today.monthIdx ∧ today.d < d.d) ∨
        (d.monthIdx = today.monthIdx + 1 ∧ dueDay today.y today.m day ≤ today.d)) := by
  obtain ⟨l, hl, hly, hlm, hld⟩ := lastDateOfMonth_spec today h
  obtain ⟨e1, e2, e3⟩ := withDay_getD' today l day hly hlm hld
  unfold nextByDayOfMonth
  simp only [hl, bind, Except.bind]
  generalize hdue : (today.withDay day).getD l = due at e1 e2 e3
  have hidx : due.monthIdx = today.monthIdx := by simp [Date.monthIdx, e1, e2]
  by_cases hlt : Date.lt today due = true
  · refine ⟨due, by simp [hlt, pure, Except.pure], by rw [e3, e1, e2], Or.inl ⟨hidx, ?_⟩⟩
    have := (lt_iff_monthIdx today due).1 hlt
    omega
  · simp only [hlt, Bool.false_eq_true, if_false]
    obtain ⟨first, l', hf, hp, hi, hd'⟩ := firstAfterNext_spec today h
    obtain ⟨g1, g2, g3⟩ := withDay_getD l' day hd'
    refine ⟨(l'.withDay day).getD l', ?_, by rw [g1, g2, g3], Or.inr ⟨?_, ?_⟩⟩
    · cases ho : Date.ofYmd? today.y (today.m + 2) 1 with
      | some d =>
        rw [ho] at hf
        cases hf
        simp [hp, unwrap, pure, Except.pure]
      | none =>
        rw [ho] at hf
        simp only at hf ⊢
        rw [hf]
        simp [hp, unwrap, pure, Except.pure]
    · rw [← hi]; simp [Date.monthIdx, g1, g2]
    · have := mt (lt_iff_monthIdx today due).2 hlt
      rw [← e3]
      omega

/-! ### Every other month -/

theorem plusTwoMonths_spec (a : Date) (day : Nat) (h : a.y + 1 < maxYear) (h1 : 1 ≤ day) :
    ∃ b, plusTwoMonths a day = .ok b ∧ b.monthIdx = a.monthIdx + 2 ∧
      b.d = min day (monthLen b.y b.m) := by
  have hv := a.valid
  unfold plusTwoMonths
  have hy : ∃ y : Int, y = a.y + (((a.m - 1) + 2) / 12 : Nat) := ⟨_, rfl⟩
  have hm : ∃ m : Nat, m = ((a.m - 1) + 2) % 12 + 1 := ⟨_, rfl⟩
  obtain ⟨y, hy⟩ := hy
  obtain ⟨m, hm⟩ := hm
  have hm1 : 1 ≤ m ∧ m ≤ 12 := by omega
  have hi : 12 * y + (m : Int) = a.monthIdx + 2 := by unfold Date.monthIdx; omega
  have hyr : minYear ≤ y ∧ y < maxYear := by omega
  simp only [← hy, ← hm]
  by_cases hd : day ≤ monthLen y m
  · have hvv : validYmd y m day = true :=
      (validYmd_iff _ _ _).2 ⟨hyr.1, by omega, hm1.1, hm1.2, h1, hd⟩
    refine ⟨⟨y, m, day, hvv⟩, by rw [Date.ofYmd?_some hvv], hi, ?_⟩
    exact (Nat.min_eq_left hd).symm
  · have hvv : validYmd y m day = false := by
      rw [← Bool.not_eq_true, validYmd_iff]; omega
    have hv1 : validYmd y m 1 = true :=
      (validYmd_iff _ _ _).2 ⟨hyr.1, by omega, hm1.1, hm1.2, by omega,
        by have := monthLen_pos y m; omega⟩
    obtain ⟨d, hd1, hd2, hd3, hd4⟩ := lastDateOfMonth_spec ⟨y, m, 1, hv1⟩ hyr.2
    refine ⟨d, ?_, ?_, ?_⟩
    · simp only [Date.ofYmd?_none.2 hvv, Date.ofYmd?_some hv1, unwrap, bind, Except.bind]
      exact hd1
    · rw [← hi]; simp [Date.monthIdx, hd2, hd3]
    · simp only at hd2 hd3 hd4
      rw [hd2, hd3, hd4]
      exact (Nat.min_eq_right (by omega)).symm

/-- The due dates of an every-other-month schedule. -/
def OnBimonthly (start x : Date) : Prop :=
  (∃ k : Nat, x.monthIdx = start.monthIdx + 2 * k) ∧ x.d = min start.d (monthLen x.y x.m)

theorem bimonthlyLoop_spec (today start : Date) (hy : today.y + 1 < maxYear) (f : Nat) (a : Date)
    (hf : today.dayNum - a.dayNum ≤ f) (ha : OnBimonthly start a)
    (hno : ∀ x, OnBimonthly start x → Date.lt x a = true → Date.lt x today = true) :
    ∃ d, bimonthlyLoop today start.d (f + 1) a = .ok d ∧ OnBimonthly start d ∧
      Date.le today d = true ∧
      ∀ x, OnBimonthly start x → Date.le today x = true → Date.le d x = true := by
  have done : Date.lt a today = false → ∃ d, bimonthlyLoop today start.d (f + 1) a = .ok d ∧
      OnBimonthly start d ∧ Date.le today d = true ∧
      ∀ x, OnBimonthly start x → Date.le today x = true → Date.le d x = true := by
    intro hlt
    refine ⟨a, by simp [bimonthlyLoop, hlt], ha, by simp [Date.le, hlt], ?_⟩
    intro x hx hle
    unfold Date.le at hle ⊢
    cases hxa : Date.lt x a with
    | false => rfl
    | true => rw [hno x hx hxa] at hle; cases hle
  induction f generalizing a with
  | zero =>
    apply done
    rw [Date.lt_false_iff_dayNum]
    omega
  | succ f ih =>
    cases hlt : Date.lt a today with
    | false => exact done hlt
    | true =>
      have hv := start.valid
      have hay : a.y ≤ today.y := by
        have := (Date.lt_iff a today).1 hlt; omega
      obtain ⟨b, hb, hbi, hbd⟩ := plusTwoMonths_spec a start.d (by omega) hv.2.2.2.2.1
      obtain ⟨⟨k, hk⟩, had⟩ := ha
      have hab : Date.lt a b = true := (lt_iff_monthIdx a b).2 (Or.inl (by omega))
      have hab' := (Date.lt_iff_dayNum a b).1 hab
      have hb' : OnBimonthly start b := ⟨⟨k + 1, by rw [hbi, hk]; push_cast; omega⟩, hbd⟩
      have hnob : ∀ x, OnBimonthly start x → Date.lt x b = true → Date.lt x today = true := by
        intro x hx hxb
        cases hxa : Date.lt x a with
        | true => exact hno x hx hxa
        | false =>
          obtain ⟨⟨j, hj⟩, hxd⟩ := hx
          have h1 := (lt_iff_monthIdx x b).1 hxb
          have h2 := mt (lt_iff_monthIdx x a).2 (by simp [hxa])
          have hji : x.monthIdx = a.monthIdx := by
            have : ¬ x.monthIdx = b.monthIdx := by
              intro he
              obtain ⟨e1, e2⟩ := monthIdx_inj he
              rw [e1, e2] at hxd
              omega
            omega
          obtain ⟨e1, e2⟩ := monthIdx_inj hji
          rw [e1, e2] at hxd
          have : x = a := Date.ext' e1 e2 (by omega)
          rw [this]; exact hlt
      obtain ⟨d, hd, rest⟩ := ih b (by omega) hb' hnob (by
        intro hlt'
        refine ⟨b, by simp [bimonthlyLoop, hlt'], hb', by simp [Date.le, hlt'], ?_⟩
        intro x hx hle
        unfold Date.le at hle ⊢
        cases hxa : Date.lt x b with
        | false => rfl
        | true => rw [hnob x hx hxa] at hle; cases hle)
      refine ⟨d, ?_, rest⟩
      rw [bimonthlyLoop]
      simp [hlt, hb, bind, Except.bind, hd]

theorem onBimonthly_start (start : Date) : OnBimonthly start start := by
  have hv := start.valid
  exact ⟨⟨0, by omega⟩, (Nat.min_eq_left hv.2.2.2.2.2).symm⟩

theorem onBimonthly_le {start x : Date} (h : OnBimonthly start x) : Date.lt x start = false := by
  obtain ⟨⟨k, hk⟩, hd⟩ := h
  cases hlt : Date.lt x start with
  | false => rfl
  | true =>
    rcases (lt_iff_monthIdx x start).1 hlt with h1 | ⟨h1, h2⟩
    · omega
    · obtain ⟨e1, e2⟩ := monthIdx_inj h1
      rw [e1, e2] at hd
      have hv := start.valid
      rw [Nat.min_eq_left hv.2.2.2.2.2] at hd
      omega

theorem nextDue_bimonthly (today start : Date) (hy : today.y + 1 < maxYear) :
    ∃ d, nextDue today (.bimonthly start) = .ok (some d) ∧ OnBimonthly start d ∧
      Date.le today d = true ∧
      ∀ x, OnBimonthly start x → Date.le today x = true → Date.le d x = true := by
  cases hlt : Date.lt today start with
  | true =>
    refine ⟨start, by simp [nextDue, hlt], onBimonthly_start start, ?_, ?_⟩
    · rw [Date.le_iff_dayNum]
      have := (Date.lt_iff_dayNum _ _).1 hlt; omega
    · intro x hx _
      simp [Date.le, onBimonthly_le hx]
  | false =>
    have h0 := (Date.lt_false_iff_dayNum _ _).1 hlt
    obtain ⟨d, hd, rest⟩ := bimonthlyLoop_spec today start hy
      (Date.daysSince today start).toNat start (by rw [Date.daysSince_eq]; omega)
      (onBimonthly_start start) (by
        intro x hx hxs
        rw [onBimonthly_le hx] at hxs
        cases hxs)
    refine ⟨d, ?_, rest⟩
    simp [nextDue, hlt, hd, bind, Except.bind, pure, Except.pure]

end Silverfox
