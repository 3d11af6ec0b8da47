import Verif.Date

/-
The calendar: `dayNum` counts days, agrees with the order of dates and with day arithmetic.
-/

namespace Silverfox

/-- Days before the first of January of a year. -/
def yearStart (y : Int) : Int := 365 * (y - 1) + (y - 1) / 4 - (y - 1) / 100 + (y - 1) / 400

/-- Days of a year. -/
def yearLen (y : Int) : Nat := if isLeap y then 366 else 365

theorem yearStart_succ (y : Int) : yearStart (y + 1) = yearStart y + yearLen y := by
  unfold yearStart yearLen isLeap
  have h : y + 1 - 1 = y := by omega
  rw [h]
  by_cases h4 : y % 4 = 0 <;> by_cases h100 : y % 100 = 0 <;> by_cases h400 : y % 400 = 0 <;>
    simp [h4, h100, h400] <;> omega

theorem yearStart_mono {y y' : Int} (h : y ≤ y') : yearStart y ≤ yearStart y' := by
  unfold yearStart
  omega

theorem Date.valid (a : Date) :
    minYear ≤ a.y ∧ a.y ≤ maxYear ∧ 1 ≤ a.m ∧ a.m ≤ 12 ∧ 1 ≤ a.d ∧ a.d ≤ monthLen a.y a.m := by
  have := a.ok
  simp only [validYmd, Bool.and_eq_true, decide_eq_true_eq] at this
  grind

theorem validYmd_iff (y : Int) (m d : Nat) :
    validYmd y m d = true ↔
      minYear ≤ y ∧ y ≤ maxYear ∧ 1 ≤ m ∧ m ≤ 12 ∧ 1 ≤ d ∧ d ≤ monthLen y m := by
  simp only [validYmd, Bool.and_eq_true, decide_eq_true_eq]
  grind

theorem Date.ext' {a b : Date} (h1 : a.y = b.y) (h2 : a.m = b.m) (h3 : a.d = b.d) : a = b := by
  cases a; cases b; simp_all

theorem Date.ofYmd?_eq_some {y : Int} {m d : Nat} {a : Date} :
    Date.ofYmd? y m d = some a ↔ a.y = y ∧ a.m = m ∧ a.d = d := by
  unfold Date.ofYmd?
  constructor
  · intro h
    split at h
    · cases h; exact ⟨rfl, rfl, rfl⟩
    · cases h
  · rintro ⟨rfl, rfl, rfl⟩
    rw [dif_pos a.ok]

theorem Date.ofYmd?_some {y : Int} {m d : Nat} (h : validYmd y m d = true) :
    Date.ofYmd? y m d = some ⟨y, m, d, h⟩ := dif_pos h

theorem Date.ofYmd?_none {y : Int} {m d : Nat} :
    Date.ofYmd? y m d = none ↔ validYmd y m d = false := by
  unfold Date.ofYmd?
  split <;> simp_all

theorem monthLen_pos (y : Int) (m : Nat) : 28 ≤ monthLen y m ∧ monthLen y m ≤ 31 := by
  unfold monthLen
  split <;> (try split) <;> omega

/-- The twelve months. -/
theorem month_cases {m : Nat} (h1 : 1 ≤ m) (h2 : m ≤ 12) :
    m = 1 ∨ m = 2 ∨ m = 3 ∨ m = 4 ∨ m = 5 ∨ m = 6 ∨ m = 7 ∨ m = 8 ∨ m = 9 ∨ m = 10 ∨ m = 11 ∨
      m = 12 := by omega

theorem daysBefore_succ (y : Int) {m : Nat} (h1 : 1 ≤ m) (h2 : m < 12) :
    Date.daysBefore y (m + 1) = Date.daysBefore y m + monthLen y m := by
  rcases month_cases h1 (by omega) with
    rfl | rfl | rfl | rfl | rfl | rfl | rfl | rfl | rfl | rfl | rfl | rfl <;>
    by_cases hl : isLeap y = true <;> simp [Date.daysBefore, monthLen, hl] <;> omega

theorem daysBefore_last (y : Int) : Date.daysBefore y 12 + 31 = yearLen y := by
  by_cases hl : isLeap y = true <;> simp [Date.daysBefore, yearLen, hl]

theorem daysBefore_mono (y : Int) {m n : Nat} (h1 : 1 ≤ m) (h : m < n) (h2 : n ≤ 12) :
    Date.daysBefore y m + monthLen y m ≤ Date.daysBefore y n := by
  induction n with
  | zero => omega
  | succ n ih =>
    by_cases hm : m = n
    · subst hm; rw [daysBefore_succ y h1 (by omega)]; omega
    · have := ih (by omega) (by omega)
      rw [daysBefore_succ y (by omega) (by omega)]
      omega

theorem daysBefore_le (y : Int) {m : Nat} (h1 : 1 ≤ m) (h2 : m ≤ 12) :
    Date.daysBefore y m + monthLen y m ≤ yearLen y := by
  by_cases h : m = 12
  · subst h; rw [← daysBefore_last]; simp [monthLen]
  · have := daysBefore_mono y h1 (show m < 12 by omega) (by omega)
    have := daysBefore_last y
    omega

namespace Date

theorem dayNum_eq (a : Date) : a.dayNum = yearStart a.y + daysBefore a.y a.m + a.d := rfl

theorem dayNum_bounds (a : Date) :
    yearStart a.y < a.dayNum ∧ a.dayNum ≤ yearStart a.y + yearLen a.y := by
  have hv := a.valid
  have := daysBefore_le a.y hv.2.2.1 hv.2.2.2.1
  rw [dayNum_eq]
  omega

theorem lt_iff (a b : Date) : lt a b = true ↔
    a.y < b.y ∨ (a.y = b.y ∧ (a.m < b.m ∨ (a.m = b.m ∧ a.d < b.d))) := by
  simp [lt]

theorem dayNum_lt_of_lt {a b : Date} (h : lt a b = true) : a.dayNum < b.dayNum := by
  rw [lt_iff] at h
  have ha := a.valid
  have hb := b.valid
  rcases h with h | ⟨hy, h | ⟨hm, h⟩⟩
  · have h1 := (dayNum_bounds a).2
    have h2 := (dayNum_bounds b).1
    have h3 := yearStart_succ a.y
    have h4 := yearStart_mono (show a.y + 1 ≤ b.y by omega)
    omega
  · have := daysBefore_mono a.y ha.2.2.1 h hb.2.2.2.1
    rw [dayNum_eq, dayNum_eq, ← hy]
    omega
  · rw [dayNum_eq, dayNum_eq, ← hy, ← hm]
    omega

theorem trichotomy (a b : Date) : lt a b = true ∨ a = b ∨ lt b a = true := by
  rw [lt_iff, lt_iff]
  by_cases h1 : a.y = b.y
  · by_cases h2 : a.m = b.m
    · by_cases h3 : a.d = b.d
      · exact Or.inr (Or.inl (Date.ext' h1 h2 h3))
      · omega
    · omega
  · omega

/-- The order of dates is the order of their day numbers. -/
theorem lt_iff_dayNum (a b : Date) : lt a b = true ↔ a.dayNum < b.dayNum := by
  constructor
  · exact dayNum_lt_of_lt
  · intro h
    rcases trichotomy a b with h1 | h1 | h1
    · exact h1
    · subst h1; omega
    · have := dayNum_lt_of_lt h1; omega

theorem lt_false_iff_dayNum (a b : Date) : lt a b = false ↔ b.dayNum ≤ a.dayNum := by
  have := lt_iff_dayNum a b
  cases h : lt a b <;> simp_all

theorem le_iff_dayNum (a b : Date) : le a b = true ↔ a.dayNum ≤ b.dayNum := by
  unfold le
  rw [Bool.not_eq_true', lt_false_iff_dayNum]

theorem dayNum_inj {a b : Date} (h : a.dayNum = b.dayNum) : a = b := by
  rcases trichotomy a b with h1 | h1 | h1
  · have := dayNum_lt_of_lt h1; omega
  · exact h1
  · have := dayNum_lt_of_lt h1; omega

theorem dayNum_max (a b : Date) : (Date.max a b).dayNum = if a.dayNum ≤ b.dayNum then b.dayNum else a.dayNum := by
  unfold Date.max
  by_cases h : lt b a = true
  · have := (lt_iff_dayNum b a).1 h
    rw [if_pos h, if_neg (by omega)]
  · have h' : lt b a = false := by simpa using h
    have := (lt_false_iff_dayNum b a).1 h'
    rw [if_neg h, if_pos this]

/-- The last day of the calendar. -/
def maxDay : Int := yearStart (maxYear + 1)

/-- The day before the first day of the calendar. -/
def minDay : Int := yearStart minYear

theorem dayNum_range (a : Date) : minDay < a.dayNum ∧ a.dayNum ≤ maxDay := by
  have hv := a.valid
  have hb := dayNum_bounds a
  have h1 := yearStart_mono hv.1
  have h2 := yearStart_mono (show a.y + 1 ≤ maxYear + 1 by omega)
  have h3 := yearStart_succ a.y
  unfold minDay maxDay
  omega

theorem succ?_dayNum {a b : Date} (h : a.succ? = some b) : b.dayNum = a.dayNum + 1 := by
  have hv := a.valid
  unfold succ? at h
  split at h
  · obtain ⟨h1, h2, h3⟩ := ofYmd?_eq_some.1 h
    rw [dayNum_eq, dayNum_eq, h1, h2, h3]; omega
  · split at h
    · obtain ⟨h1, h2, h3⟩ := ofYmd?_eq_some.1 h
      rw [dayNum_eq, dayNum_eq, h1, h2, h3, daysBefore_succ a.y hv.2.2.1 (by assumption)]
      omega
    · obtain ⟨h1, h2, h3⟩ := ofYmd?_eq_some.1 h
      have hm : a.m = 12 := by omega
      have h5 := daysBefore_last a.y
      have h6 : monthLen a.y a.m = 31 := by rw [hm]; rfl
      have h7 := yearStart_succ a.y
      rw [dayNum_eq, dayNum_eq, h1, h2, h3, hm]
      simp only [daysBefore] at *
      omega

theorem succ?_isSome {a : Date} (h : a.dayNum < maxDay) : ∃ b, a.succ? = some b := by
  have hv := a.valid
  unfold succ?
  split
  · exact ⟨_, ofYmd?_some ((validYmd_iff _ _ _).2 ⟨hv.1, hv.2.1, hv.2.2.1, hv.2.2.2.1, by omega, by omega⟩)⟩
  · split
    · exact ⟨_, ofYmd?_some ((validYmd_iff _ _ _).2 ⟨hv.1, hv.2.1, by omega, by omega, by omega,
        by have := monthLen_pos a.y (a.m + 1); omega⟩)⟩
    · have hm : a.m = 12 := by omega
      have hy : a.y < maxYear := by
        apply Int.lt_of_not_ge
        intro hge
        have he : a.y = maxYear := by omega
        have h5 := daysBefore_last a.y
        have h6 : monthLen a.y a.m = 31 := by rw [hm]; rfl
        have h7 := yearStart_succ a.y
        rw [dayNum_eq, hm] at h
        unfold maxDay at h
        rw [← he] at h
        omega
      exact ⟨_, ofYmd?_some ((validYmd_iff _ _ _).2 ⟨by have := hv.1; unfold minYear at *; omega, by omega, by omega, by omega, by omega,
        by have := monthLen_pos (a.y + 1) 1; omega⟩)⟩

theorem pred?_dayNum {a b : Date} (h : a.pred? = some b) : b.dayNum = a.dayNum - 1 := by
  have hv := a.valid
  unfold pred? at h
  split at h
  · obtain ⟨h1, h2, h3⟩ := ofYmd?_eq_some.1 h
    rw [dayNum_eq, dayNum_eq, h1, h2, h3]; omega
  · split at h
    · obtain ⟨h1, h2, h3⟩ := ofYmd?_eq_some.1 h
      have := daysBefore_succ a.y (show 1 ≤ a.m - 1 by omega) (show a.m - 1 < 12 by omega)
      rw [show a.m - 1 + 1 = a.m by omega] at this
      rw [dayNum_eq, dayNum_eq, h1, h2, h3, this]
      omega
    · obtain ⟨h1, h2, h3⟩ := ofYmd?_eq_some.1 h
      have hm : a.m = 1 := by omega
      have h5 := daysBefore_last (a.y - 1)
      have h7 := yearStart_succ (a.y - 1)
      rw [show a.y - 1 + 1 = a.y by omega] at h7
      rw [dayNum_eq, dayNum_eq, h1, h2, h3, hm]
      have : daysBefore a.y 1 = 0 := rfl
      omega

theorem pred?_isSome {a : Date} (h : minDay + 1 < a.dayNum) : ∃ b, a.pred? = some b := by
  have hv := a.valid
  unfold pred?
  split
  · exact ⟨_, ofYmd?_some ((validYmd_iff _ _ _).2 ⟨hv.1, hv.2.1, hv.2.2.1, hv.2.2.2.1, by omega, by omega⟩)⟩
  · split
    · exact ⟨_, ofYmd?_some ((validYmd_iff _ _ _).2 ⟨hv.1, hv.2.1, by omega, by omega,
        by have := monthLen_pos a.y (a.m - 1); omega, by omega⟩)⟩
    · have hm : a.m = 1 := by omega
      have hy : minYear < a.y := by
        apply Int.lt_of_not_ge
        intro hge
        have he : a.y = minYear := by omega
        rw [dayNum_eq, hm] at h
        unfold minDay at h
        rw [← he] at h
        have : daysBefore a.y 1 = 0 := rfl
        omega
      exact ⟨_, ofYmd?_some ((validYmd_iff _ _ _).2 ⟨by omega, by omega, by omega, by omega, by omega,
        by simp [monthLen]⟩)⟩

theorem addNat_dayNum {n : Nat} {a b : Date} (h : addNat n a = some b) :
    b.dayNum = a.dayNum + n := by
  induction n generalizing a with
  | zero => cases h; simp
  | succ n ih =>
    simp only [addNat] at h
    cases hs : a.succ? with
    | none => simp [hs] at h
    | some c =>
      simp only [hs, Option.bind_some] at h
      have := ih h
      have := succ?_dayNum hs
      omega

theorem addNat_isSome {n : Nat} {a : Date} (h : a.dayNum + n ≤ maxDay) :
    ∃ b, addNat n a = some b := by
  induction n generalizing a with
  | zero => exact ⟨a, rfl⟩
  | succ n ih =>
    obtain ⟨c, hc⟩ := succ?_isSome (a := a) (by omega)
    have := succ?_dayNum hc
    obtain ⟨b, hb⟩ := ih (a := c) (by omega)
    exact ⟨b, by simp [addNat, hc, hb]⟩

theorem subNat_dayNum {n : Nat} {a b : Date} (h : subNat n a = some b) :
    b.dayNum = a.dayNum - n := by
  induction n generalizing a with
  | zero => cases h; simp
  | succ n ih =>
    simp only [subNat] at h
    cases hs : a.pred? with
    | none => simp [hs] at h
    | some c =>
      simp only [hs, Option.bind_some] at h
      have := ih h
      have := pred?_dayNum hs
      omega

theorem subNat_isSome {n : Nat} {a : Date} (h : minDay < a.dayNum - n) :
    ∃ b, subNat n a = some b := by
  induction n generalizing a with
  | zero => exact ⟨a, rfl⟩
  | succ n ih =>
    obtain ⟨c, hc⟩ := pred?_isSome (a := a) (by omega)
    have := pred?_dayNum hc
    obtain ⟨b, hb⟩ := ih (a := c) (by omega)
    exact ⟨b, by simp [subNat, hc, hb]⟩

theorem addDays_dayNum {a b : Date} {k : Int} (h : a.addDays k = some b) :
    b.dayNum = a.dayNum + k := by
  unfold addDays at h
  split at h
  · have := addNat_dayNum h; omega
  · have := subNat_dayNum h; omega

theorem addDays_isSome {a : Date} {k : Int} (h1 : minDay < a.dayNum + k)
    (h2 : a.dayNum + k ≤ maxDay) : ∃ b, a.addDays k = some b := by
  unfold addDays
  split
  · exact addNat_isSome (by omega)
  · exact subNat_isSome (by omega)

/-- Adding days fails exactly if it leads out of the calendar. -/
theorem addDays_eq_some {a b : Date} {k : Int} :
    a.addDays k = some b ↔ b.dayNum = a.dayNum + k := by
  constructor
  · exact addDays_dayNum
  · intro h
    have hr := b.dayNum_range
    obtain ⟨c, hc⟩ := addDays_isSome (a := a) (k := k) (by omega) (by omega)
    have := addDays_dayNum hc
    rw [hc, dayNum_inj (a := c) (b := b) (by omega)]

/-- There is a date for every day number of the calendar. -/
theorem exists_dayNum {n : Int} (h1 : minDay < n) (h2 : n ≤ maxDay) : ∃ a : Date, a.dayNum = n := by
  let z : Date := ⟨0, 1, 1, by decide⟩
  obtain ⟨b, hb⟩ := addDays_isSome (a := z) (k := n - z.dayNum) (by omega) (by omega)
  exact ⟨b, by have := addDays_dayNum hb; omega⟩

theorem daysSince_eq (a b : Date) : Date.daysSince a b = a.dayNum - b.dayNum := rfl

theorem weekday_congr {a b : Date} (h : (a.dayNum - b.dayNum) % 7 = 0) : a.weekday = b.weekday := by
  unfold weekday
  have : (a.dayNum - 1) % 7 = (b.dayNum - 1) % 7 := by omega
  rw [this]

theorem ofIdx_toNat (w : Weekday) : Weekday.ofIdx w.toNat = w := by cases w <;> rfl

theorem toNat_ofIdx (n : Nat) : (Weekday.ofIdx n).toNat = n % 7 := by
  unfold Weekday.ofIdx
  have h : n % 7 < 7 := Nat.mod_lt _ (by omega)
  generalize n % 7 = k at h
  match k, h with
  | 0, _ => rfl
  | 1, _ => rfl
  | 2, _ => rfl
  | 3, _ => rfl
  | 4, _ => rfl
  | 5, _ => rfl
  | 6, _ => rfl
  | k + 7, h => omega

theorem weekday_toNat (a : Date) : (a.weekday.toNat : Int) = (a.dayNum - 1) % 7 := by
  unfold weekday
  rw [toNat_ofIdx]
  omega

theorem weekday_eq_iff (a b : Date) : a.weekday = b.weekday ↔ (a.dayNum - b.dayNum) % 7 = 0 := by
  constructor
  · intro h
    have h1 := weekday_toNat a
    have h2 := weekday_toNat b
    rw [h] at h1
    omega
  · exact weekday_congr

/-- A date not in the first two or last two years of the calendar, which spans half a million years.
(Nearer to its ends date arithmetic overflows, and chrono panics.) -/
def Inner (a : Date) : Prop := minYear + 1 < a.y ∧ a.y + 1 < maxYear

instance (a : Date) : Decidable a.Inner := by unfold Inner; infer_instance

theorem Inner.range {a : Date} (h : a.Inner) :
    minDay + 366 ≤ a.dayNum ∧ a.dayNum + 365 ≤ maxDay := by
  have hb := dayNum_bounds a
  have h1 := yearStart_succ minYear
  have h1' := yearStart_succ (minYear + 1)
  have h2 := yearStart_mono (show minYear + 1 + 1 ≤ a.y by have := h.1; omega)
  have h3 := yearStart_succ maxYear
  have h4 := yearStart_mono (show a.y + 1 ≤ maxYear by have := h.2; omega)
  have h5 := yearStart_succ a.y
  have h6 : 365 ≤ yearLen minYear := by unfold yearLen; split <;> omega
  have h6' : 365 ≤ yearLen (minYear + 1) := by unfold yearLen; split <;> omega
  have h7 : 365 ≤ yearLen maxYear := by unfold yearLen; split <;> omega
  unfold minDay maxDay
  omega

end Date

end Silverfox
