import Verif.Props.ToTheCent
import Verif.Props.FloatFills

/-
Doubles near to hundred-millionths: comparing, the smaller, the larger, a share in fortieths. For C123.
-/

namespace Silverfox

set_option linter.unusedSectionVars false

/-! ### Values -/

theorem F64.lt_value {a b : F64} (ha : a.finite = true) (hb : b.finite = true) : F64.lt a b = decide (a.value < b.value) := by
  cases a with
  | nan => cases ha
  | inf s => cases ha
  | fin s n h =>
    cases b with
    | nan => cases hb
    | inf s => cases hb
    | fin t m h' =>
      have hu : (0 : Rat) < F64.unit := by exact_mod_cast unit_pos
      rw [F64.value_fin, F64.value_fin]
      simp only [F64.lt]
      exact decide_eq_decide.2 (by rw [div_lt_div_iff_of_pos_right hu, Int.cast_lt])

theorem F64.eq_value {a b : F64} (ha : a.finite = true) (hb : b.finite = true) : F64.eq a b = decide (a.value = b.value) := by
  cases a with
  | nan => cases ha
  | inf s => cases ha
  | fin s n h =>
    cases b with
    | nan => cases hb
    | inf s => cases hb
    | fin t m h' =>
      have hu : (F64.unit : Rat) ≠ 0 := by have := unit_pos; positivity
      rw [F64.value_fin, F64.value_fin]
      simp only [F64.eq]
      exact decide_eq_decide.2 (by rw [div_left_inj' hu, Int.cast_inj])

theorem F64.not_nan {a : F64} (ha : a.finite = true) : a.isNan = false := by
  cases a with
  | nan => cases ha
  | inf s => rfl
  | fin s n h => rfl

theorem F64.min_value {a b : F64} (ha : a.finite = true) (hb : b.finite = true) :
    (F64.min a b).finite = true ∧ (F64.min a b).value = Min.min a.value b.value := by
  unfold F64.min
  rw [F64.not_nan ha, F64.lt_value hb ha]
  by_cases h : b.value < a.value
  · simp [h, hb, h.le]
  · simp [h, ha, not_lt.1 h]

theorem F64.max_value {a b : F64} (ha : a.finite = true) (hb : b.finite = true) :
    (F64.max a b).finite = true ∧ (F64.max a b).value = Max.max a.value b.value := by
  unfold F64.max
  rw [F64.not_nan ha, F64.lt_value ha hb]
  by_cases h : a.value < b.value
  · simp [h, hb, h.le]
  · simp [h, ha, not_lt.1 h]

theorem F64.abs_value {a : F64} (ha : a.finite = true) : (F64.abs a).finite = true ∧ (F64.abs a).value = |a.value| := by
  cases a with
  | nan => cases ha
  | inf s => cases ha
  | fin s n h =>
    have hu : (0 : Rat) < F64.unit := by exact_mod_cast unit_pos
    refine ⟨rfl, ?_⟩
    simp only [F64.abs]
    rw [F64.value_fin, F64.value_fin, abs_div, abs_of_pos hu]
    cases s <;> simp [F64.sgn]

/-! ### Near to hundred-millionths -/

theorem NearTo.mono {x : F64} {D : Int} {W V : Nat} (h : NearTo x D W) (hv : W ≤ V) : NearTo x D V := by
  obtain ⟨h1, h2, h3⟩ := h
  refine ⟨h1, le_trans h2 ?_, le_trans h3 hv⟩
  exact div_le_div_of_nonneg_right (by exact_mod_cast hv) (by norm_num)

theorem near_zero : NearTo F64.zero 0 0 := ⟨rfl, by rw [F64.value_zero]; simp, by simp⟩

theorem NearTo.half {x : F64} {D : Int} {W : Nat} (h : NearTo x D W) (hw : W ≤ 2 ^ 51) : |x.value * 100000000 - D| ≤ 1 / 2 := by
  refine le_trans h.2.1 ?_
  have : (W : Rat) ≤ 2 ^ 51 := by exact_mod_cast hw
  rw [div_le_iff₀ (by norm_num)]
  linarith

/-- The sign is right, unless there is nothing. -/
theorem NearTo.sign {x : F64} {D : Int} {W : Nat} (h : NearTo x D W) (hw : W ≤ 2 ^ 51) :
    (D < 0 → x.value < 0) ∧ (0 < D → 0 < x.value) ∧ (x.value = 0 → D = 0) := by
  have h2 := abs_le.1 (h.half hw)
  have k1 : D < 0 → x.value < 0 := by
    intro hd
    have : (D : Rat) ≤ -1 := by exact_mod_cast (show D ≤ -1 by omega)
    linarith [h2.2]
  have k2 : 0 < D → 0 < x.value := by
    intro hd
    have : (1 : Rat) ≤ D := by exact_mod_cast (show 1 ≤ D by omega)
    linarith [h2.1]
  refine ⟨k1, k2, fun h0 => ?_⟩
  rcases lt_trichotomy D 0 with hd | hd | hd
  · have := k1 hd; linarith
  · exact hd
  · have := k2 hd; linarith

theorem NearTo.min {x y : F64} {D E : Int} {W : Nat} (hx : NearTo x D W) (hy : NearTo y E W) :
    NearTo (F64.min x y) (Min.min D E) W := by
  obtain ⟨h1, h2⟩ := F64.min_value hx.1 hy.1
  refine ⟨h1, ?_, ?_⟩
  · rw [h2]
    have a := abs_le.1 hx.2.1
    have b := abs_le.1 hy.2.1
    push_cast
    rw [abs_le]
    rcases le_total x.value y.value with g | g <;> rcases le_total (D : Rat) E with g' | g' <;>
      simp only [min_eq_left, min_eq_right, g, g'] <;> constructor <;> linarith [a.1, a.2, b.1, b.2]
  · have := hx.2.2
    have := hy.2.2
    omega

theorem NearTo.max {x y : F64} {D E : Int} {W : Nat} (hx : NearTo x D W) (hy : NearTo y E W) :
    NearTo (F64.max x y) (Max.max D E) W := by
  obtain ⟨h1, h2⟩ := F64.max_value hx.1 hy.1
  refine ⟨h1, ?_, ?_⟩
  · rw [h2]
    have a := abs_le.1 hx.2.1
    have b := abs_le.1 hy.2.1
    push_cast
    rw [abs_le]
    rcases le_total x.value y.value with g | g <;> rcases le_total (D : Rat) E with g' | g' <;>
      simp only [max_eq_left, max_eq_right, g, g'] <;> constructor <;> linarith [a.1, a.2, b.1, b.2]
  · have := hx.2.2
    have := hy.2.2
    omega

theorem NearTo.abs {x : F64} {D : Int} {W : Nat} (hx : NearTo x D W) : NearTo (F64.abs x) |D| W := by
  obtain ⟨h1, h2⟩ := F64.abs_value hx.1
  refine ⟨h1, ?_, by rw [Int.natAbs_abs]; exact hx.2.2⟩
  rw [h2]
  push_cast
  refine le_trans ?_ hx.2.1
  have := abs_abs_sub_abs_le (x.value * 100000000) (D : Rat)
  rwa [abs_mul, abs_of_pos (show (0 : Rat) < 100000000 by norm_num)] at this

/-- The smaller of two changes, with the sign of one: unless that one is nothing and the other is lost. -/
theorem near_automatic {g c : F64} {G C : Int} {W : Nat} (hg : NearTo g G W) (hc : NearTo c C W) (hw : W ≤ 2 ^ 51)
    (h0 : C = 0 → 0 ≤ G) :
    NearTo (if F64.lt c F64.zero then F64.neg (F64.min g (F64.abs c)) else F64.min g (F64.abs c))
      (if C < 0 then -Min.min G |C| else Min.min G |C|) W := by
  have hm := hg.min hc.abs
  obtain ⟨s1, s2, _⟩ := hc.sign hw
  rw [lt_zero_value c hc.1]
  rcases lt_trichotomy C 0 with h | h | h
  · rw [decide_eq_true (s1 h), if_pos rfl, if_pos h]
    exact hm.neg
  · have hz : Min.min G |C| = 0 := by rw [h]; simp [h0 h]
    rw [if_neg (show ¬ C < 0 by omega)]
    split
    · rw [hz] at hm ⊢
      exact hm.neg
    · exact hm
  · rw [decide_eq_false (not_lt.2 (s2 h).le), if_neg (by simp), if_neg (by omega)]
    exact hm

/-! ### What is printed -/

/-- Specification: the text shows just this amount. -/
def ShowsJust (t : Str) (q : Rat) (s : Option Str) : Prop := Amount.parse t '.' = .ok (⟨q, s⟩ : Amount Rat)

theorem shown_sum {xs : List F64} {ts : List (Int × Nat)} (h : List.Forall₂ (fun x t => NearTo x t.1 t.2) xs ts)
    (hb : (ts.length + 3) * (ts.map Prod.snd).sum ≤ 2 ^ 51) {q : Rat} (hq : q * 100000000 = ((ts.map Prod.fst).sum : Int))
    {s : Option Str} (hs : ∀ y, s = some y → ValidSymbol '.' y) : ShowsJust (⟨sumF xs, s⟩ : Amount F64).display q s := by
  obtain ⟨_, neg, r2, r3⟩ := sumF_shown xs ts h hb
  obtain ⟨d, k, q1, q2⟩ := shows_rat r2
  refine Amount.parse_display_as (a := (⟨sumF xs, s⟩ : Amount F64)) (m' := q) (neg := neg) (d := d) (k := k) q1 ?_ hs
  rw [q2, ← r3, ← hq]
  congr 1
  field_simp

theorem NearTo.shown {x : F64} {D : Int} {W : Nat} (h : NearTo x D W) (hw : 4 * W ≤ 2 ^ 51) {q : Rat}
    (hq : q * 100000000 = D) {s : Option Str} (hs : ∀ y, s = some y → ValidSymbol '.' y) :
    ShowsJust (⟨x, s⟩ : Amount F64).display q s :=
  shown_sum (xs := [x]) (ts := [(D, W)]) (.cons h .nil) (by simpa using hw) (by simpa using hq) hs

/-! ### Multiplying and dividing -/

theorem quot_nonneg (num den : Nat) : (0 : Rat) ≤ (num : Rat) / den / F64.unit :=
  div_nonneg (div_nonneg (Nat.cast_nonneg _) (Nat.cast_nonneg _)) (Nat.cast_nonneg _)

theorem large_1000 : ∃ K : Rat, (2 : Rat) ^ 1000 = K ∧ 2 ^ 100 ≤ K :=
  ⟨_, rfl, pow_le_pow_right₀ (by norm_num) (by norm_num)⟩

/-- Rounding a quotient that is at most 2^1000: no overflow, a relative error of at most 2^-53, or hardly any. -/
theorem mkRound_err (s : Bool) (num den : Nat) (hd : 0 < den) (h : (num : Rat) / den / F64.unit ≤ 2 ^ 1000) :
    (F64.mkRound s num den).finite = true ∧
      |(F64.mkRound s num den).value - (if s then -1 else 1) * ((num : Rat) / den / F64.unit)| ≤
        (num : Rat) / den / F64.unit / 2 ^ 53 + 1 / 2 ^ 100 := by
  have hrel := roundQ_rel num den hd
  have hu : (0 : Rat) < F64.unit := by exact_mod_cast unit_pos
  obtain ⟨u, eu, hu100⟩ := unit_rat
  have hx0 : (0 : Rat) ≤ (num : Rat) / den := div_nonneg (Nat.cast_nonneg _) (Nat.cast_nonneg _)
  have hT : roundQ num den < 2 ^ 2098 := by
    obtain ⟨T, e1, e2, e3⟩ := units_1023
    have hT1 : (2 : Rat) ^ 1023 * F64.unit = T := by exact_mod_cast e1
    have hp : (2 : Rat) ^ 1000 ≤ 2 ^ 1023 := pow_le_pow_right₀ (by norm_num) (by norm_num)
    rw [div_le_iff₀ hu] at h
    have h' : (num : Rat) / den ≤ T := by
      rw [← hT1]; exact le_trans h (mul_le_mul_of_nonneg_right hp hu.le)
    have hu1 : (F64.unit : Rat) ≤ T := by exact_mod_cast e3
    rw [← e2]
    have : (roundQ num den : Rat) < 2 * T := by
      clear hT1 hp h e1 e2
      rw [eu] at hu1
      generalize (num : Rat) / den = x at *
      generalize (roundQ num den : Rat) = r at *
      generalize (T : Rat) = t at *
      have h3 := (abs_le.1 hrel).2
      have h4 : (1 : Rat) ≤ 2 ^ 100 := by norm_num
      rcases max_cases (x / 2 ^ 53) (1 / 2) with ⟨g, _⟩ | ⟨g, _⟩
      · rw [g] at h3; linarith
      · rw [g] at h3; linarith
    exact_mod_cast this
  rw [mkRound_fin _ _ _ hd hT]
  refine ⟨rfl, ?_⟩
  have hr : (F64.fin s (roundQ num den) (rep_roundQ num den hd hT)).value =
      (if s then -1 else 1) * ((roundQ num den : Rat) / F64.unit) := by
    cases s <;> simp [F64.value, neg_div]
  have hs : |(if s then (-1 : Rat) else 1)| = 1 := by cases s <;> simp
  rw [hr, ← mul_sub, abs_mul, hs, one_mul, ← sub_div, abs_div, abs_of_pos hu]
  clear hT hr h
  rw [eu] at hu ⊢
  generalize (num : Rat) / den = x at *
  generalize |(roundQ num den : Rat) - x| = r at *
  have h1 : r / u ≤ max (x / 2 ^ 53) (1 / 2) / u := div_le_div_of_nonneg_right hrel hu.le
  have h2 : (1 : Rat) / u ≤ 1 / 2 ^ 100 := one_div_le_one_div_of_le (by norm_num) hu100
  have h3 : x / 2 ^ 53 / u = x / u / 2 ^ 53 := by ring
  have h4 : (0 : Rat) ≤ x / u := by positivity
  rcases max_cases (x / 2 ^ 53) (1 / 2 : Rat) with ⟨g, _⟩ | ⟨g, _⟩
  · rw [g, h3] at h1
    have : (0 : Rat) ≤ 1 / 2 ^ 100 := by positivity
    linarith
  · rw [g] at h1
    have h5 : (1 : Rat) / 2 / u = 1 / u / 2 := by ring
    rw [h5] at h1
    have h6 : (0 : Rat) ≤ 1 / u := by positivity
    have h7 : (0 : Rat) ≤ x / u / 2 ^ 53 := by positivity
    linarith

theorem F64.value_sign (s : Bool) (n : Nat) (h : rep n = true) :
    (F64.fin s n h).value = (if s then -1 else 1) * ((n : Rat) / F64.unit) := by
  cases s <;> simp [F64.value, neg_div]

theorem mul_err (x y : F64) (hx : x.finite = true) (hy : y.finite = true) (h : |x.value * y.value| ≤ 2 ^ 1000) :
    (F64.mul x y).finite = true ∧
      |(F64.mul x y).value - x.value * y.value| ≤ |x.value * y.value| / 2 ^ 53 + 1 / 2 ^ 100 := by
  cases x with
  | nan => cases hx
  | inf s => cases hx
  | fin s n hn =>
    cases y with
    | nan => cases hy
    | inf s => cases hy
    | fin t m hm =>
      have hu : (0 : Rat) < F64.unit := by exact_mod_cast unit_pos
      simp only [F64.mul]
      rw [F64.value_sign, F64.value_sign] at h ⊢
      have e : (if s then (-1 : Rat) else 1) * ((n : Rat) / F64.unit) * ((if t then -1 else 1) * ((m : Rat) / F64.unit)) =
          (if (s != t) then -1 else 1) * (((n * m : Nat) : Rat) / F64.unit / F64.unit) := by
        push_cast
        cases s <;> cases t <;> simp <;> ring
      have hs : |(if (s != t) then (-1 : Rat) else 1)| = 1 := by cases s <;> cases t <;> simp
      rw [e, abs_mul, hs, one_mul, abs_of_nonneg (quot_nonneg _ _)] at h
      rw [e, abs_mul, hs, one_mul, abs_of_nonneg (quot_nonneg _ _)]
      exact mkRound_err (s != t) _ _ unit_pos h

theorem div_err (x y : F64) (hx : x.finite = true) (hy : y.finite = true) (h0 : y.value ≠ 0)
    (h : |x.value / y.value| ≤ 2 ^ 1000) :
    (F64.div x y).finite = true ∧
      |(F64.div x y).value - x.value / y.value| ≤ |x.value / y.value| / 2 ^ 53 + 1 / 2 ^ 100 := by
  cases x with
  | nan => cases hx
  | inf s => cases hx
  | fin s n hn =>
    cases y with
    | nan => cases hy
    | inf s => cases hy
    | fin t m hm =>
      have hu : (0 : Rat) < F64.unit := by exact_mod_cast unit_pos
      have hm0 : m ≠ 0 := by
        rintro rfl
        apply h0
        rw [F64.value_sign]; simp
      have hm1 : (m : Rat) ≠ 0 := by exact_mod_cast hm0
      simp only [F64.div]
      rw [if_neg hm0]
      rw [F64.value_sign, F64.value_sign] at h ⊢
      have e : (if s then (-1 : Rat) else 1) * ((n : Rat) / F64.unit) / ((if t then -1 else 1) * ((m : Rat) / F64.unit)) =
          (if (s != t) then -1 else 1) * (((n * F64.unit : Nat) : Rat) / m / F64.unit) := by
        push_cast
        have hu' := hu.ne'
        cases s <;> cases t <;> simp <;> field_simp
      have hs : |(if (s != t) then (-1 : Rat) else 1)| = 1 := by cases s <;> cases t <;> simp
      rw [e, abs_mul, hs, one_mul, abs_of_nonneg (quot_nonneg _ _)] at h
      rw [e, abs_mul, hs, one_mul, abs_of_nonneg (quot_nonneg _ _)]
      exact mkRound_err (s != t) _ _ (Nat.pos_of_ne_zero hm0) h

theorem toUsize_floor (x : F64) (hx : x.finite = true) (h0 : 0 ≤ x.value) (h1 : x.value ≤ 40) :
    (F64.toUsize x : Int) = x.value.floor := by
  cases x with
  | nan => cases hx
  | inf s => cases hx
  | fin s n hn =>
    have hu := unit_pos
    have hur : (0 : Rat) < F64.unit := by exact_mod_cast hu
    have key : ∀ v : Rat, v = (n : Rat) / F64.unit → v ≤ 40 → ((Nat.min (n / F64.unit) (2 ^ 64 - 1) : Nat) : Int) = v.floor := by
      intro v hv h1
      have hn40 : n ≤ 40 * F64.unit := by
        rw [hv, div_le_iff₀ hur] at h1
        exact_mod_cast h1
      have hk : n / F64.unit ≤ 40 := (Nat.div_le_iff_le_mul_add_pred hu).2 (by rw [Nat.mul_comm] at hn40; omega)
      have e : Nat.min (n / F64.unit) (2 ^ 64 - 1) = n / F64.unit := Nat.min_eq_left (by omega)
      rw [e]
      have a1 : n / F64.unit * F64.unit ≤ n := Nat.div_mul_le_self _ _
      have a2 : n < (n / F64.unit + 1) * F64.unit := (Nat.div_lt_iff_lt_mul hu).1 (Nat.lt_succ_self _)
      apply le_antisymm
      · rw [Rat.le_floor_iff, hv, le_div_iff₀ hur]
        exact_mod_cast a1
      · by_contra hc
        have : ((n / F64.unit + 1 : Nat) : Int) ≤ v.floor := by push_cast; omega
        rw [Rat.le_floor_iff, hv, le_div_iff₀ hur] at this
        have : (n / F64.unit + 1) * F64.unit ≤ n := by exact_mod_cast this
        omega
    rw [F64.value_sign] at h0 h1 ⊢
    cases s with
    | false =>
      simp only [F64.toUsize, Bool.false_eq_true, if_false, one_mul] at h1 ⊢
      exact key _ rfl h1
    | true =>
      simp only [if_true] at h0
      have hn0 : n = 0 := by
        by_contra hc
        have hn1 : (0 : Rat) < n := by exact_mod_cast Nat.pos_of_ne_zero hc
        have : (0 : Rat) < (n : Rat) / F64.unit := div_pos hn1 hur
        generalize (n : Rat) / F64.unit = v at *
        linarith
      subst hn0
      simp only [F64.toUsize, if_true, Nat.cast_zero, zero_div, mul_zero]
      rfl

/-- Specification: a bar of forty cells, of which as many are full as the share of the goal, rounded down, up to the
rounding of doubles: of an amount that is printed as this one, and of its share up to 2^-48. -/
def IsBarNear (q goal : Rat) (bar : Str) : Prop :=
  ∃ (k : Nat) (q' y : Rat), bar = '|' :: (List.replicate k '═' ++ List.replicate (40 - k) ' ') ++ ['|'] ∧ k ≤ 40 ∧
    (goal ≠ 0 → |q' - q| ≤ 1 / 200000000 ∧ |y - q' * 40 / goal| ≤ (|q' * 40 / goal| + 1) / 2 ^ 48 ∧
      (k : Int) = (Max.max 0 (Min.min 40 y)).floor)

theorem ofInt_40_value : (F64.ofInt ((40 : Nat) : Int)).finite = true ∧ (F64.ofInt ((40 : Nat) : Int)).value = 40 := by
  rw [F64.ofInt_40]
  refine ⟨rfl, ?_⟩
  have hu : (F64.unit : Rat) ≠ 0 := by have := unit_pos; positivity
  rw [F64.value_sign]
  push_cast
  rw [mul_div_cancel_right₀ _ hu]
  simp

theorem goal_bounds (g γ : Rat) (hγ : |γ| ≥ 1 / 100000000) (hgγ : |g - γ| ≤ |γ| / 2 ^ 52) :
    |γ| * (1 - 1 / 2 ^ 52) ≤ |g| ∧ 1 / 2 ^ 30 ≤ |g| := by
  have hga : |γ| * (1 - 1 / 2 ^ 52) ≤ |g| := by
    have := abs_sub_abs_le_abs_sub γ g
    rw [abs_sub_comm] at this
    linarith
  refine ⟨hga, le_trans ?_ hga⟩
  have : (1 / 100000000 : Rat) * (1 - 1 / 2 ^ 52) ≤ |γ| * (1 - 1 / 2 ^ 52) := mul_le_mul_of_nonneg_right hγ (by norm_num)
  refine le_trans ?_ this
  norm_num

theorem product_bound (a p : Rat) (hab : |a| ≤ 2 ^ 51) (m2 : |p - a * 40| ≤ |a * 40| / 2 ^ 53 + 1 / 2 ^ 100) : |p| ≤ 2 ^ 60 := by
  have h1 : |p| ≤ |p - a * 40| + |a * 40| := by
    have := abs_add_le (p - a * 40) (a * 40)
    rwa [sub_add_cancel] at this
  have h2 : |a * 40| = |a| * 40 := by rw [abs_mul]; norm_num
  rw [h2] at m2 h1
  have : (1 : Rat) / 2 ^ 100 ≤ 1 := by norm_num
  have : (2 : Rat) ^ 51 * 80 + 1 ≤ 2 ^ 60 := by norm_num
  have h3 : |a| * 40 / 2 ^ 53 ≤ |a| * 40 := div_le_self (by positivity) (by norm_num)
  linarith

/-- Three errors: of the product, of the quotient, and of the goal. -/
theorem share_err (a g p y γ : Rat) (hγ : |γ| ≥ 1 / 100000000) (hgγ : |g - γ| ≤ |γ| / 2 ^ 52)
    (m2 : |p - a * 40| ≤ |a * 40| / 2 ^ 53 + 1 / 2 ^ 100) (d2 : |y - p / g| ≤ |p / g| / 2 ^ 53 + 1 / 2 ^ 100) :
    |y - a * 40 / γ| ≤ (|a * 40 / γ| + 1) / 2 ^ 48 := by
  obtain ⟨hga, hgb⟩ := goal_bounds g γ hγ hgγ
  have hg0 : 0 < |g| := lt_of_lt_of_le (by norm_num) hgb
  have hg1 : g ≠ 0 := abs_pos.1 hg0
  have hγ1 : γ ≠ 0 := abs_pos.1 (lt_of_lt_of_le (by norm_num) hγ)
  have hx : a * 40 / g = a * 40 / γ + a * 40 / γ * ((γ - g) / g) := by
    field_simp; ring
  have hδ : |(γ - g) / g| ≤ 1 / 2 ^ 51 := by
    rw [abs_div, div_le_iff₀ hg0, abs_sub_comm]
    refine le_trans hgγ ?_
    have : 1 / 2 ^ 51 * (|γ| * (1 - 1 / 2 ^ 52)) ≤ 1 / 2 ^ 51 * |g| := mul_le_mul_of_nonneg_left hga (by norm_num)
    have := abs_nonneg γ
    linarith
  have e3 : |a * 40 / g - a * 40 / γ| ≤ |a * 40 / γ| / 2 ^ 51 := by
    rw [hx, add_sub_cancel_left, abs_mul]
    calc _ ≤ |a * 40 / γ| * (1 / 2 ^ 51) := mul_le_mul_of_nonneg_left hδ (abs_nonneg _)
      _ = _ := by ring
  have e2 : |p / g - a * 40 / g| ≤ |a * 40 / g| / 2 ^ 53 + 1 / 2 ^ 70 := by
    rw [← sub_div, abs_div, div_le_iff₀ hg0]
    refine le_trans m2 ?_
    have h1 : (|a * 40 / g| / 2 ^ 53 + 1 / 2 ^ 70) * |g| = |a * 40| / 2 ^ 53 + |g| / 2 ^ 70 := by
      rw [abs_div]; field_simp
    rw [h1]
    have : (1 / 2 ^ 30 : Rat) / 2 ^ 70 ≤ |g| / 2 ^ 70 := div_le_div_of_nonneg_right hgb (by norm_num)
    have h2 : (1 / 2 ^ 30 : Rat) / 2 ^ 70 = 1 / 2 ^ 100 := by norm_num
    linarith
  generalize a * 40 / γ = X at *
  generalize a * 40 / g = Y at *
  generalize p / g = Z at *
  have hY : |Y| ≤ |Y - X| + |X| := by have := abs_add_le (Y - X) X; rwa [sub_add_cancel] at this
  have hZ : |Z| ≤ |Z - Y| + |Y| := by have := abs_add_le (Z - Y) Y; rwa [sub_add_cancel] at this
  have e : y - X = (y - Z) + (Z - Y) + (Y - X) := by ring
  rw [e]
  refine le_trans (abs_add_three _ _ _) ?_
  have hX := abs_nonneg X
  generalize |X| = x at *
  generalize |Y| = y' at *
  generalize |Z| = z at *
  have c1 : (1 : Rat) / 2 ^ 100 ≤ 1 / 2 ^ 60 := by norm_num
  have c2 : (1 : Rat) / 2 ^ 70 ≤ 1 / 2 ^ 60 := by norm_num
  linarith

/-- The share of the goal, in fortieths. -/
theorem share_near (a g : F64) (ha : a.finite = true) (hg : g.finite = true) (hab : |a.value| ≤ 2 ^ 51) (γ : Rat)
    (hγ : |γ| ≥ 1 / 100000000) (hgγ : |g.value - γ| ≤ |γ| / 2 ^ 52) :
    (F64.div (F64.mul a (F64.ofInt ((40 : Nat) : Int))) g).finite = true ∧
      |(F64.div (F64.mul a (F64.ofInt ((40 : Nat) : Int))) g).value - a.value * 40 / γ| ≤
        (|a.value * 40 / γ| + 1) / 2 ^ 48 := by
  obtain ⟨f40, v40⟩ := ofInt_40_value
  obtain ⟨K, eK, hbig⟩ := large_1000
  obtain ⟨m1, m2⟩ := mul_err a _ ha f40 (by
    rw [v40, abs_mul, eK]
    refine le_trans ?_ hbig
    have : |(40 : Rat)| = 40 := by norm_num
    rw [this]; linarith)
  rw [v40] at m2
  generalize F64.mul a (F64.ofInt ((40 : Nat) : Int)) = p at *
  obtain ⟨_, hgb⟩ := goal_bounds g.value γ hγ hgγ
  have hg0 : 0 < |g.value| := lt_of_lt_of_le (by norm_num) hgb
  have hg1 : g.value ≠ 0 := abs_pos.1 hg0
  have hpa := product_bound a.value p.value hab m2
  have hK0 : 0 ≤ K := le_trans (by norm_num) hbig
  obtain ⟨d1, d2⟩ := div_err p g m1 hg hg1 (by
    rw [abs_div, div_le_iff₀ hg0, eK]
    refine le_trans hpa ?_
    have h1 : K * (1 / 2 ^ 30) ≤ K * |g.value| := mul_le_mul_of_nonneg_left hgb hK0
    refine le_trans ?_ h1
    have h2 : (2 : Rat) ^ 100 * (1 / 2 ^ 30) ≤ K * (1 / 2 ^ 30) := mul_le_mul_of_nonneg_right hbig (by norm_num)
    exact le_trans (by norm_num) h2)
  exact ⟨d1, share_err a.value g.value p.value _ γ hγ hgγ m2 d2⟩

/-- The bar of an amount near to hundred-millionths. -/
theorem bar_near (e : Envelope F64) (amt : Amount F64) {D G : Int} {W : Nat} (hx : NearTo amt.mag D W) (hw : W ≤ 2 ^ 51)
    {q goal : Rat} (hq : q * 100000000 = D) (hg : NearTo e.amount.mag G G.natAbs) (hgoal : goal * 100000000 = G) :
    ∃ bar, e.makeBar amt 40 = .ok bar ∧ IsBarNear q goal bar := by
  obtain ⟨k, hk, hbar⟩ := C76_bar_fits e amt
  refine ⟨_, hbar, k, amt.mag.value, (F64.div (F64.mul amt.mag (F64.ofInt ((40 : Nat) : Int))) e.amount.mag).value, rfl, hk,
    fun h0 => ?_⟩
  have hhalf := hx.half hw
  have hq' : |amt.mag.value - q| ≤ 1 / 200000000 := by
    rw [← hq, ← sub_mul, abs_mul, abs_of_pos (show (0 : Rat) < 100000000 by norm_num)] at hhalf
    linarith
  have hG0 : G ≠ 0 := by
    rintro rfl
    apply h0
    simpa using hgoal
  have hγ : |goal| ≥ 1 / 100000000 := by
    have h1 : (1 : Rat) ≤ |(G : Rat)| := by
      rw [← Int.cast_abs]
      exact_mod_cast Int.one_le_abs hG0
    rw [← hgoal, abs_mul, abs_of_pos (show (0 : Rat) < 100000000 by norm_num)] at h1
    linarith
  have hgγ : |e.amount.mag.value - goal| ≤ |goal| / 2 ^ 52 := by
    have h1 := hg.2.1
    rw [← hgoal, ← sub_mul, abs_mul, abs_of_pos (show (0 : Rat) < 100000000 by norm_num), Nat.cast_natAbs, Int.cast_abs, ← hgoal,
      abs_mul, abs_of_pos (show (0 : Rat) < 100000000 by norm_num)] at h1
    linarith
  have hab : |amt.mag.value| ≤ 2 ^ 51 := by
    have h1 : |q| * 100000000 ≤ 2 ^ 51 := by
      have : |q| * 100000000 = |(D : Rat)| := by rw [← hq, abs_mul]; norm_num
      rw [this, ← Int.cast_abs, ← Nat.cast_natAbs]
      exact_mod_cast le_trans hx.2.2 hw
    have h2 : |amt.mag.value| ≤ |amt.mag.value - q| + |q| := by
      have := abs_add_le (amt.mag.value - q) q
      rwa [sub_add_cancel] at this
    have := abs_nonneg q
    linarith
  obtain ⟨s1, s2⟩ := share_near amt.mag e.amount.mag hx.1 hg.1 hab goal hγ hgγ
  refine ⟨hq', s2, ?_⟩
  obtain ⟨f40, v40⟩ := ofInt_40_value
  unfold Envelope.makeBar at hbar
  simp only at hbar
  generalize hP : Mag.toUsize (Mag.max (Mag.min (Mag.div (Mag.mul amt.mag (Mag.ofInt ((40 : Nat) : Int)))
      e.amount.mag) (Mag.ofInt ((40 : Nat) : Int))) (Mag.zero : F64)) = P at hbar
  have hPv : (P : Int) = (Max.max 0 (Min.min 40 (F64.div (F64.mul amt.mag (F64.ofInt ((40 : Nat) : Int))) e.amount.mag).value)).floor := by
    rw [← hP]
    show (F64.toUsize (F64.max (F64.min (F64.div (F64.mul amt.mag (F64.ofInt ((40 : Nat) : Int))) e.amount.mag)
      (F64.ofInt ((40 : Nat) : Int))) F64.zero) : Int) = _
    generalize F64.div (F64.mul amt.mag (F64.ofInt ((40 : Nat) : Int))) e.amount.mag = z at *
    obtain ⟨n1, n2⟩ := F64.min_value s1 f40
    obtain ⟨x1, x2⟩ := F64.max_value n1 (show F64.zero.finite = true from rfl)
    rw [F64.value_zero, n2, v40] at x2
    rw [toUsize_floor _ x1 (by rw [x2]; exact le_max_right _ _) (by rw [x2]; exact max_le (min_le_right _ _) (by norm_num)), x2,
      max_comm, min_comm]
  split at hbar
  · cases hbar
  · rename_i hlt
    have hb := Except.ok.inj hbar
    have hlen : P = k := by
      have h1 := congrArg (List.countP (· == '═')) hb
      simp [List.countP_append, List.countP_replicate] at h1
      exact h1
    rw [← hlen]; exact hPv

end Silverfox
