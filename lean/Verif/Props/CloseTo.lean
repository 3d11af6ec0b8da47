import Verif.Props.NearTo
import Verif.Props.Filling

/-
Doubles that are close to exact numbers, in hundred-millionths; how far the fill of an envelope is from the exact one;
how far what is printed is from the double.
-/

namespace Silverfox

set_option linter.unusedSectionVars false

/-- `x`, in hundred-millionths, is a finite double, off by at most `E` from `q`. -/
def Close (x : F64) (q E : Rat) : Prop := x.finite = true ∧ |x.value * 100000000 - q| ≤ E

theorem NearTo.close {x : F64} {D : Int} {W : Nat} (h : NearTo x D W) : Close x D (W / 2 ^ 52) := ⟨h.1, h.2.1⟩

theorem Close.mono {x : F64} {q E F : Rat} (h : Close x q E) (hE : E ≤ F) : Close x q F := ⟨h.1, le_trans h.2 hE⟩

theorem Close.nonneg {x : F64} {q E : Rat} (h : Close x q E) : 0 ≤ E := le_trans (abs_nonneg _) h.2

theorem Close.neg {x : F64} {q E : Rat} (h : Close x q E) : Close (F64.neg x) (-q) E := by
  refine ⟨by rw [F64.finite_neg]; exact h.1, ?_⟩
  rw [F64.value_neg, show -x.value * 100000000 - -q = -(x.value * 100000000 - q) by ring, abs_neg]
  exact h.2

theorem large_1023 : ∃ K : Rat, (2 : Rat) ^ 1023 = K ∧ 2 ^ 100 ≤ K :=
  ⟨_, rfl, pow_le_pow_right₀ (by norm_num) (by norm_num)⟩

theorem Close.add {x y : F64} {q r E F S : Rat} (hx : Close x q E) (hy : Close y r F) (hS : |q + r| ≤ S)
    (hb : S + E + F ≤ 2 ^ 60) : Close (F64.add x y) (q + r) (E + F + (S + E + F) / 2 ^ 53) := by
  have h1 := abs_le.1 hx.2
  have h2 := abs_le.1 hy.2
  have h3 := abs_le.1 hS
  have hs : |(x.value + y.value) * 100000000| ≤ S + E + F := by rw [abs_le]; constructor <;> linarith
  have hs' : |x.value + y.value| * 100000000 ≤ S + E + F := by
    rwa [abs_mul, abs_of_pos (show (0 : Rat) < 100000000 by norm_num)] at hs
  obtain ⟨K, eK, hK⟩ := large_1023
  have hle : |x.value + y.value| ≤ 2 ^ 1023 := by
    rw [eK]
    clear eK
    have : (2 : Rat) ^ 60 ≤ 2 ^ 100 := by norm_num
    have := abs_nonneg (x.value + y.value)
    linarith
  obtain ⟨a1, a2⟩ := add_err x y hx.1 hy.1 hle
  clear hle eK hK
  refine ⟨a1, ?_⟩
  have h4 := abs_le.1 a2
  generalize |x.value + y.value| = T at *
  generalize (F64.add x y).value = v at *
  generalize x.value = a at *
  generalize y.value = b at *
  have : T / 2 ^ 53 * 100000000 ≤ (S + E + F) / 2 ^ 53 := by
    have := div_le_div_of_nonneg_right hs' (show (0 : Rat) ≤ 2 ^ 53 by norm_num)
    linarith
  rw [abs_le]
  constructor <;> linarith

theorem Close.div {x y : F64} {q E S : Rat} {n : Rat} (hx : Close x q E) (hy : y.finite = true) (hn : y.value = n)
    (h1 : 1 ≤ |n|) (hS : |q| ≤ S) (hb : S + E ≤ 2 ^ 60) :
    Close (F64.div x y) (q / n) (E + (S + E) / 2 ^ 53 + 1 / 2 ^ 60) := by
  have hn0 : n ≠ 0 := by rintro rfl; norm_num at h1
  have h2 := abs_le.1 hx.2
  have h3 := abs_le.1 hS
  have hs : |x.value * 100000000| ≤ S + E := by rw [abs_le]; constructor <;> linarith
  have hs' : |x.value| * 100000000 ≤ S + E := by
    rwa [abs_mul, abs_of_pos (show (0 : Rat) < 100000000 by norm_num)] at hs
  have hq : |x.value / n| ≤ |x.value| := by
    rw [abs_div]; exact div_le_self (abs_nonneg _) h1
  obtain ⟨K, eK, hK⟩ := large_1000
  have hle : |x.value / y.value| ≤ 2 ^ 1000 := by
    rw [eK, hn]
    clear eK
    have : (2 : Rat) ^ 60 ≤ 2 ^ 100 := by norm_num
    have := abs_nonneg x.value
    linarith
  obtain ⟨a1, a2⟩ := div_err x y hx.1 hy (by rw [hn]; exact hn0) hle
  clear hle eK hK
  rw [hn] at a2
  refine ⟨a1, ?_⟩
  have e1 : |x.value / n * 100000000 - q / n| ≤ E := by
    have : x.value / n * 100000000 - q / n = (x.value * 100000000 - q) / n := by ring
    rw [this, abs_div]
    exact le_trans (div_le_self (abs_nonneg _) h1) hx.2
  have h4 := abs_le.1 a2
  have h5 := abs_le.1 e1
  generalize (F64.div x y).value = v at *
  generalize x.value / n = b at *
  have : |b| / 2 ^ 53 * 100000000 ≤ (S + E) / 2 ^ 53 := by
    have : |b| * 100000000 ≤ S + E := by linarith
    have := div_le_div_of_nonneg_right this (show (0 : Rat) ≤ 2 ^ 53 by norm_num)
    linarith
  have : (1 : Rat) / 2 ^ 100 * 100000000 ≤ 1 / 2 ^ 60 := by norm_num
  rw [abs_le]
  constructor <;> linarith

theorem abs_min_sub_le {a b c d e : Rat} (h1 : |a - c| ≤ e) (h2 : |b - d| ≤ e) : |Min.min a b - Min.min c d| ≤ e := by
  rw [abs_le] at h1 h2 ⊢
  rcases min_cases a b with ⟨g, _⟩ | ⟨g, _⟩ <;> rcases min_cases c d with ⟨g', _⟩ | ⟨g', _⟩ <;> rw [g, g'] <;>
    constructor <;> linarith

theorem abs_max_sub_le {a b c d e : Rat} (h1 : |a - c| ≤ e) (h2 : |b - d| ≤ e) : |Max.max a b - Max.max c d| ≤ e := by
  rw [abs_le] at h1 h2 ⊢
  rcases max_cases a b with ⟨g, _⟩ | ⟨g, _⟩ <;> rcases max_cases c d with ⟨g', _⟩ | ⟨g', _⟩ <;> rw [g, g'] <;>
    constructor <;> linarith

/-! ### Days -/

theorem ofInt_days (n : Int) (h : n.natAbs ≤ 2 ^ 53) : (F64.ofInt n).finite = true ∧ (F64.ofInt n).value = n := by
  have hr : rep (n.natAbs * F64.unit) = true := by
    apply rep_of_form _ _ h
    calc n.natAbs * 2 ^ 1074 ≤ 2 ^ 53 * 2 ^ 1074 := Nat.mul_le_mul_right _ h
      _ < 2 ^ 2098 := by rw [← Nat.pow_add]; exact Nat.pow_lt_pow_right (by omega) (by omega)
  have e : F64.ofInt n = .fin (decide (n < 0)) (n.natAbs * F64.unit) hr := by
    unfold F64.ofInt
    have := mkRound_exact (decide (n < 0)) (n.natAbs * F64.unit) 1 (by omega) hr
    rwa [Nat.mul_one] at this
  rw [e]
  refine ⟨rfl, ?_⟩
  have hu : (F64.unit : Rat) ≠ 0 := by
    obtain ⟨u, eu, hu⟩ := unit_rat
    rw [eu]
    exact (lt_of_lt_of_le (by norm_num) hu).ne'
  rw [F64.value_sign]
  push_cast
  rw [mul_div_cancel_right₀ _ hu, Nat.cast_natAbs, Int.cast_abs]
  by_cases hn : n < 0
  · have : (n : Rat) < 0 := by exact_mod_cast hn
    rw [decide_eq_true hn, if_pos rfl, abs_of_neg this]; ring
  · have : (0 : Rat) ≤ n := by exact_mod_cast not_lt.1 hn
    rw [decide_eq_false hn, if_neg (by simp), abs_of_nonneg this]; ring

/-- There are fewer than 2^53 days. -/
theorem days_small (a b : Date) : (Date.daysSince a b).natAbs ≤ 2 ^ 53 := by
  rw [Date.daysSince_eq]
  have h1 := Date.dayNum_range a
  have h2 := Date.dayNum_range b
  have h3 : Date.maxDay - Date.minDay ≤ 2 ^ 53 := by decide
  omega

/-! ### The fill -/

theorem fill_value {first left rest tot : F64} (h1 : first.finite = true) (h2 : left.finite = true)
    (h3 : rest.finite = true) (h4 : tot.finite = true) :
    (Envelope.fillMag first left rest tot).finite = true ∧
      (Envelope.fillMag first left rest tot).value =
        Max.max (Min.min (Min.min first.value rest.value) left.value) (Max.max (-tot.value) 0) := by
  show (F64.max (F64.max (F64.min (F64.min first left) rest) (F64.neg tot)) F64.zero).finite = true ∧
    (F64.max (F64.max (F64.min (F64.min first left) rest) (F64.neg tot)) F64.zero).value = _
  obtain ⟨a1, a2⟩ := F64.min_value h1 h2
  obtain ⟨b1, b2⟩ := F64.min_value a1 h3
  have hn : (F64.neg tot).finite = true := by rw [F64.finite_neg]; exact h4
  obtain ⟨c1, c2⟩ := F64.max_value b1 hn
  obtain ⟨d1, d2⟩ := F64.max_value c1 (show F64.zero.finite = true from rfl)
  refine ⟨d1, ?_⟩
  rw [d2, c2, b2, a2, F64.value_neg, F64.value_zero, max_assoc, min_right_comm]

theorem ofInt_0 : F64.ofInt 0 = .fin false 0 (by decide +kernel) := by decide +kernel

/-- An instalment of the rest in no days at all is the rest. -/
theorem fill_value_today {left rest tot : F64} (h2 : left.finite = true) (h3 : rest.finite = true) (h4 : tot.finite = true) :
    (Envelope.fillMag (F64.div rest (F64.ofInt 0)) left rest tot).finite = true ∧
      (Envelope.fillMag (F64.div rest (F64.ofInt 0)) left rest tot).value =
        Max.max (Min.min rest.value left.value) (Max.max (-tot.value) 0) := by
  have hn : (F64.neg tot).finite = true := by rw [F64.finite_neg]; exact h4
  have hz : F64.zero.finite = true := rfl
  show (F64.max (F64.max (F64.min (F64.min (F64.div rest (F64.ofInt 0)) left) rest) (F64.neg tot)) F64.zero).finite = true ∧
    (F64.max (F64.max (F64.min (F64.min (F64.div rest (F64.ofInt 0)) left) rest) (F64.neg tot)) F64.zero).value = _
  obtain ⟨b1, b2⟩ := F64.min_value h2 h3
  obtain ⟨c1, c2⟩ := F64.max_value b1 hn
  obtain ⟨d1, d2⟩ := F64.max_value c1 hz
  have hplain : F64.min (F64.div rest (F64.ofInt 0)) left = left → 
      (F64.max (F64.max (F64.min (F64.min (F64.div rest (F64.ofInt 0)) left) rest) (F64.neg tot)) F64.zero).finite = true ∧
      (F64.max (F64.max (F64.min (F64.min (F64.div rest (F64.ofInt 0)) left) rest) (F64.neg tot)) F64.zero).value =
        Max.max (Min.min rest.value left.value) (Max.max (-tot.value) 0) := by
    intro e
    rw [e]
    refine ⟨d1, ?_⟩
    rw [d2, c2, b2, F64.value_neg, F64.value_zero, max_assoc, min_comm]
  cases rest with
  | nan => cases h3
  | inf s => cases h3
  | fin s n hr =>
    cases left with
    | nan => cases h2
    | inf s => cases h2
    | fin t m hm =>
      have e0 : F64.div (.fin s n hr) (F64.ofInt 0) = if n = 0 then .nan else .inf s := by
        rw [ofInt_0]
        simp [F64.div]
      by_cases hn0 : n = 0
      · apply hplain
        rw [e0, if_pos hn0]
        rfl
      · cases s with
        | false =>
          apply hplain
          rw [e0, if_neg hn0]
          simp [F64.min, F64.isNan, F64.lt]
        | true =>
          rw [e0, if_neg hn0]
          have e1 : F64.min (F64.min (.inf true) (.fin t m hm)) (.fin true n hr) = .inf true := by
            simp [F64.min, F64.isNan, F64.lt]
          rw [e1]
          have e2 : F64.max (.inf true) (F64.neg tot) = F64.neg tot := by
            cases tot with
            | nan => cases h4
            | inf s => cases h4
            | fin u k hk => simp [F64.max, F64.neg, F64.isNan, F64.lt]
          rw [e2]
          obtain ⟨f1, f2⟩ := F64.max_value hn hz
          refine ⟨f1, ?_⟩
          rw [f2, F64.value_neg, F64.value_zero]
          have hneg : (F64.fin true n hr).value ≤ 0 := by
            rw [F64.value_sign, if_pos rfl]
            have : (0 : Rat) ≤ (n : Rat) / F64.unit := div_nonneg (Nat.cast_nonneg _) (Nat.cast_nonneg _)
            generalize (n : Rat) / F64.unit = v at *
            linarith
          refine (max_eq_right ?_).symm
          exact le_trans (min_le_left _ _) (le_trans hneg (le_max_right _ _))

/-- Taking the smaller of the wish and what is left, and at least what is owed: the errors do not add up. -/
theorem fill_lipschitz {w w' l l' o o' δ ε : Rat} (hw : |w' - w| ≤ δ) (hl : |l' - l| ≤ ε) (ho : |o' - o| ≤ δ) :
    |Max.max (Min.min w' l') (Max.max o' 0) - Max.max (Min.min w l) (Max.max o 0)| ≤ Max.max δ ε ∧
      |(l' - Max.max (Min.min w' l') (Max.max o' 0)) - (l - Max.max (Min.min w l) (Max.max o 0))| ≤ ε + δ := by
  have hd : 0 ≤ δ := le_trans (abs_nonneg _) hw
  have he : 0 ≤ ε := le_trans (abs_nonneg _) hl
  have key : ∀ w l o : Rat, Max.max (Min.min w l) o = l - Min.min (Max.max (l - w) 0) (l - o) := by
    intro w l o
    rcases min_cases w l with ⟨g1, _⟩ | ⟨g1, _⟩ <;> rw [g1] <;>
      rcases max_cases (l - w) 0 with ⟨g2, _⟩ | ⟨g2, _⟩ <;> rw [g2]
    · rcases max_cases w o with ⟨g3, _⟩ | ⟨g3, _⟩ <;> rw [g3] <;>
        rcases min_cases (l - w) (l - o) with ⟨g4, _⟩ | ⟨g4, _⟩ <;> rw [g4] <;> linarith
    · rcases max_cases w o with ⟨g3, _⟩ | ⟨g3, _⟩ <;> rw [g3] <;>
        rcases min_cases 0 (l - o) with ⟨g4, _⟩ | ⟨g4, _⟩ <;> rw [g4] <;> linarith
    · rcases max_cases l o with ⟨g3, _⟩ | ⟨g3, _⟩ <;> rw [g3] <;>
        rcases min_cases (l - w) (l - o) with ⟨g4, _⟩ | ⟨g4, _⟩ <;> rw [g4] <;> linarith
    · rcases max_cases l o with ⟨g3, _⟩ | ⟨g3, _⟩ <;> rw [g3] <;>
        rcases min_cases 0 (l - o) with ⟨g4, _⟩ | ⟨g4, _⟩ <;> rw [g4] <;> linarith
  have hO : |Max.max o' 0 - Max.max o 0| ≤ δ := abs_max_sub_le ho (by simpa using hd)
  constructor
  · refine abs_max_sub_le (abs_min_sub_le (le_trans hw (le_max_left _ _)) (le_trans hl (le_max_right _ _))) ?_
    exact le_trans hO (le_max_left _ _)
  · rw [key w' l' (Max.max o' 0), key w l (Max.max o 0)]
    rw [sub_sub_cancel, sub_sub_cancel]
    rw [abs_le] at hw hl hO
    refine abs_min_sub_le (abs_max_sub_le ?_ (by rw [sub_zero, abs_zero]; linarith)) ?_
    · rw [abs_le]; constructor <;> linarith
    · rw [abs_le]; constructor <;> linarith

/-! ### What is printed -/

/-- Rounding to eight decimals: a whole number of hundred-millionths, at most half of one away, and a little. -/
theorem round8_any (m : F64) (hm : m.finite = true) (hb : |m.value| * 100000000 ≤ 2 ^ 50) :
    ∃ (neg : Bool) (n : Nat), n < 2 ^ 51 ∧ round8 m = F64.mkRound neg (n * F64.unit) 100000000 ∧
      |m.value * 100000000 - (F64.sgn neg n : Int)| ≤ 5 / 8 := by
  cases m with
  | nan => cases hm
  | inf s => cases hm
  | fin s a ha =>
    obtain ⟨u, eu, hu⟩ := unit_rat
    have hu0 : (0 : Rat) < u := lt_of_lt_of_le (by positivity) hu
    have hv : |(F64.fin s a ha).value| = (a : Rat) / F64.unit := by
      have h0 : (0 : Rat) ≤ (a : Rat) / F64.unit := div_nonneg (Nat.cast_nonneg _) (Nat.cast_nonneg _)
      rw [F64.value_sign, abs_mul, abs_of_nonneg h0]
      cases s <;> simp
    rw [hv] at hb
    have hp := roundQ_one_rel (a * 100000000)
    have ha8 : (a : Rat) * 100000000 ≤ 2 ^ 50 * F64.unit := by
      rw [eu] at hb ⊢
      rw [div_mul_eq_mul_div, div_le_iff₀ hu0] at hb
      exact hb
    have hp2 : (roundQ (a * 100000000) 1 : Rat) ≤ 2 ^ 51 * F64.unit ∧
        |(roundQ (a * 100000000) 1 : Rat) - a * 100000000| ≤ F64.unit / 8 := by
      rw [eu] at ha8 ⊢
      push_cast at hp
      have h1 := abs_le.1 hp
      have h0 : (0 : Rat) ≤ a := Nat.cast_nonneg _
      have h2 : (a : Rat) * 100000000 / 2 ^ 53 ≤ u / 8 := by
        have := div_le_div_of_nonneg_right ha8 (show (0 : Rat) ≤ 2 ^ 53 by norm_num)
        have e : (2 : Rat) ^ 50 * u / 2 ^ 53 = u / 8 := by ring
        rwa [e] at this
      refine ⟨?_, le_trans hp h2⟩
      have : u / 8 ≤ 2 ^ 50 * u := by linarith
      have e : (2 : Rat) ^ 51 * u = 2 ^ 50 * u + 2 ^ 50 * u := by ring
      rw [e]
      linarith [h1.2]
    have hpl : roundQ (a * 100000000) 1 < 2 ^ 2098 := by
      refine lt_of_le_of_lt ?_ units_53
      have h1 : roundQ (a * 100000000) 1 ≤ 2 ^ 51 * F64.unit := by exact_mod_cast hp2.1
      exact le_trans h1 (Nat.mul_le_mul_right _ (by norm_num))
    have hrep := rep_roundQ (a * 100000000) 1 (by omega) hpl
    obtain ⟨_, w1, w2⟩ := rep_whole _ hrep
    obtain ⟨N, hN⟩ : ∃ N, near (roundQ (a * 100000000) 1) = N := ⟨_, rfl⟩
    rw [hN] at w1 w2
    have hdiff : |(N : Rat) * F64.unit - a * 100000000| ≤ F64.unit * (5 / 8) := by
      have w1 : (2 : Rat) * (N * F64.unit) ≤ 2 * roundQ (a * 100000000) 1 + F64.unit := by exact_mod_cast w1
      have w2 : (2 : Rat) * roundQ (a * 100000000) 1 < 2 * (N * F64.unit) + F64.unit := by exact_mod_cast w2
      have h1 := abs_le.1 hp2.2
      rw [abs_le]
      generalize (roundQ (a * 100000000) 1 : Rat) = r at *
      generalize (N : Rat) * F64.unit = z at *
      rw [eu] at *
      constructor <;> linarith [h1.1, h1.2]
    have hNlt : N < 2 ^ 51 := by
      have h1 := (abs_le.1 hdiff).2
      have : (N : Rat) * F64.unit < 2 ^ 51 * F64.unit := by
        generalize (N : Rat) * F64.unit = z at *
        rw [eu] at *
        have e : (2 : Rat) ^ 51 * u = 2 ^ 50 * u + 2 ^ 50 * u := by ring
        have : u ≤ 2 ^ 50 * u := by linarith
        rw [e]
        linarith
      rw [eu] at this
      exact_mod_cast lt_of_mul_lt_mul_right this hu0.le
    obtain ⟨h, e⟩ := round8_fin s a ha hpl (by rw [hN]; exact (hundredMillionths_small N hNlt).1)
    obtain ⟨h', e'⟩ := typed_fin s N hNlt
    refine ⟨s, N, hNlt, ?_, ?_⟩
    · rw [e, e']
      simp only [hN]
    · have e1 : (F64.fin s a ha).value * 100000000 - ((F64.sgn s N : Int) : Rat) =
          (if s then -1 else 1) * ((a : Rat) / F64.unit * 100000000 - N) := by
        rw [F64.value_sign]
        cases s <;> simp [F64.sgn] <;> ring
      have hs : |(if s then (-1 : Rat) else 1)| = 1 := by cases s <;> simp
      rw [e1, abs_mul, hs, one_mul]
      rw [eu] at hdiff ⊢
      have e2 : (a : Rat) / u * 100000000 - N = -((N * u - a * 100000000) / u) := by field_simp; ring
      rw [e2, abs_neg, abs_div, abs_of_pos hu0, div_le_iff₀ hu0]
      linarith

/-- What is printed for a double is written with at most eight decimals, less than one hundred-millionth away. -/
theorem display_close (x : F64) (s : Option Str) (hx : x.finite = true) (hb : |x.value| * 100000000 ≤ 2 ^ 50)
    (h : ∀ y, s = some y → ValidSymbol '.' y) :
    ∃ (r : Rat) (u : Str), ((⟨x, s⟩ : Amount F64).display = u ∨ (⟨x, s⟩ : Amount F64).display = ' ' :: u) ∧
      WrittenAmount u r s ∧ (∃ i : Int, r = i / 100000000) ∧ |x.value * 100000000 - r * 100000000| ≤ 5 / 8 := by
  obtain ⟨neg, n, h1, h2, h3⟩ := round8_any x hx hb
  have hs := fmt_shows neg n h1
  obtain ⟨d, k, g1, g2⟩ := hs
  have hnum : IsNumeral (Mag.fmt (round8 x)) neg d k := by rw [h2]; exact g1
  obtain ⟨r, hr⟩ : ∃ r : Rat, r = (F64.sgn neg n : Int) / 100000000 := ⟨_, rfl⟩
  have hval : r = (if neg then -1 else 1) * ((d : Rat) / 10 ^ k) := by
    have g2 : (d : Rat) * 10 ^ 8 = n * 10 ^ k := by exact_mod_cast g2
    have hk : (0 : Rat) < 10 ^ k := by positivity
    have e : (d : Rat) / 10 ^ k = n / 100000000 := by
      rw [div_eq_div_iff hk.ne' (by norm_num), ← g2]; norm_num
    rw [hr, e]
    cases neg <;> simp [F64.sgn]
    ring
  have hclose : |x.value * 100000000 - r * 100000000| ≤ 5 / 8 := by
    rw [hr, div_mul_cancel₀ _ (by norm_num)]; exact h3
  have hint : ∃ i : Int, r = i / 100000000 := ⟨_, hr⟩
  refine ⟨r, ?_⟩
  cases s with
  | none =>
    refine ⟨Mag.fmt (round8 x), ?_, ⟨_, neg, d, k, hnum, hval, Or.inl ⟨rfl, rfl⟩⟩, hint, hclose⟩
    unfold Amount.display magText
    simp only
    split
    · exact Or.inl rfl
    · exact Or.inr rfl
  | some sym =>
    have hv := h sym rfl
    have key : ∀ u, u ∈ [sym ++ Mag.fmt (round8 x), Mag.fmt (round8 x) ++ sym, sym ++ s%" " ++ Mag.fmt (round8 x),
        Mag.fmt (round8 x) ++ s%" " ++ sym] → WrittenAmount u r (some sym) := fun u hu =>
      ⟨_, neg, d, k, hnum, hval, Or.inr ⟨sym, rfl, hv, hu⟩⟩
    unfold Amount.display magText
    simp only
    split
    · split
      · exact ⟨_, Or.inl rfl, key _ (by simp), hint, hclose⟩
      · exact ⟨_, Or.inl rfl, key _ (by simp), hint, hclose⟩
    · split
      · exact ⟨_, Or.inl rfl, key _ (by simp), hint, hclose⟩
      · exact ⟨_, Or.inr rfl, key _ (by simp), hint, hclose⟩

end Silverfox
