import Verif.Proofs.Rounding
import Verif.Props.Amounts
import Verif.Proofs.Check

/-
C89: amounts survive being written and read, in the arithmetic of doubles.
-/

namespace Silverfox

/-! ### Scaling -/

theorem rne_scale (x y c : Nat) (hc : 0 < c) : rne (x * c) (y * c) = rne x y := by
  unfold rne
  rw [Nat.mul_div_mul_right _ _ hc, Nat.mul_mod_mul_right]
  have h1 : (2 * (x % y * c) < y * c) ↔ 2 * (x % y) < y := by
    rw [← Nat.mul_assoc]; exact Nat.mul_lt_mul_right hc
  have h2 : (y * c < 2 * (x % y * c)) ↔ y < 2 * (x % y) := by
    rw [← Nat.mul_assoc]; exact Nat.mul_lt_mul_right hc
  simp only [h1, h2]

theorem roundQ_scale (x y c : Nat) (hc : 0 < c) : roundQ (x * c) (y * c) = roundQ x y := by
  unfold roundQ
  rw [Nat.mul_div_mul_right _ _ hc, show y * c * 2 ^ ulpExp (x / y) = y * 2 ^ ulpExp (x / y) * c by ring,
    rne_scale _ _ _ hc]

/-! ### Rounding to eight decimals -/

theorem unit_pos : 0 < F64.unit := Nat.two_pow_pos _

theorem unit_large : 2 ^ 100 ≤ F64.unit := Nat.pow_le_pow_right (by omega) (by omega)

theorem unit_sq : F64.unit * 2 ^ 1024 = 2 ^ 2098 := by
  unfold F64.unit; rw [← Nat.pow_add]

theorem ofInt_e8 : (F64.ofInt 100000000) = .fin false (100000000 * F64.unit) (by decide +kernel) := by
  decide +kernel

/-- The nearest whole number of units of 1. -/
def near (p : Nat) : Nat := (2 * p + F64.unit) / (2 * F64.unit)

/-- `n / 1e8` as a double. -/
def hundredMillionths (n : Nat) : Nat := roundQ (n * F64.unit) 100000000

theorem rep_whole (p : Nat) (h : rep p = true) : rep (near p * F64.unit) = true ∧
    2 * (near p * F64.unit) ≤ 2 * p + F64.unit ∧ 2 * p < 2 * (near p * F64.unit) + F64.unit := by
  have hu := unit_pos
  have hb : 2 * (near p * F64.unit) ≤ 2 * p + F64.unit ∧ 2 * p < 2 * (near p * F64.unit) + F64.unit := by
    unfold near
    have h1 := Nat.div_add_mod (2 * p + F64.unit) (2 * F64.unit)
    have h2 := Nat.mod_lt (2 * p + F64.unit) (show 0 < 2 * F64.unit by omega)
    generalize (2 * p + F64.unit) / (2 * F64.unit) = q at *
    have : 2 * F64.unit * q = 2 * (q * F64.unit) := by ring
    omega
  refine ⟨?_, hb⟩
  unfold rep at h
  simp only [Bool.and_eq_true, beq_iff_eq, Nat.blt_eq] at h
  by_cases hn : near p ≤ 2 ^ 53
  · apply rep_of_form _ _ hn
    calc near p * 2 ^ 1074 ≤ 2 ^ 53 * 2 ^ 1074 := Nat.mul_le_mul_right _ hn
      _ < 2 ^ 2098 := by rw [← Nat.pow_add]; exact Nat.pow_lt_pow_right (by omega) (by omega)
  · have hp : 2 ^ 53 * F64.unit ≤ p := by
      have : (2 ^ 53 + 1) * F64.unit ≤ near p * F64.unit := Nat.mul_le_mul_right _ (by omega)
      rw [Nat.add_mul] at this
      omega
    have hl : 1074 ≤ ulpExp p := by
      unfold ulpExp
      have : ¬ Nat.log2 p < 1127 := by
        rw [Nat.log2_lt (by omega)]
        have : 2 ^ 53 * F64.unit = 2 ^ 1127 := by unfold F64.unit; rw [← Nat.pow_add]
        omega
      omega
    obtain ⟨k, hk⟩ := Nat.dvd_of_mod_eq_zero h.1
    have : p = k * 2 ^ (ulpExp p - 1074) * F64.unit := by
      conv => lhs; rw [hk]
      unfold F64.unit
      rw [Nat.mul_assoc, ← Nat.pow_add, Nat.sub_add_cancel hl, Nat.mul_comm]
    generalize k * 2 ^ (ulpExp p - 1074) = j at this
    have hj : near p = j := by
      obtain ⟨hb1, hb2⟩ := hb
      generalize near p = i at hb1 hb2 ⊢
      rw [this] at hb1 hb2
      clear this hk hl hp hn h
      have h1 : i * F64.unit < (j + 1) * F64.unit := by rw [Nat.add_mul]; omega
      have h2 : j * F64.unit < (i + 1) * F64.unit := by rw [Nat.add_mul]; omega
      have := Nat.lt_of_mul_lt_mul_right h1
      have := Nat.lt_of_mul_lt_mul_right h2
      omega
    rw [hj, ← this]
    unfold rep
    simp only [Bool.and_eq_true, beq_iff_eq, Nat.blt_eq]
    exact h

theorem round8_f64 (m : F64) :
    round8 m = F64.div (F64.round (F64.mul m (F64.ofInt 100000000))) (F64.ofInt 100000000) := by
  unfold round8
  simp only [Mag.div, Mag.round, Mag.mul, Mag.ofInt]

/-- Rounding a finite double to eight decimals, if nothing overflows. -/
theorem round8_fin (s : Bool) (a : Nat) (ha : rep a = true) (hp : roundQ (a * 100000000) 1 < 2 ^ 2098)
    (hq : hundredMillionths (near (roundQ (a * 100000000) 1)) < 2 ^ 2098) :
    ∃ h, round8 (F64.fin s a ha) = .fin s (hundredMillionths (near (roundQ (a * 100000000) 1))) h := by
  have hu := unit_pos
  have e1 : ∃ h, F64.mul (.fin s a ha) (F64.ofInt 100000000) = .fin s (roundQ (a * 100000000) 1) h := by
    refine ⟨rep_roundQ _ _ (by omega) hp, ?_⟩
    rw [ofInt_e8]
    simp only [F64.mul, Bool.bne_false]
    have e : roundQ (a * (100000000 * F64.unit)) F64.unit = roundQ (a * 100000000) 1 := by
      rw [← Nat.mul_assoc, ← roundQ_scale _ 1 _ hu, Nat.one_mul]
    unfold F64.mkRound
    rw [dif_pos (by rw [e]; exact rep_roundQ _ _ (by omega) hp)]
    congr 1
  obtain ⟨hrep, e1⟩ := e1
  generalize roundQ (a * 100000000) 1 = P at *
  have hw := (rep_whole P hrep).1
  have e2 : F64.round (.fin s P hrep) = .fin s (near P * F64.unit) hw := by
    have := mkRound_exact s (near P * F64.unit) 1 (by omega) hw
    rw [Nat.mul_one] at this
    exact this
  have hrep2 : rep (hundredMillionths (near P)) = true := rep_roundQ _ _ (by omega) hq
  refine ⟨hrep2, ?_⟩
  rw [round8_f64, e1, e2, ofInt_e8]
  simp only [F64.div, Bool.bne_false]
  rw [if_neg (Nat.mul_pos (by omega) hu).ne']
  have e : roundQ (near P * F64.unit * F64.unit) (100000000 * F64.unit) = hundredMillionths (near P) :=
    roundQ_scale _ _ _ hu
  unfold F64.mkRound
  rw [dif_pos (by rw [e]; exact hrep2)]
  congr 1

theorem hundredMillionths_err (n : Nat) :
    |(hundredMillionths n : Rat) * 100000000 - n * F64.unit| ≤ max ((n : Rat) * F64.unit / 2 ^ 53) 50000000 := by
  have h := roundQ_rel (n * F64.unit) 100000000 (by omega)
  change |(hundredMillionths n : Rat) - _| ≤ _ at h
  generalize hundredMillionths n = q at *
  push_cast at h
  have e : (q : Rat) * 100000000 - n * F64.unit = ((q : Rat) - n * F64.unit / 100000000) * 100000000 := by ring
  rw [e, abs_mul, abs_of_pos (show (0 : Rat) < 100000000 by norm_num)]
  calc _ ≤ max ((n : Rat) * F64.unit / 100000000 / 2 ^ 53) (1 / 2) * 100000000 :=
        mul_le_mul_of_nonneg_right h (by norm_num)
    _ = max ((n : Rat) * F64.unit / 2 ^ 53) 50000000 := by
        rw [max_mul_of_nonneg _ _ (by norm_num)]
        congr 1
        · ring
        · norm_num

theorem roundQ_one_err (n : Nat) : |(roundQ n 1 : Rat) - n| ≤ (n : Rat) / 2 ^ 53 := roundQ_one_rel n

theorem unit_rat : ∃ u : Rat, (F64.unit : Rat) = u ∧ 2 ^ 100 ≤ u := ⟨_, rfl, by exact_mod_cast unit_large⟩

/-- Below 2^51 hundred-millionths, the number is found again. -/
theorem near_back (n : Nat) (h : n < 2 ^ 51) : near (roundQ (hundredMillionths n * 100000000) 1) = n := by
  have h1 := hundredMillionths_err n
  have h2 := roundQ_one_rel (hundredMillionths n * 100000000)
  generalize hundredMillionths n = q at *
  generalize roundQ (q * 100000000) 1 = p at *
  obtain ⟨u, eu, hu⟩ := unit_rat
  have hu0 : (0 : Rat) < u := lt_of_lt_of_le (by positivity) hu
  have hn : (n : Rat) ≤ 2 ^ 51 - 1 := by
    have : n + 1 ≤ 2 ^ 51 := h
    have : (n : Rat) + 1 ≤ 2 ^ 51 := by exact_mod_cast this
    linarith
  push_cast at h2
  have key : |(p : Rat) - n * F64.unit| < F64.unit / 2 := by
    rw [eu] at h1 ⊢
    generalize (n : Rat) = n' at *
    generalize (q : Rat) = q' at *
    generalize (p : Rat) = p' at *
    have hnu : n' * u ≤ (2 ^ 51 - 1) * u := mul_le_mul_of_nonneg_right hn hu0.le
    generalize n' * u = x at *
    have h1' : |q' * 100000000 - x| ≤ u / 4 - u / 2 ^ 53 := by
      refine le_trans h1 (max_le ?_ ?_)
      · linarith
      · linarith
    clear h1 hn
    rw [abs_le] at h1' h2
    rw [abs_lt]
    obtain ⟨a1, a2⟩ := h1'
    obtain ⟨b1, b2⟩ := h2
    constructor <;> linarith
  unfold near
  rw [abs_lt] at key
  have k1 : 2 * (n * F64.unit) < 2 * p + F64.unit := by
    have : 2 * ((n : Rat) * F64.unit) < 2 * p + F64.unit := by linarith [key.1]
    exact_mod_cast this
  have k2 : 2 * p < 2 * (n * F64.unit) + F64.unit := by
    have : 2 * (p : Rat) < 2 * (n * F64.unit) + F64.unit := by linarith [key.2]
    exact_mod_cast this
  have hu := unit_pos
  apply Nat.div_eq_of_lt_le
  · have : n * (2 * F64.unit) = 2 * (n * F64.unit) := by ring
    omega
  · have : (n + 1) * (2 * F64.unit) = 2 * (n * F64.unit) + 2 * F64.unit := by ring
    omega

theorem units_53 : 2 ^ 53 * F64.unit < 2 ^ 2098 := by
  unfold F64.unit; rw [← Nat.pow_add]; exact Nat.pow_lt_pow_right (by omega) (by omega)

theorem hundredMillionths_small (n : Nat) (h : n < 2 ^ 51) :
    hundredMillionths n < 2 ^ 2098 ∧ roundQ (hundredMillionths n * 100000000) 1 < 2 ^ 2098 := by
  have h1 := hundredMillionths_err n
  have h2 := roundQ_one_rel (hundredMillionths n * 100000000)
  obtain ⟨u, eu, hu⟩ := unit_rat
  have hu0 : (0 : Rat) < u := lt_of_lt_of_le (by positivity) hu
  have hn : (n : Rat) ≤ 2 ^ 51 := by exact_mod_cast Nat.le_of_lt h
  have hq0 : (0 : Rat) ≤ hundredMillionths n := Nat.cast_nonneg _
  generalize hundredMillionths n = q at *
  push_cast at h2
  have key : (q : Rat) ≤ 2 ^ 53 * F64.unit ∧ (roundQ (q * 100000000) 1 : Rat) ≤ 2 ^ 53 * F64.unit := by
    rw [eu] at h1 ⊢
    generalize (roundQ (q * 100000000) 1 : Rat) = p' at *
    generalize (n : Rat) = n' at *
    generalize (q : Rat) = q' at *
    have hnu : n' * u ≤ 2 ^ 51 * u := mul_le_mul_of_nonneg_right hn hu0.le
    generalize n' * u = x at *
    rw [abs_le] at h1 h2
    obtain ⟨_, a2⟩ := h1
    obtain ⟨_, b2⟩ := h2
    have h1' : q' * 100000000 ≤ 2 ^ 52 * u := by
      rcases le_max_iff.1 a2 with h | h <;> linarith
    constructor <;> linarith
  exact ⟨lt_of_le_of_lt (by exact_mod_cast key.1) units_53, lt_of_le_of_lt (by exact_mod_cast key.2) units_53⟩

/-- Doubles that are a number of hundred-millionths below 2^51 are not changed by rounding. -/
theorem round8_fixed (s : Bool) (n : Nat) (h : n < 2 ^ 51) (hr : rep (hundredMillionths n) = true) :
    round8 (F64.fin s (hundredMillionths n) hr) = .fin s (hundredMillionths n) hr := by
  obtain ⟨h1, h2⟩ := hundredMillionths_small n h
  obtain ⟨h3, h4⟩ := round8_fin s (hundredMillionths n) hr h2 (by rw [near_back n h]; exact h1)
  rw [h4]
  generalize_proofs
  simp only [near_back n h]

/-! ### C89 -/

/-- The value of a finite double. -/
def F64.value : F64 → Rat
  | .fin s n _ => (if s then -(n : Rat) else n) / F64.unit
  | _ => 0

/-- C89: an amount typed with at most eight decimals and below 2^51 hundred-millionths (that is 22,517,998.13685248)
is the same double after it was written and read. -/
theorem C89_typed_amounts_are_kept (t : Str) (neg : Bool) (d k : Nat) (ht : IsNumeral t neg d k) (hk : k ≤ 8)
    (hd : d * 10 ^ (8 - k) < 2 ^ 51) :
    ∃ m : F64, F64.parse t = some m ∧ m.finite = true ∧
      ∀ sym : Option Str, (∀ s, sym = some s → ValidSymbol '.' s) →
        Amount.parse (Amount.display ⟨m, sym⟩) '.' = .ok ⟨m, sym⟩ := by
  have e : roundQ (d * F64.unit) (10 ^ k) = hundredMillionths (d * 10 ^ (8 - k)) := by
    unfold hundredMillionths
    rw [← roundQ_scale _ (10 ^ k) (10 ^ (8 - k)) (by positivity), ← Nat.pow_add, Nat.add_sub_cancel' hk]
    exact congrArg (fun x => roundQ x (10 ^ 8)) (show d * F64.unit * 10 ^ (8 - k) = d * 10 ^ (8 - k) * F64.unit by
      generalize F64.unit = u; ring)
  have hr : rep (hundredMillionths (d * 10 ^ (8 - k))) = true :=
    rep_roundQ _ _ (by omega) (hundredMillionths_small _ hd).1
  have hm : F64.mkRound neg (d * F64.unit) (10 ^ k) = .fin neg (hundredMillionths (d * 10 ^ (8 - k))) hr := by
    unfold F64.mkRound
    rw [dif_pos (by rw [e]; exact hr)]
    simp only [e]
  have hfix := round8_fixed neg _ hd hr
  refine ⟨.fin neg (hundredMillionths (d * 10 ^ (8 - k))) hr, ?_, rfl, ?_⟩
  · rw [F64.parse, (parseNumeral_iff _ _ _ _).2 ht, Option.map_some]
    exact congrArg some hm
  intro sym hs
  have := C08_round_trip ⟨_, sym⟩ (by rw [hfix]; rfl) hs
  rw [hfix] at this
  exact this

theorem near_bound (a : Nat) (h : a ≤ 22517998 * F64.unit) :
    near (roundQ (a * 100000000) 1) < 2 ^ 51 ∧ roundQ (a * 100000000) 1 < 2 ^ 2098 := by
  have h1 := roundQ_one_rel (a * 100000000)
  obtain ⟨u, eu, hu⟩ := unit_rat
  have hu0 : (0 : Rat) < u := lt_of_lt_of_le (by positivity) hu
  have ha : (a : Rat) ≤ 22517998 * u := by rw [← eu]; exact_mod_cast h
  generalize roundQ (a * 100000000) 1 = p at *
  push_cast at h1
  have key : 2 * (p : Rat) + F64.unit < 2 ^ 51 * (2 * F64.unit) ∧ (p : Rat) ≤ 2 ^ 53 * F64.unit := by
    rw [eu]
    rw [abs_le] at h1
    obtain ⟨_, b2⟩ := h1
    constructor <;> linarith
  constructor
  · unfold near
    rw [Nat.div_lt_iff_lt_mul (Nat.mul_pos (by omega) unit_pos)]
    exact_mod_cast key.1
  · exact lt_of_le_of_lt (by exact_mod_cast key.2) units_53

/-- C89: whatever an amount of at most 22,517,998 is written as, once read it stays: writing and reading it again
changes nothing. -/
theorem C89_written_once (a : Amount F64) (hf : a.mag.finite = true) (hm : |a.mag.value| ≤ 22517998)
    (hs : ∀ s, a.sym = some s → ValidSymbol '.' s) :
    ∃ b : Amount F64, Amount.parse a.display '.' = .ok b ∧ b.sym = a.sym ∧ Amount.parse b.display '.' = .ok b := by
  obtain ⟨m, sym⟩ := a
  cases m with
  | nan => cases hf
  | inf s => cases hf
  | fin s n hr =>
    have hn : n ≤ 22517998 * F64.unit := by
      have hu : (0 : Rat) < F64.unit := by exact_mod_cast unit_pos
      have : |(F64.fin s n hr).value| = (n : Rat) / F64.unit := by
        unfold F64.value
        cases s <;> simp only [Bool.false_eq_true, if_false, if_true]
        · rw [abs_of_nonneg (div_nonneg (Nat.cast_nonneg _) hu.le)]
        · rw [neg_div, abs_neg, abs_of_nonneg (div_nonneg (Nat.cast_nonneg _) hu.le)]
      rw [this, div_le_iff₀ hu] at hm
      exact_mod_cast hm
    obtain ⟨h1, h2⟩ := near_bound n hn
    obtain ⟨h3, h4⟩ := round8_fin s n hr h2 (hundredMillionths_small _ h1).1
    have hfix := round8_fixed s _ h1 h3
    refine ⟨⟨_, sym⟩, C08_round_trip _ (by rw [h4]; rfl) hs, rfl, ?_⟩
    have := C08_round_trip ⟨.fin s _ h3, sym⟩ (by rw [hfix]; rfl) hs
    rw [hfix] at this
    rw [h4]
    exact this

theorem round8_fin_inv (s : Bool) (a : Nat) (ha : rep a = true) (hf : (round8 (F64.fin s a ha)).finite = true) :
    roundQ (a * 100000000) 1 < 2 ^ 2098 := by
  by_contra hp
  have hu := unit_pos
  have hnr : ¬ rep (roundQ (a * 100000000) 1) = true := by
    intro h
    unfold rep at h
    simp only [Bool.and_eq_true, Nat.blt_eq] at h
    exact hp h.2
  have e1 : F64.mul (.fin s a ha) (F64.ofInt 100000000) = .inf s := by
    rw [ofInt_e8]
    simp only [F64.mul, Bool.bne_false]
    have e : roundQ (a * (100000000 * F64.unit)) F64.unit = roundQ (a * 100000000) 1 := by
      rw [← Nat.mul_assoc, ← roundQ_scale _ 1 _ hu, Nat.one_mul]
    unfold F64.mkRound
    rw [dif_neg (by rw [e]; exact hnr)]
  rw [round8_f64, e1, ofInt_e8] at hf
  cases hf

/-- C89: what is written is within 0.51 hundred-millionths and a relative 2^-51 of the amount. -/
theorem C89_rounding_error (m : F64) (hm : m.finite = true) (hf : (round8 m).finite = true) :
    |(round8 m).value - m.value| ≤ 51 / 10000000000 + |m.value| / 2 ^ 51 := by
  cases m with
  | nan => cases hm
  | inf s => cases hm
  | fin s a ha =>
    have hp := round8_fin_inv s a ha hf
    have hrep : rep (roundQ (a * 100000000) 1) = true := rep_roundQ _ _ (by omega) hp
    obtain ⟨_, b1, b2⟩ := rep_whole _ hrep
    have h1 := roundQ_one_rel (a * 100000000)
    have h2 := hundredMillionths_err (near (roundQ (a * 100000000) 1))
    obtain ⟨u, eu, hu⟩ := unit_rat
    have hu0 : (0 : Rat) < u := lt_of_lt_of_le (by positivity) hu
    have key : |(hundredMillionths (near (roundQ (a * 100000000) 1)) : Rat) - a| ≤
        (51 / 10000000000 + (a : Rat) / F64.unit / 2 ^ 51) * F64.unit := by
      generalize hundredMillionths (near (roundQ (a * 100000000) 1)) = q at *
      generalize near (roundQ (a * 100000000) 1) = n at *
      generalize roundQ (a * 100000000) 1 = p at *
      have b1' : 2 * ((n : Rat) * u) ≤ 2 * p + u := by rw [← eu]; exact_mod_cast b1
      have b2' : 2 * (p : Rat) ≤ 2 * (n * u) + u := by rw [← eu]; exact_mod_cast b2.le
      have ha0 : (0 : Rat) ≤ a := Nat.cast_nonneg a
      have hx0 : (0 : Rat) ≤ n * u := mul_nonneg (Nat.cast_nonneg n) hu0.le
      rw [eu] at h2 ⊢
      push_cast at h1
      generalize (a : Rat) = a' at *
      generalize (q : Rat) = q' at *
      generalize (p : Rat) = p' at *
      generalize (n : Rat) * u = x at *
      have e : (51 / 10000000000 + a' / u / 2 ^ 51) * u = 51 / 10000000000 * u + a' / 2 ^ 51 := by
        field_simp
      rw [e]
      rw [abs_le] at h1 h2 ⊢
      obtain ⟨c1, c2⟩ := h1
      obtain ⟨d1, d2⟩ := h2
      have hmax : max (x / 2 ^ 53) 50000000 ≤ x / 2 ^ 53 + u / 2 ^ 60 := by
        apply max_le
        · have : (0 : Rat) ≤ u / 2 ^ 60 := by positivity
          linarith
        · have : (0 : Rat) ≤ x / 2 ^ 53 := by positivity
          linarith
      generalize max (x / 2 ^ 53) 50000000 = mx at *
      constructor <;> linarith
    have hq : hundredMillionths (near (roundQ (a * 100000000) 1)) < 2 ^ 2098 := by
      have hT : ∃ T : Nat, 2 ^ 2098 = T ∧ F64.unit ≤ T :=
        ⟨_, rfl, Nat.pow_le_pow_right (by omega) (by omega)⟩
      obtain ⟨T, eT, hT⟩ := hT
      rw [eT] at hp ⊢
      clear key
      generalize hundredMillionths (near (roundQ (a * 100000000) 1)) = q at *
      generalize near (roundQ (a * 100000000) 1) = n at *
      generalize roundQ (a * 100000000) 1 = p at *
      have b1' : 2 * ((n : Rat) * u) ≤ 2 * p + u := by rw [← eu]; exact_mod_cast b1
      have hx0 : (0 : Rat) ≤ n * u := mul_nonneg (Nat.cast_nonneg n) hu0.le
      have hp' : (p : Rat) < T := by exact_mod_cast hp
      have hT' : u ≤ T := by rw [← eu]; exact_mod_cast hT
      rw [eu] at h2
      generalize (n : Rat) * u = x at *
      have hmax : max (x / 2 ^ 53) 50000000 ≤ x + u := by
        apply max_le <;> linarith
      rw [abs_le] at h2
      have : (q : Rat) < T := by linarith [h2.2]
      exact_mod_cast this
    obtain ⟨h3, h4⟩ := round8_fin s a ha hp hq
    rw [h4]
    have hu' : (0 : Rat) < F64.unit := by rw [eu]; exact hu0
    generalize hundredMillionths (near (roundQ (a * 100000000) 1)) = q at *
    have e2 : ∀ (n : Nat) (h : rep n = true), (F64.fin s n h).value = (if s then -1 else 1) * ((n : Rat) / F64.unit) := by
      intro n h
      cases s <;> simp only [F64.value, Bool.false_eq_true, if_false, if_true] <;> ring
    have hs : |(if s then (-1 : Rat) else 1)| = 1 := by cases s <;> simp
    rw [e2, e2, ← mul_sub, abs_mul, abs_mul, hs, one_mul, one_mul, abs_of_nonneg (div_nonneg (Nat.cast_nonneg a) hu'.le),
      ← sub_div, abs_div, abs_of_pos hu', div_le_iff₀ hu']
    exact key

/-- C89 is false of larger amounts: 34259947.455670506 is written 34259947.45567051, which is read and
then written 34259947.45567052. -/
theorem C89_large_amounts_drift :
    ∃ a b c : Amount F64, Amount.parse s%"34259947.455670506" '.' = .ok a ∧ a.display = s%" 34259947.45567051" ∧
      Amount.parse a.display '.' = .ok b ∧ b.display = s%" 34259947.45567052" ∧
      Amount.parse b.display '.' = .ok c ∧ c.mag ≠ b.mag := by
  have h : (∃ a : Amount F64, Amount.parse s%"34259947.455670506" '.' = .ok a ∧ (a.display = s%" 34259947.45567051")) ∧
    (∃ b : Amount F64, Amount.parse s%" 34259947.45567051" '.' = .ok b ∧ (b.display = s%" 34259947.45567052" ∧
      ∃ c : Amount F64, Amount.parse s%" 34259947.45567052" '.' = .ok c ∧ c.mag ≠ b.mag)) := by decide +kernel
  obtain ⟨⟨a, h1, h2⟩, b, h3, h4, c, h5, h6⟩ := h
  exact ⟨a, b, c, h1, h2, by rw [h2]; exact h3, h4, by rw [h4]; exact h5, h6⟩

/-- One third of a cent, and an amount typed with cents. -/
example : (F64.div (F64.ofInt 1) (F64.ofInt 300)).finite = true ∧
    IsNumeral s%"-1234.56" true 123456 2 ∧ 123456 * 10 ^ (8 - 2) < 2 ^ 51 :=
  ⟨by decide +kernel, (parseNumeral_iff _ _ _ _).1 (by decide +kernel), by decide⟩

end Silverfox
