import Verif.Proofs.Numerals
import Mathlib.Tactic.Linarith
import Mathlib.Tactic.Ring
import Mathlib.Tactic.FieldSimp
import Mathlib.Tactic.Positivity
import Mathlib.Tactic.NormNum
import Mathlib.Algebra.Order.Field.Rat

/-
Errors of the arithmetic of doubles: values as rationals, and how far rounding is from the exact result.
-/

namespace Silverfox

theorem rne_bounds (num den : Nat) (h : 0 < den) :
    2 * (rne num den * den) ≤ 2 * num + den ∧ 2 * num ≤ 2 * (rne num den * den) + den := by
  have hd : num = num / den * den + num % den := by rw [Nat.mul_comm]; exact (Nat.div_add_mod num den).symm
  have hr : num % den < den := Nat.mod_lt _ h
  unfold rne
  simp only
  generalize num / den = q at *
  generalize num % den = r at *
  subst hd
  have e1 : (q + 1) * den = q * den + den := by ring
  split
  · omega
  · split
    · rw [e1]; omega
    · rcases Nat.mod_two_eq_zero_or_one q with h2 | h2 <;> rw [h2]
      · rw [Nat.add_zero]; omega
      · rw [e1]; omega

theorem ulpExp_le (n : Nat) : 2 ^ ulpExp n * 2 ^ 52 ≤ max n (2 ^ 52) := by
  unfold ulpExp
  by_cases h : Nat.log2 n ≤ 52
  · rw [Nat.sub_eq_zero_of_le h]; simp
  · have hn : n ≠ 0 := by rintro rfl; simp at h
    rw [← Nat.pow_add, Nat.sub_add_cancel (by omega)]
    exact le_trans (Nat.log2_self_le hn) (le_max_left _ _)

theorem ulpExp_small {n : Nat} (h : n < 2 ^ 53) : ulpExp n = 0 := by
  unfold ulpExp
  by_cases hn : n = 0
  · subst hn; simp
  · have := (Nat.log2_lt hn).2 h; omega

/-- The error of rounding is at most half a unit in the last place. -/
theorem roundQ_err (num den : Nat) (h : 0 < den) :
    |(roundQ num den : Rat) - (num : Rat) / den| ≤ 2 ^ ulpExp (num / den) / 2 := by
  unfold roundQ
  generalize ulpExp (num / den) = e
  have hp : 0 < den * 2 ^ e := by positivity
  obtain ⟨h1, h2⟩ := rne_bounds num (den * 2 ^ e) hp
  generalize rne num (den * 2 ^ e) = r at *
  have h1' : 2 * ((r : Rat) * (den * 2 ^ e)) ≤ 2 * num + den * 2 ^ e := by exact_mod_cast h1
  have h2' : 2 * (num : Rat) ≤ 2 * (r * (den * 2 ^ e)) + den * 2 ^ e := by exact_mod_cast h2
  have hd : (0 : Rat) < den := by exact_mod_cast h
  push_cast
  rw [abs_le]
  constructor
  · rw [le_sub_iff_add_le, ← sub_nonneg]
    have : (r : Rat) * 2 ^ e - (-(2 ^ e / 2) + (num : Rat) / den)
        = (2 * (r * (den * 2 ^ e)) + den * 2 ^ e - 2 * num) / (2 * den) := by field_simp; ring
    rw [this]
    exact div_nonneg (by linarith) (by linarith)
  · rw [← sub_nonneg]
    have : (2 : Rat) ^ e / 2 - ((r : Rat) * 2 ^ e - (num : Rat) / den)
        = (2 * num + den * 2 ^ e - 2 * (r * (den * 2 ^ e))) / (2 * den) := by field_simp; ring
    rw [this]
    exact div_nonneg (by linarith) (by linarith)

/-- The error is at most a relative 2^-53, or half of the smallest unit. -/
theorem roundQ_rel (num den : Nat) (h : 0 < den) :
    |(roundQ num den : Rat) - (num : Rat) / den| ≤ max ((num : Rat) / den / 2 ^ 53) (1 / 2) := by
  refine le_trans (roundQ_err num den h) ?_
  have h1 := ulpExp_le (num / den)
  have h2 : ((num / den : Nat) : Rat) ≤ (num : Rat) / den := by
    rw [le_div_iff₀ (by exact_mod_cast h)]; exact_mod_cast Nat.div_mul_le_self num den
  have h3 : (2 : Rat) ^ ulpExp (num / den) * 2 ^ 52 ≤ max ((num / den : Nat) : Rat) (2 ^ 52) := by exact_mod_cast h1
  rcases le_max_iff.1 h3 with h | h
  · apply le_max_of_le_left
    rw [le_div_iff₀ (by positivity)]
    calc (2 : Rat) ^ ulpExp (num / den) / 2 * 2 ^ 53 = 2 ^ ulpExp (num / den) * 2 ^ 52 := by ring
      _ ≤ _ := le_trans h h2
  · apply le_max_of_le_right
    have : (2 : Rat) ^ ulpExp (num / den) ≤ 1 := by
      by_contra hc
      push Not at hc
      have : (2 : Rat) ^ 52 < 2 ^ ulpExp (num / den) * 2 ^ 52 := by nlinarith [show (0:Rat) < 2 ^ 52 by positivity]
      linarith
    linarith

theorem roundQ_one_small {n : Nat} (h : n < 2 ^ 53) : roundQ n 1 = n := by
  unfold roundQ
  rw [Nat.div_one, ulpExp_small h]
  simpa using rne_mul n 1 (by omega)

/-- For whole units the error is relative. -/
theorem roundQ_one_rel (n : Nat) : |(roundQ n 1 : Rat) - n| ≤ (n : Rat) / 2 ^ 53 := by
  by_cases h : n < 2 ^ 53
  · rw [roundQ_one_small h]; simp; positivity
  · have := roundQ_rel n 1 (by omega)
    rw [Nat.cast_one, div_one] at this
    refine le_trans this (max_le le_rfl ?_)
    rw [le_div_iff₀ (by positivity)]
    have : (2 ^ 53 : Rat) ≤ n := by exact_mod_cast Nat.le_of_not_lt h
    linarith

theorem rne_le (num den k : Nat) (hd : 0 < den) (h : num < k * den) : rne num den ≤ k := by
  have : num / den < k := (Nat.div_lt_iff_lt_mul hd).2 h
  unfold rne
  simp only
  split
  · omega
  · split
    · omega
    · have := Nat.mod_lt (num / den) (show 2 > 0 by omega); omega

theorem roundQ_form (num den : Nat) (h : 0 < den) :
    ∃ r e, roundQ num den = r * 2 ^ e ∧ r ≤ 2 ^ 53 := by
  refine ⟨rne num (den * 2 ^ ulpExp (num / den)), ulpExp (num / den), rfl, ?_⟩
  apply rne_le _ _ _ (by positivity)
  have h1 : num < den * (num / den + 1) := by
    rw [Nat.mul_add, Nat.mul_one]
    have := Nat.div_add_mod num den; have := Nat.mod_lt num h; omega
  have h2 : num / den + 1 ≤ 2 ^ 53 * 2 ^ ulpExp (num / den) := by
    rw [← Nat.pow_add]
    refine le_trans Nat.lt_log2_self (Nat.pow_le_pow_right (by omega) ?_)
    unfold ulpExp; omega
  calc num < den * (num / den + 1) := h1
    _ ≤ den * (2 ^ 53 * 2 ^ ulpExp (num / den)) := Nat.mul_le_mul_left _ h2
    _ = _ := by ring

theorem rep_of_form (r e : Nat) (hr : r ≤ 2 ^ 53) (h : r * 2 ^ e < 2 ^ 2098) : rep (r * 2 ^ e) = true := by
  unfold rep
  rw [Bool.and_eq_true]
  refine ⟨?_, by simpa [Nat.blt_eq] using h⟩
  rw [beq_iff_eq]
  apply Nat.mod_eq_zero_of_dvd
  rcases Nat.lt_or_eq_of_le hr with hr | rfl
  · have : ulpExp (r * 2 ^ e) ≤ e := by
      unfold ulpExp
      by_cases h0 : r * 2 ^ e = 0
      · rw [h0]; simp
      · have : r * 2 ^ e < 2 ^ (53 + e) := by
          rw [Nat.pow_add]; exact Nat.mul_lt_mul_of_pos_right hr (by positivity)
        have := (Nat.log2_lt h0).2 this
        omega
    exact Dvd.dvd.mul_left (Nat.pow_dvd_pow 2 this) r
  · rw [← Nat.pow_add]
    apply Nat.pow_dvd_pow
    unfold ulpExp
    rw [Nat.log2_two_pow]
    omega

theorem rep_roundQ (num den : Nat) (hd : 0 < den) (h : roundQ num den < 2 ^ 2098) :
    rep (roundQ num den) = true := by
  obtain ⟨r, e, h1, h2⟩ := roundQ_form num den hd
  rw [h1] at h ⊢
  exact rep_of_form r e h2 h

theorem mkRound_fin (s : Bool) (num den : Nat) (hd : 0 < den) (h : roundQ num den < 2 ^ 2098) :
    F64.mkRound s num den = .fin s (roundQ num den) (rep_roundQ num den hd h) := by
  unfold F64.mkRound
  rw [dif_pos (rep_roundQ num den hd h)]

end Silverfox
