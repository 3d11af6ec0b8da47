import Verif.Props.FloatSums

/-
What `format!("{}", x)` prints for the double nearest to a decimal of at most eight places: that decimal.
-/

namespace Silverfox

set_option linter.unusedSectionVars false

/-! ### Doubles nearest to hundred-millionths are different -/

theorem hundredMillionths_inj (m n : Nat) (hn : n < 2 ^ 51) (h : hundredMillionths m = hundredMillionths n) : m = n := by
  have h1 := hundredMillionths_near m
  have h2 := hundredMillionths_near n
  rw [h] at h1
  generalize (hundredMillionths n : Rat) / F64.unit * 100000000 = q at *
  have hn' : (n : Rat) < 2 ^ 51 := by exact_mod_cast hn
  have hn0 : (0 : Rat) ≤ n := Nat.cast_nonneg n
  have hm0 : (0 : Rat) ≤ m := Nat.cast_nonneg m
  rw [abs_le] at h1 h2
  obtain ⟨a1, a2⟩ := h1
  obtain ⟨b1, b2⟩ := h2
  have k1 : (m : Rat) < n + 1 := by
    by_contra hc
    have hc := not_lt.1 hc
    have : (m : Rat) - m / 2 ^ 53 ≤ n + n / 2 ^ 53 := by linarith
    linarith
  have k2 : (n : Rat) < m + 1 := by linarith
  have k1 : m < n + 1 := by exact_mod_cast k1
  have k2 : n < m + 1 := by exact_mod_cast k2
  omega

theorem hundredMillionths_bounds (n : Nat) (hn : n < 2 ^ 51) :
    hundredMillionths n * 100000000 < (n + 1) * F64.unit ∧ n * F64.unit < hundredMillionths n * 100000000 + F64.unit := by
  have h2 := hundredMillionths_near n
  obtain ⟨u, eu, hu⟩ := unit_rat
  have hu0 : (0 : Rat) < u := lt_of_lt_of_le (by positivity) hu
  have hn' : (n : Rat) < 2 ^ 51 := by exact_mod_cast hn
  have hn0 : (0 : Rat) ≤ n := Nat.cast_nonneg n
  rw [eu] at h2
  generalize hundredMillionths n = N at *
  obtain ⟨q, hq⟩ : ∃ q : Rat, (N : Rat) / u * 100000000 = q := ⟨_, rfl⟩
  have e : (N : Rat) * 100000000 = q * u := by rw [← hq]; field_simp
  rw [hq, abs_le] at h2
  constructor
  · have : (N : Rat) * 100000000 < (n + 1) * u := by
      rw [e]; exact mul_lt_mul_of_pos_right (by linarith [h2.2]) hu0
    rw [← eu] at this
    exact_mod_cast this
  · have : (n : Rat) * u < (N : Rat) * 100000000 + u := by
      rw [e]
      have := mul_lt_mul_of_pos_right (show (n : Rat) < q + 1 by linarith [h2.1]) hu0
      linarith
    rw [← eu] at this
    exact_mod_cast this

theorem floor_near (X u n : Nat) (hu : 0 < u) (h1 : X < (n + 1) * u) (h2 : n * u < X + u) : X / u = n ∨ X / u + 1 = n := by
  have h3 : X / u < n + 1 := (Nat.div_lt_iff_lt_mul hu).2 h1
  have h4 : n ≤ X / u + 1 := by
    cases n with
    | zero => exact Nat.zero_le _
    | succ n =>
      have : n ≤ X / u := (Nat.le_div_iff_mul_le hu).2 (by rw [Nat.succ_mul] at h2; omega)
      omega
  omega

/-! ### The number of digits -/

theorem natStrGo_short (f n : Nat) (acc : Str) (j : Nat) (h : n < 10 ^ (j + 1)) :
    (natStrGo f n acc).length ≤ acc.length + (j + 1) := by
  induction f generalizing n acc j with
  | zero => simp [natStrGo]
  | succ f ih =>
    simp only [natStrGo]
    split
    · simp
    · rename_i h0
      cases j with
      | zero => omega
      | succ j =>
        have := ih (n / 10) (Char.ofNat (48 + n % 10) :: acc) j (by rw [Nat.pow_succ] at h; omega)
        simp only [List.length_cons] at this
        omega

theorem leadZeros_le (f n j m : Nat) (hm : F64.unit ≤ n * 10 ^ m) (hj : j ≤ m) : F64.leadZeros f n j ≤ m := by
  induction f generalizing j with
  | zero => simpa [F64.leadZeros] using hj
  | succ f ih =>
    rw [F64.leadZeros]
    split
    · exact hj
    · rename_i h0
      apply ih
      rcases Nat.lt_or_eq_of_le hj with h | rfl
      · omega
      · exact absurd hm h0

theorem decExp_bounds (n : Nat) (h2 : 2 ≤ n) (hn : n < 2 ^ 51) :
    -7 ≤ F64.decExp (hundredMillionths n) ∧ F64.decExp (hundredMillionths n) ≤ 9 := by
  obtain ⟨h3, h4⟩ := hundredMillionths_bounds n hn
  generalize hundredMillionths n = N at *
  have hu := unit_pos
  unfold F64.decExp
  split
  · refine ⟨by omega, ?_⟩
    have : N / F64.unit < 10 ^ (8 + 1) := by
      rw [Nat.div_lt_iff_lt_mul hu]
      have : (n + 1) * F64.unit ≤ 100000000000000000 * F64.unit := Nat.mul_le_mul_right _ (by omega)
      omega
    have := natStrGo_short (N / F64.unit + 1) (N / F64.unit) [] 8 this
    unfold natStr
    simp only [List.length_nil] at this
    omega
  · have : 2 * F64.unit ≤ n * F64.unit := Nat.mul_le_mul_right _ h2
    have := leadZeros_le 400 N 0 8 (by omega) (by omega)
    omega

/-! ### The search -/

theorem dropZero_spec (d : Nat) (k : Int) (hk : k ≤ 8) :
    (F64.dropZero d k).2 ≤ 8 ∧ (0 ≤ k → 0 ≤ (F64.dropZero d k).2 ∧
      (F64.dropZero d k).1 * 10 ^ k.toNat = d * 10 ^ (F64.dropZero d k).2.toNat) := by
  unfold F64.dropZero
  split
  · rename_i h
    refine ⟨by simp only; omega, fun _ => ⟨by simp only; omega, ?_⟩⟩
    have : k.toNat = (k - 1).toNat + 1 := by omega
    simp only
    rw [this, Nat.pow_succ]
    have h5 : d = d / 10 * 10 := by omega
    generalize 10 ^ (k - 1).toNat = t
    conv => rhs; rw [h5]
    ring
  · exact ⟨hk, fun h => ⟨h, rfl⟩⟩

/-- A text with at most eight decimals that is read as the double nearest to `n` hundred-millionths is `n`
hundred-millionths. -/
theorem reads_as_only (t : Str) (neg s : Bool) (d k n : Nat) (hn : n < 2 ^ 51) (hr : rep (hundredMillionths n) = true)
    (ht : IsNumeral t neg d k) (hk : k ≤ 8) (hp : F64.parse t = some (.fin s (hundredMillionths n) hr)) :
    neg = s ∧ d * 10 ^ 8 = n * 10 ^ k := by
  obtain ⟨x, h1, h2⟩ := typedAs_numeral t neg d k ht hk
  rw [hp] at h1
  cases h1
  rw [F64.parse, (parseNumeral_iff _ _ _ _).2 ht, Option.map_some, Option.some.injEq] at hp
  have e : roundQ (d * F64.unit) (10 ^ k) = hundredMillionths (d * 10 ^ (8 - k)) := by
    unfold hundredMillionths
    rw [← roundQ_scale _ (10 ^ k) (10 ^ (8 - k)) (by positivity), ← Nat.pow_add, Nat.add_sub_cancel' hk]
    exact congrArg (fun x => roundQ x (10 ^ 8)) (show d * F64.unit * 10 ^ (8 - k) = d * 10 ^ (8 - k) * F64.unit by
      generalize F64.unit = u; ring)
  simp only [F64.mkRound] at hp
  split at hp
  · injection hp with h3 h4
    rw [e] at h4
    refine ⟨h3, ?_⟩
    have h5 := hundredMillionths_inj _ n hn h4
    rw [← h5, Nat.mul_assoc, ← Nat.pow_add, Nat.sub_add_cancel hk]
  · cases hp

/-- Specification: the text `t` is a decimal numeral with this sign, worth `n` hundred-millionths. -/
def ShowsHundredMillionths (t : Str) (neg : Bool) (n : Nat) : Prop :=
  ∃ d k, IsNumeral t neg d k ∧ d * 10 ^ 8 = n * 10 ^ k

theorem tryCand_shows (s : Bool) (n : Nat) (hn : n < 2 ^ 51) (hr : rep (hundredMillionths n) = true) (d : Nat) (k : Int)
    (hk : k ≤ 8) (t : Str) (h : F64.tryCand (.fin s (hundredMillionths n) hr) s d k = some t) :
    ShowsHundredMillionths t s n := by
  unfold F64.tryCand at h
  simp only at h
  have hd := (dropZero_spec d k hk).1
  generalize F64.dropZero d k = dk at *
  generalize hu : F64.renderSigned s (if dk.2 < 0 then dk.1 * 10 ^ dk.2.natAbs else dk.1) dk.2.toNat = u at h
  by_cases hp : F64.parse u = some (.fin s (hundredMillionths n) hr)
  · rw [if_pos hp, Option.some.injEq] at h
    subst h
    have hnum := renderSigned_numeral s (if dk.2 < 0 then dk.1 * 10 ^ dk.2.natAbs else dk.1) dk.2.toNat
    rw [hu] at hnum
    exact ⟨_, _, hnum, (reads_as_only u s s _ _ n hn hr hnum (by omega) hp).2⟩
  · rw [if_neg hp] at h
    cases h

theorem cand_round (a u n k : Nat) (h : a * 10 ^ 8 = n * 10 ^ k) :
    roundQ (a * u) (10 ^ k) = roundQ (n * u) 100000000 := by
  rw [← roundQ_scale _ (10 ^ k) (10 ^ 8) (by positivity), ← roundQ_scale _ 100000000 (10 ^ k) (by positivity),
    Nat.mul_right_comm, h, Nat.mul_right_comm, Nat.mul_comm (10 ^ k)]
  norm_num

theorem tryCand_finds (s : Bool) (n : Nat) (hr : rep (hundredMillionths n) = true) :
    ∃ t, F64.tryCand (.fin s (hundredMillionths n) hr) s n 8 = some t := by
  obtain ⟨h1, h2⟩ := dropZero_spec n 8 (by omega)
  obtain ⟨h2, h3⟩ := h2 (by omega)
  unfold F64.tryCand
  simp only
  generalize F64.dropZero n 8 = dk at *
  rw [if_neg (by omega : ¬ dk.2 < 0)]
  refine ⟨_, if_pos ?_⟩
  rw [F64.parse, (parseNumeral_iff _ _ _ _).2 (renderSigned_numeral s dk.1 dk.2.toNat), Option.map_some]
  have e : roundQ (dk.1 * F64.unit) (10 ^ dk.2.toNat) = hundredMillionths n := cand_round _ _ _ _ h3
  simp only [F64.mkRound, e, hr, dif_pos]

theorem searchDigits_shows (s : Bool) (n : Nat) (hn : n < 2 ^ 51) (hr : rep (hundredMillionths n) = true) (f p : Nat)
    (hp : (p : Int) ≤ F64.decExp (hundredMillionths n) + 8) (hf : F64.decExp (hundredMillionths n) + 8 < p + f) :
    ∃ t, F64.searchDigits (.fin s (hundredMillionths n) hr) s (hundredMillionths n) f p = some t ∧
      ShowsHundredMillionths t s n := by
  induction f generalizing p with
  | zero => omega
  | succ f ih =>
    unfold F64.searchDigits
    cases ht : F64.tryDigits (.fin s (hundredMillionths n) hr) s (hundredMillionths n) p with
    | some t =>
      refine ⟨t, rfl, ?_⟩
      unfold F64.tryDigits at ht
      simp only at ht
      have hk : (p : Int) - F64.decExp (hundredMillionths n) ≤ 8 := by omega
      split at ht
      · rcases Option.or_eq_some_iff.1 ht with h | ⟨_, h⟩ <;> exact tryCand_shows s n hn hr _ _ hk t h
      · rcases Option.or_eq_some_iff.1 ht with h | ⟨_, h⟩ <;> exact tryCand_shows s n hn hr _ _ hk t h
    | none =>
      by_cases hlast : (p : Int) = F64.decExp (hundredMillionths n) + 8
      · exfalso
        unfold F64.tryDigits at ht
        simp only at ht
        have hk : (p : Int) - F64.decExp (hundredMillionths n) = 8 := by omega
        rw [hk] at ht
        have e1 : (10 : Nat) ^ (8 : Int).toNat = 100000000 := by decide
        have e2 : ∀ u : Nat, u * 10 ^ (-8 : Int).toNat = u := fun u => Nat.mul_one u
        obtain ⟨h3, h4⟩ := hundredMillionths_bounds n hn
        have hd := floor_near _ F64.unit n unit_pos h3 h4
        simp only [e1, e2] at ht
        generalize hundredMillionths n * 100000000 / F64.unit = d at *
        have hnone : F64.tryCand (.fin s (hundredMillionths n) hr) s d 8 = none ∧
            F64.tryCand (.fin s (hundredMillionths n) hr) s (d + 1) 8 = none := by
          split at ht
          · exact Option.or_eq_none_iff.1 ht
          · exact (Option.or_eq_none_iff.1 ht).symm
        obtain ⟨t, h5⟩ := tryCand_finds s n hr
        rcases hd with hd | hd
        · rw [hd] at hnone
          rw [h5] at hnone; cases hnone.1
        · rw [hd] at hnone
          rw [h5] at hnone; cases hnone.2
      · obtain ⟨t, h1, h2⟩ := ih (p + 1) (by omega) (by omega)
        exact ⟨t, by rw [Option.none_or]; exact h1, h2⟩

/-- The double nearest to `n` hundred-millionths is printed as `n` hundred-millionths. -/
theorem fmt_shows (s : Bool) (n : Nat) (hn : n < 2 ^ 51) :
    ShowsHundredMillionths (F64.fmt (F64.mkRound s (n * F64.unit) 100000000)) s n := by
  obtain ⟨hr, e⟩ := typed_fin s n hn
  rw [e]
  by_cases h0 : n = 0
  · subst h0
    unfold F64.fmt
    simp only [hundredMillionths_zero, if_true]
    cases s
    · exact ⟨0, 0, (parseNumeral_iff _ _ _ _).1 (by decide), by simp⟩
    · exact ⟨0, 0, (parseNumeral_iff _ _ _ _).1 (by decide), by simp⟩
  by_cases h1 : n = 1
  · subst h1
    have h : F64.fmt (.fin s (hundredMillionths 1) hr) = (if s then ['-'] else []) ++ s%"0.00000001" := by
      revert hr
      cases s <;> decide +kernel
    rw [h]
    refine ⟨1, 8, ?_, by simp⟩
    cases s
    · exact (parseNumeral_iff _ _ _ _).1 (by decide +kernel)
    · exact (parseNumeral_iff _ _ _ _).1 (by decide +kernel)
  · have hpos : hundredMillionths n ≠ 0 := by
      intro hz
      exact h0 (hundredMillionths_inj n 0 (by decide) (by rw [hz, hundredMillionths_zero]))
    obtain ⟨d1, d2⟩ := decExp_bounds n (by omega) hn
    obtain ⟨t, h2, h3⟩ := searchDigits_shows s n hn hr 17 1 (by omega) (by omega)
    unfold F64.fmt
    simp only [hpos, if_false, h2]
    exact h3

end Silverfox
