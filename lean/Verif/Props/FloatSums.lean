import Verif.Props.Floats
import Verif.Props.Ledger

/-
C90: balances added up in doubles are near the exact sums.
-/

namespace Silverfox

/-! ### One addition -/

theorem F64.value_fin (s : Bool) (n : Nat) (h : rep n = true) :
    (F64.fin s n h).value = ((F64.sgn s n : Int) : Rat) / F64.unit := by
  cases s <;> simp [F64.value, F64.sgn]

theorem F64.value_neg (x : F64) : (F64.neg x).value = -x.value := by
  cases x with
  | nan => simp [F64.neg, F64.value]
  | inf s => simp [F64.neg, F64.value]
  | fin s n h => cases s <;> simp [F64.neg, F64.value, neg_div]

theorem F64.finite_neg (x : F64) : (F64.neg x).finite = x.finite := by cases x <;> rfl

theorem units_1023 : ∃ T : Nat, 2 ^ 1023 * F64.unit = T ∧ 2 * T = 2 ^ 2098 ∧ F64.unit ≤ T := by
  refine ⟨_, rfl, ?_, ?_⟩
  · unfold F64.unit
    rw [← Nat.pow_add, ← Nat.pow_succ']
  · exact Nat.le_mul_of_pos_left _ (by positivity)

/-- Adding two doubles whose sum is at most 2^1023: no overflow, and a relative error of at most 2^-53. -/
theorem add_err (x y : F64) (hx : x.finite = true) (hy : y.finite = true) (h : |x.value + y.value| ≤ 2 ^ 1023) :
    (F64.add x y).finite = true ∧ |(F64.add x y).value - (x.value + y.value)| ≤ |x.value + y.value| / 2 ^ 53 := by
  cases x with
  | nan => cases hx
  | inf s => cases hx
  | fin s n hn =>
    cases y with
    | nan => cases hy
    | inf s => cases hy
    | fin t m hm =>
      have hu : (0 : Rat) < F64.unit := by exact_mod_cast unit_pos
      rw [F64.value_fin, F64.value_fin, ← add_div, ← Int.cast_add] at h ⊢
      simp only [F64.add]
      generalize F64.sgn s n + F64.sgn t m = v at *
      split
      · rename_i hv
        subst hv
        refine ⟨rfl, ?_⟩
        cases s <;> cases t <;> simp [F64.zeroS, F64.value]
      · have habs : |((v : Int) : Rat) / F64.unit| = (v.natAbs : Rat) / F64.unit := by
          rw [abs_div, abs_of_pos hu, Nat.cast_natAbs, Int.cast_abs]
        rw [habs] at h ⊢
        have hT : roundQ v.natAbs 1 < 2 ^ 2098 := by
          obtain ⟨T, e1, e2, e3⟩ := units_1023
          have h1 := roundQ_one_rel v.natAbs
          rw [div_le_iff₀ hu] at h
          have h' : (v.natAbs : Rat) ≤ T := by rw [← e1]; exact_mod_cast h
          have hT0 : (0 : Rat) < T := by exact_mod_cast lt_of_lt_of_le unit_pos e3
          rw [← e2]
          have : (roundQ v.natAbs 1 : Rat) < 2 * T := by
            rw [abs_le] at h1
            linarith [h1.2]
          exact_mod_cast this
        rw [mkRound_fin _ _ 1 (by omega) hT]
        refine ⟨rfl, ?_⟩
        have h1 := roundQ_one_rel v.natAbs
        have hv : ((v : Int) : Rat) = (if v < 0 then -1 else 1) * (v.natAbs : Rat) := by
          by_cases hv : v < 0
          · rw [if_pos hv, Nat.cast_natAbs, abs_of_neg hv]; push_cast; ring
          · rw [if_neg hv, Nat.cast_natAbs, abs_of_nonneg (by omega)]; ring
        have hr : (F64.fin (decide (v < 0)) (roundQ v.natAbs 1) (rep_roundQ _ 1 (by omega) hT)).value =
            (if v < 0 then -1 else 1) * (roundQ v.natAbs 1 : Rat) / F64.unit := by
          by_cases hv : v < 0 <;> simp [F64.value, hv]
        have hs : |(if v < 0 then (-1 : Rat) else 1)| = 1 := by split <;> simp
        rw [hr, hv, ← sub_div, ← mul_sub, abs_div, abs_mul, hs, one_mul, abs_of_pos hu, div_div,
          mul_comm (F64.unit : Rat), ← div_div]
        exact div_le_div_of_nonneg_right h1 hu.le

/-! ### Many additions -/

/-- Specification: the sum of the absolute values. -/
def absSum (xs : List F64) : Rat := (xs.map fun x => |x.value|).sum

/-- Specification: the exact sum. -/
def exactSum (xs : List F64) : Rat := (xs.map F64.value).sum

theorem absSum_nonneg (xs : List F64) : 0 ≤ absSum xs := by
  induction xs with
  | nil => simp [absSum]
  | cons x xs ih => simp only [absSum, List.map_cons, List.sum_cons] at *; have := abs_nonneg x.value; linarith

theorem fold_err (xs : List F64) (hx : ∀ x ∈ xs, x.finite = true) (y : F64) (S A : Rat) (j : Nat)
    (hy : y.finite = true) (hS : |S| ≤ A) (he : |y.value - S| ≤ ((1 + 1 / 2 ^ 53) ^ j - 1) * A)
    (hb : (1 + 1 / 2 ^ 53) ^ (j + xs.length) * (A + absSum xs) ≤ 2 ^ 1023) :
    (xs.foldl F64.add y).finite = true ∧
      |(xs.foldl F64.add y).value - (S + exactSum xs)| ≤ ((1 + 1 / 2 ^ 53) ^ (j + xs.length) - 1) * (A + absSum xs) := by
  induction xs generalizing y S A j with
  | nil => exact ⟨hy, by simpa only [absSum, exactSum, List.map_nil, List.sum_nil, add_zero, List.length_nil, List.foldl_nil] using he⟩
  | cons x xs ih =>
    have hA : 0 ≤ A := le_trans (abs_nonneg S) hS
    have hxs := absSum_nonneg xs
    have eA : absSum (x :: xs) = |x.value| + absSum xs := by simp [absSum]
    have eS : exactSum (x :: xs) = x.value + exactSum xs := by simp [exactSum]
    rw [List.length_cons] at hb ⊢
    rw [eA] at hb
    have hq1 : (1 : Rat) ≤ 1 + 1 / 2 ^ 53 := by norm_num
    have hqs : ∀ t : Rat, t * (1 + 1 / 2 ^ 53) = t + t / 2 ^ 53 := by intro t; ring
    generalize (1 + 1 / 2 ^ 53 : Rat) = q at *
    have hpow : ∀ i : Nat, 1 ≤ q ^ i := fun i => one_le_pow₀ hq1
    have hj := hpow j
    have hax := abs_nonneg x.value
    have hyx : |y.value + x.value| ≤ q ^ j * A + |x.value| := by
      calc |y.value + x.value| = |(y.value - S) + S + x.value| := by ring_nf
        _ ≤ |y.value - S| + |S| + |x.value| := by
          refine le_trans (abs_add_le _ _) ?_
          have := abs_add_le (y.value - S) S
          linarith
        _ ≤ _ := by linarith
    have hle : q ^ j * A + |x.value| ≤ 2 ^ 1023 := by
      refine le_trans ?_ hb
      have h1 : q ^ j ≤ q ^ (j + (xs.length + 1)) := pow_le_pow_right₀ hq1 (by omega)
      have h2 := hpow (j + (xs.length + 1))
      have e : q ^ (j + (xs.length + 1)) * (A + (|x.value| + absSum xs)) =
        q ^ (j + (xs.length + 1)) * A + q ^ (j + (xs.length + 1)) * |x.value| + q ^ (j + (xs.length + 1)) * absSum xs := by ring
      rw [e]
      have := mul_le_mul_of_nonneg_right h1 hA
      have := mul_le_mul_of_nonneg_right h2 hax
      have : 0 ≤ q ^ (j + (xs.length + 1)) * absSum xs := mul_nonneg (by linarith) hxs
      linarith
    obtain ⟨h1, h2⟩ := add_err y x hy (hx x (by simp)) (le_trans hyx hle)
    rw [List.foldl_cons, eA, eS]
    have e1 : j + (xs.length + 1) = j + 1 + xs.length := by omega
    rw [e1, ← add_assoc S, ← add_assoc A]
    refine ih (fun z hz => hx z (by simp [hz])) (F64.add y x) (S + x.value) (A + |x.value|) (j + 1) h1 ?_ ?_ ?_
    · exact le_trans (abs_add_le _ _) (by linarith)
    · have h3 : |(F64.add y x).value - (S + x.value)| ≤ |y.value + x.value| / 2 ^ 53 + |y.value - S| := by
        calc |(F64.add y x).value - (S + x.value)|
            = |((F64.add y x).value - (y.value + x.value)) + (y.value - S)| := by ring_nf
          _ ≤ _ := le_trans (abs_add_le _ _) (by linarith)
      refine le_trans h3 ?_
      have hqe : q ^ (j + 1) = q ^ j + q ^ j / 2 ^ 53 := by rw [pow_succ, hqs]
      rw [hqe]
      have e : (q ^ j + q ^ j / 2 ^ 53 - 1) * (A + |x.value|) =
        (q ^ j - 1) * A + q ^ j * A / 2 ^ 53 + (q ^ j - 1) * |x.value| + q ^ j * |x.value| / 2 ^ 53 := by ring
      rw [e]
      have k1 : |y.value + x.value| / 2 ^ 53 ≤ q ^ j * A / 2 ^ 53 + |x.value| / 2 ^ 53 := by
        rw [← add_div]; exact div_le_div_of_nonneg_right hyx (by positivity)
      have k2 : |x.value| / 2 ^ 53 ≤ q ^ j * |x.value| / 2 ^ 53 := by
        apply div_le_div_of_nonneg_right _ (by positivity)
        have := mul_le_mul_of_nonneg_right hj hax
        linarith
      have k3 : 0 ≤ (q ^ j - 1) * |x.value| := mul_nonneg (by linarith) hax
      linarith
    · rw [← e1, add_assoc A]; exact hb

/-- Few additions multiply the error by little. -/
theorem pow_bound (k : Nat) (h : k ≤ 2 ^ 52) : (1 + 1 / 2 ^ 53 : Rat) ^ k ≤ 1 + k / 2 ^ 52 := by
  induction k with
  | zero => simp
  | succ k ih =>
    have ih := ih (by omega)
    have hk : (k : Rat) ≤ 2 ^ 52 := by exact_mod_cast (show k ≤ 2 ^ 52 by omega)
    rw [pow_succ]
    calc (1 + 1 / 2 ^ 53 : Rat) ^ k * (1 + 1 / 2 ^ 53) ≤ (1 + k / 2 ^ 52) * (1 + 1 / 2 ^ 53) :=
          mul_le_mul_of_nonneg_right ih (by norm_num)
      _ = 1 + k / 2 ^ 52 + 1 / 2 ^ 53 + k / 2 ^ 52 / 2 ^ 53 := by ring
      _ ≤ 1 + ((k + 1 : Nat) : Rat) / 2 ^ 52 := by push_cast; linarith

/-- Adding up at most 2^52 doubles, of at most 2^1000 in all. -/
theorem sum_err (x : F64) (xs : List F64) (hx : ∀ y ∈ x :: xs, y.finite = true) (hk : (x :: xs).length ≤ 2 ^ 52)
    (hb : absSum (x :: xs) ≤ 2 ^ 1000) :
    (xs.foldl F64.add x).finite = true ∧
      |(xs.foldl F64.add x).value - exactSum (x :: xs)| ≤ (x :: xs).length * absSum (x :: xs) / 2 ^ 52 := by
  have hA := absSum_nonneg (x :: xs)
  have eA : absSum (x :: xs) = |x.value| + absSum xs := by simp [absSum]
  have eS : exactSum (x :: xs) = x.value + exactSum xs := by simp [exactSum]
  have hp := pow_bound xs.length (by rw [List.length_cons] at hk; omega)
  have hl : (xs.length : Rat) ≤ 2 ^ 52 := by
    rw [List.length_cons] at hk
    exact_mod_cast (show xs.length ≤ 2 ^ 52 by omega)
  obtain ⟨h1, h2⟩ := fold_err xs (fun y hy => hx y (by simp [hy])) x x.value |x.value| 0 (hx x (by simp)) le_rfl
    (by simp) (by
      rw [zero_add, ← eA]
      calc (1 + 1 / 2 ^ 53 : Rat) ^ xs.length * absSum (x :: xs) ≤ 2 * absSum (x :: xs) :=
            mul_le_mul_of_nonneg_right (by linarith) hA
        _ ≤ 2 * 2 ^ 1000 := by linarith
        _ ≤ 2 ^ 1023 := by rw [← pow_succ']; exact pow_le_pow_right₀ (by norm_num) (by norm_num))
  refine ⟨h1, ?_⟩
  rw [eS]
  refine le_trans h2 ?_
  rw [zero_add, ← eA, mul_div_right_comm]
  apply mul_le_mul_of_nonneg_right _ hA
  rw [List.length_cons]
  push_cast
  linarith

/-! ### C90 -/

/-- Specification: what an operation adds to currency `s`, in order. -/
def PoolOp.parts (s : Option Str) : PoolOp F64 → List F64
  | .plus a => if a.sym = s then [a.mag] else []
  | .minusAssign a => if a.sym = s then [F64.neg a.mag] else []
  | .minus a => if a.sym = s then [F64.neg a.mag] else []
  | .plusPool q => (q.filter fun a => a.sym = s).map Amount.mag

/-- One more double is added. -/
def pushF (t : Option F64) (x : F64) : Option F64 :=
  some (match t with | none => x | some m => F64.add m x)

theorem specAdd_push (s : Option Str) (t : Option F64) (a : Amount F64) :
    specAdd s t a = (if a.sym = s then [a.mag] else []).foldl pushF t := by
  unfold specAdd
  split <;> cases t <;> rfl

theorem spec_push (s : Option Str) (t : Option F64) (op : PoolOp F64) :
    PoolOp.spec s t op = (op.parts s).foldl pushF t := by
  cases op with
  | plus a => exact specAdd_push s t a
  | minusAssign a => simp only [PoolOp.spec, PoolOp.parts]; split <;> cases t <;> rfl
  | minus a => exact specAdd_push s t ⟨F64.neg a.mag, a.sym⟩
  | plusPool q =>
    simp only [PoolOp.spec, PoolOp.parts]
    induction q generalizing t with
    | nil => rfl
    | cons a q ih =>
      rw [List.foldl_cons, ih, specAdd_push]
      by_cases h : a.sym = s <;> simp [h]

theorem specTotal_push (s : Option Str) (ops : List (PoolOp F64)) (t : Option F64) :
    ops.foldl (PoolOp.spec s) t = (ops.flatMap (PoolOp.parts s)).foldl pushF t := by
  induction ops generalizing t with
  | nil => rfl
  | cons op ops ih => rw [List.foldl_cons, ih, spec_push, List.flatMap_cons, List.foldl_append]

theorem pushF_some (xs : List F64) (x : F64) : xs.foldl pushF (some x) = some (xs.foldl F64.add x) := by
  induction xs generalizing x with
  | nil => rfl
  | cons y ys ih => exact ih _

/-- What a pool reports is the sum of the parts, added one after the other. -/
theorem only_parts (ops : List (PoolOp F64)) (s : Option Str) :
    ((PoolOp.runAll ops).only s).mag = match ops.flatMap (PoolOp.parts s) with
      | [] => F64.zero
      | x :: xs => xs.foldl F64.add x := by
  rw [C01_pool_reports_running_sum]
  unfold specTotal
  rw [specTotal_push]
  cases ops.flatMap (PoolOp.parts s) with
  | nil => rfl
  | cons x xs =>
    rw [List.foldl_cons, show pushF none x = some x from rfl, pushF_some]

/-- C90. However amounts are put into a pool and taken out, what it reports is a finite double that differs from
the exact sum by at most the number of amounts times 2^-52 times the sum of their absolute values. -/
theorem C90_pool_error (ops : List (PoolOp F64)) (s : Option Str)
    (hf : ∀ x ∈ ops.flatMap (PoolOp.parts s), x.finite = true)
    (hk : (ops.flatMap (PoolOp.parts s)).length ≤ 2 ^ 52) (hb : absSum (ops.flatMap (PoolOp.parts s)) ≤ 2 ^ 1000) :
    ((PoolOp.runAll ops).only s).mag.finite = true ∧
    |((PoolOp.runAll ops).only s).mag.value - exactSum (ops.flatMap (PoolOp.parts s))| ≤
      (ops.flatMap (PoolOp.parts s)).length * absSum (ops.flatMap (PoolOp.parts s)) / 2 ^ 52 := by
  rw [only_parts]
  generalize ops.flatMap (PoolOp.parts s) = ps at *
  cases ps with
  | nil => exact ⟨rfl, by simp [exactSum, absSum, F64.zero, F64.zeroS, F64.value]⟩
  | cons x xs => exact sum_err x xs hf hk hb

/-- The amounts of currency `s`. -/
def partsOf (s : Option Str) (ms : List (Amount F64)) : List F64 := (ms.filter fun a => a.sym = s).map Amount.mag

theorem plus_parts (s : Option Str) (ms : List (Amount F64)) :
    (ms.map PoolOp.plus).flatMap (PoolOp.parts s) = partsOf s ms := by
  induction ms with
  | nil => rfl
  | cons a ms ih =>
    rw [List.map_cons, List.flatMap_cons, ih]
    unfold PoolOp.parts partsOf
    by_cases h : a.sym = s <;> simp [h]

theorem plus_runAll (ms : List (Amount F64)) : ms.foldl Pool.add [] = PoolOp.runAll (ms.map PoolOp.plus) := by
  unfold PoolOp.runAll
  rw [List.foldl_map]
  rfl

/-- C90 for the balance report, where that counts what it should (see C51): the balance of an account in a
currency is within that bound of the exact sum of its postings. -/
theorem C90_reported_balance (l : Ledger F64) (tot : List (Str × Pool F64)) (h : l.totals = .ok tot) (k : Str)
    (hne : NoEnvelopeOf k l.entries) (hfa : FirstHasAmount k l.entries) (pool : Pool F64) (hp : mapGet tot k = some pool)
    (s : Option Str) (ps : List F64) (hps : ps = partsOf s (l.entries.flatMap fun x => x.movesOf k))
    (hf : ∀ x ∈ ps, x.finite = true) (hk : ps.length ≤ 2 ^ 52) (hb : absSum ps ≤ 2 ^ 1000) :
    (pool.only s).mag.finite = true ∧ |(pool.only s).mag.value - exactSum ps| ≤ ps.length * absSum ps / 2 ^ 52 := by
  rw [C51_sum_of_postings_partial l tot h k hne hfa] at hp
  split at hp
  · cases hp
    subst hps
    have := C90_pool_error ((l.entries.flatMap fun x => x.movesOf k).map PoolOp.plus) s
    rw [plus_parts, ← plus_runAll] at this
    exact this hf hk hb
  · cases hp

/-! ### Whole numbers -/

/-- Numbers of at most 53 bits are doubles. -/
theorem rep_bits53 (i : Nat) (h : i ≤ 2 ^ 53) : rep (i * F64.unit) = true := by
  have h2 : i * F64.unit < 2 ^ 2098 := lt_of_le_of_lt (Nat.mul_le_mul_right _ h) units_53
  unfold F64.unit at h2 ⊢
  exact rep_of_form _ _ h h2

theorem add_whole (x y : F64) (hx : x.finite = true) (hy : y.finite = true) (i : Int) (hi : x.value + y.value = i)
    (hb : i.natAbs ≤ 2 ^ 53) : (F64.add x y).finite = true ∧ (F64.add x y).value = i := by
  cases x with
  | nan => cases hx
  | inf s => cases hx
  | fin s n hn =>
    cases y with
    | nan => cases hy
    | inf s => cases hy
    | fin t m hm =>
      have hu : (0 : Rat) < F64.unit := by exact_mod_cast unit_pos
      rw [F64.value_fin, F64.value_fin, ← add_div, ← Int.cast_add] at hi
      simp only [F64.add]
      generalize F64.sgn s n + F64.sgn t m = v at *
      have hv : v = i * F64.unit := by
        rw [div_eq_iff hu.ne'] at hi
        exact_mod_cast hi
      split
      · rename_i h0
        have hi0 : i = 0 := by
          rw [h0] at hi
          simp only [Int.cast_zero, zero_div] at hi
          exact_mod_cast hi.symm
        subst hi0
        refine ⟨rfl, ?_⟩
        cases s <;> cases t <;> simp [F64.zeroS, F64.value]
      · have hr : rep v.natAbs = true := by
          rw [hv, Int.natAbs_mul, Int.natAbs_natCast]
          exact rep_bits53 _ hb
        have e := mkRound_exact (decide (v < 0)) v.natAbs 1 Nat.one_pos hr
        rw [Nat.mul_one] at e
        rw [e]
        refine ⟨rfl, ?_⟩
        have hs : F64.sgn (decide (v < 0)) v.natAbs = v := by
          unfold F64.sgn
          by_cases h0 : v < 0
          · rw [decide_eq_true h0, if_pos rfl]
            omega
          · rw [decide_eq_false h0, if_neg (by decide)]
            omega
        rw [← hi, F64.value_fin, hs]

/-- The double is a whole number. -/
def F64.whole (x : F64) : Prop := x.finite = true ∧ ∃ i : Int, x.value = i

theorem fold_whole (xs : List F64) (x : F64) (hx : x.whole) (hxs : ∀ y ∈ xs, y.whole)
    (hb : |x.value| + absSum xs ≤ 2 ^ 53) :
    (xs.foldl F64.add x).finite = true ∧ (xs.foldl F64.add x).value = x.value + exactSum xs := by
  induction xs generalizing x with
  | nil => exact ⟨hx.1, by simp [exactSum]⟩
  | cons y ys ih =>
    have hy := hxs y (by simp)
    obtain ⟨i, hi⟩ := hx.2
    obtain ⟨j, hj⟩ := hy.2
    have hsum : x.value + y.value = ((i + j : Int) : Rat) := by rw [hi, hj]; push_cast; rfl
    have hab := abs_add_le x.value y.value
    have hn := absSum_nonneg ys
    simp only [absSum, exactSum, List.map_cons, List.sum_cons] at hb hn ⊢
    have h53 : |((i + j : Int) : Rat)| ≤ 2 ^ 53 := by rw [← hsum]; linarith
    have h53' : (i + j).natAbs ≤ 2 ^ 53 := by
      have : |(i + j : Int)| ≤ 2 ^ 53 := by exact_mod_cast h53
      rw [Int.abs_eq_natAbs] at this
      omega
    obtain ⟨f, v⟩ := add_whole x y hx.1 hy.1 (i + j) hsum h53'
    obtain ⟨f', v'⟩ := ih (F64.add x y) ⟨f, i + j, v⟩ (fun z hz => hxs z (by simp [hz]))
      (by rw [v, ← hsum]; simp only [absSum]; linarith)
    refine ⟨f', ?_⟩
    rw [List.foldl_cons, v', v, ← hsum]
    simp only [exactSum]
    ring

/-- C90. Whole numbers whose absolute values sum to at most 2^53 are added exactly. -/
theorem C90_whole_numbers_are_exact (ops : List (PoolOp F64)) (s : Option Str)
    (hw : ∀ x ∈ ops.flatMap (PoolOp.parts s), x.whole)
    (hb : absSum (ops.flatMap (PoolOp.parts s)) ≤ 2 ^ 53) :
    ((PoolOp.runAll ops).only s).mag.finite = true ∧
    ((PoolOp.runAll ops).only s).mag.value = exactSum (ops.flatMap (PoolOp.parts s)) := by
  rw [only_parts]
  generalize ops.flatMap (PoolOp.parts s) = ps at *
  cases ps with
  | nil => exact ⟨rfl, by simp [exactSum, F64.zero, F64.zeroS, F64.value]⟩
  | cons x xs =>
    have := fold_whole xs x (hw x (by simp)) (fun y hy => hw y (by simp [hy]))
      (by simpa only [absSum, List.map_cons, List.sum_cons] using hb)
    simpa only [exactSum, List.map_cons, List.sum_cons] using this

/-! ### Amounts typed with at most eight decimals -/

/-- Specification: `x` is the double nearest to `D` hundred-millionths. -/
def TypedAs (x : F64) (D : Int) : Prop :=
  ∃ neg n, x = F64.mkRound neg (n * F64.unit) 100000000 ∧ D = F64.sgn neg n

/-- Texts of amounts with at most eight decimals are read as such doubles. -/
theorem typedAs_numeral (t : Str) (neg : Bool) (d k : Nat) (ht : IsNumeral t neg d k) (hk : k ≤ 8) :
    ∃ x, F64.parse t = some x ∧ TypedAs x (F64.sgn neg (d * 10 ^ (8 - k))) := by
  refine ⟨_, ?_, neg, d * 10 ^ (8 - k), rfl, rfl⟩
  rw [F64.parse, (parseNumeral_iff _ _ _ _).2 ht, Option.map_some]
  have e : roundQ (d * F64.unit) (10 ^ k) = roundQ (d * 10 ^ (8 - k) * F64.unit) 100000000 := by
    rw [← roundQ_scale _ (10 ^ k) (10 ^ (8 - k)) (by positivity), ← Nat.pow_add, Nat.add_sub_cancel' hk]
    exact congrArg (fun x => roundQ x (10 ^ 8)) (show d * F64.unit * 10 ^ (8 - k) = d * 10 ^ (8 - k) * F64.unit by
      generalize F64.unit = u; ring)
  simp only [F64.mkRound, e]

theorem near_eq (p n : Nat) (key : |(p : Rat) - n * F64.unit| < F64.unit / 2) : near p = n := by
  unfold near
  rw [abs_lt] at key
  have k1 : 2 * (n * F64.unit) < 2 * p + F64.unit := by
    have : 2 * ((n : Rat) * F64.unit) < 2 * p + F64.unit := by linarith [key.1]
    exact_mod_cast this
  have k2 : 2 * p < 2 * (n * F64.unit) + F64.unit := by
    have : 2 * (p : Rat) < 2 * (n * F64.unit) + F64.unit := by linarith [key.2]
    exact_mod_cast this
  have hu := unit_pos
  apply Nat.div_eq_of_lt_le
  · have : n * (2 * F64.unit) = 2 * (n * F64.unit) := by ring
    omega
  · have : (n + 1) * (2 * F64.unit) = 2 * (n * F64.unit) + 2 * F64.unit := by ring
    omega

theorem hundredMillionths_zero : hundredMillionths 0 = 0 := by
  unfold hundredMillionths
  rw [Nat.zero_mul]
  have := roundQ_exact 0 100000000 (by omega) (by decide +kernel)
  rw [Nat.zero_mul] at this
  exact this

/-- A typed amount is within a relative error of 2^-53. -/
theorem hundredMillionths_near (n : Nat) :
    |(hundredMillionths n : Rat) / F64.unit * 100000000 - n| ≤ n / 2 ^ 53 := by
  by_cases h0 : n = 0
  · subst h0
    rw [hundredMillionths_zero, Nat.cast_zero, zero_div, zero_div, zero_mul, sub_self, abs_zero]
  have h := hundredMillionths_err n
  generalize hundredMillionths n = q at *
  obtain ⟨u, eu, hu⟩ := unit_rat
  have hu0 : (0 : Rat) < u := lt_of_lt_of_le (by positivity) hu
  rw [eu] at h ⊢
  have hn : (1 : Rat) ≤ n := by exact_mod_cast Nat.one_le_iff_ne_zero.2 h0
  have h' : |(q : Rat) * 100000000 - n * u| ≤ n * u / 2 ^ 53 := by
    refine le_trans h (max_le le_rfl ?_)
    have : (1 : Rat) * u ≤ n * u := mul_le_mul_of_nonneg_right hn hu0.le
    linarith
  have e : (q : Rat) / u * 100000000 - n = (q * 100000000 - n * u) / u := by field_simp
  rw [e, abs_div, abs_of_pos hu0, div_le_iff₀ hu0]
  calc _ ≤ _ := h'
    _ = _ := by ring

theorem typed_fin (neg : Bool) (n : Nat) (h : n < 2 ^ 51) :
    ∃ hr, F64.mkRound neg (n * F64.unit) 100000000 = .fin neg (hundredMillionths n) hr :=
  ⟨_, mkRound_fin neg _ _ (by omega) (hundredMillionths_small n h).1⟩

theorem F64.value_signed (s : Bool) (n : Nat) (h : rep n = true) :
    (F64.fin s n h).value = (if s then -1 else 1) * ((n : Rat) / F64.unit) := by
  cases s <;> simp only [F64.value, Bool.false_eq_true, if_false, if_true] <;> ring

theorem typed_err (x : F64) (D : Int) (hx : TypedAs x D) (hD : D.natAbs < 2 ^ 51) :
    x.finite = true ∧ |x.value * 100000000 - D| ≤ |(D : Rat)| / 2 ^ 53 := by
  obtain ⟨neg, n, rfl, rfl⟩ := hx
  have hn : (F64.sgn neg n).natAbs = n := by cases neg <;> simp [F64.sgn]
  rw [hn] at hD
  obtain ⟨hr, e⟩ := typed_fin neg n hD
  rw [e]
  refine ⟨rfl, ?_⟩
  have h := hundredMillionths_near n
  have hs : |(if neg then (-1 : Rat) else 1)| = 1 := by cases neg <;> simp
  have e2 : ((F64.sgn neg n : Int) : Rat) = (if neg then -1 else 1) * (n : Rat) := by cases neg <;> simp [F64.sgn]
  rw [F64.value_signed, e2, mul_assoc, ← mul_sub, abs_mul, abs_mul, hs, one_mul, one_mul,
    abs_of_nonneg (Nat.cast_nonneg n : (0 : Rat) ≤ n)]
  exact h

/-- The sum of the absolute values of integers. -/
def absTotal (ds : List Int) : Nat := (ds.map Int.natAbs).sum

theorem typed_sums (xs : List F64) (ds : List Int) (h : List.Forall₂ TypedAs xs ds) (hb : absTotal ds < 2 ^ 51) :
    (∀ x ∈ xs, x.finite = true) ∧ |exactSum xs * 100000000 - ds.sum| ≤ absTotal ds / 2 ^ 53 ∧
      absSum xs * 100000000 ≤ absTotal ds * (1 + 1 / 2 ^ 53) := by
  induction h with
  | nil => exact ⟨(by intro x hx; cases hx), (by simp [exactSum, absTotal]), (by simp [absSum, absTotal])⟩
  | @cons x D xs ds hx _ ih =>
    have ea : absTotal (D :: ds) = D.natAbs + absTotal ds := by simp [absTotal]
    rw [ea] at hb
    obtain ⟨i1, i2, i3⟩ := ih (by omega)
    obtain ⟨h1, h2⟩ := typed_err x D hx (by omega)
    have eD : |(D : Rat)| = (D.natAbs : Rat) := by rw [Nat.cast_natAbs, Int.cast_abs]
    rw [eD] at h2
    refine ⟨?_, ?_, ?_⟩
    · intro y hy
      rcases List.mem_cons.1 hy with rfl | hy
      · exact h1
      · exact i1 y hy
    · rw [ea]
      simp only [exactSum, List.map_cons, List.sum_cons] at i2 ⊢
      push_cast
      generalize (xs.map F64.value).sum = S at *
      rw [abs_le] at *
      constructor <;> linarith [h2.1, h2.2, i2.1, i2.2]
    · rw [ea]
      simp only [absSum, List.map_cons, List.sum_cons] at i3 ⊢
      push_cast
      have : |x.value| * 100000000 ≤ D.natAbs * (1 + 1 / 2 ^ 53) := by
        have h3 : |x.value * 100000000| ≤ |x.value * 100000000 - D| + |(D : Rat)| := by
          have := abs_add_le (x.value * 100000000 - D) (D : Rat)
          rwa [sub_add_cancel] at this
        rw [abs_mul, abs_of_pos (show (0 : Rat) < 100000000 by norm_num), eD] at h3
        linarith
      linarith

/-- A double within less than a half of `D` hundred-millionths is shown as `D` hundred-millionths. -/
theorem round8_shown (m : F64) (hf : m.finite = true) (D : Int) (hD : D.natAbs < 2 ^ 51)
    (h : |m.value * 100000000 - D| < 1 / 2 - (D.natAbs + 1) / 2 ^ 53) :
    ∃ neg, round8 m = F64.mkRound neg (D.natAbs * F64.unit) 100000000 ∧ (D ≠ 0 → neg = decide (D < 0)) ∧
      (D ≠ 0 → (decide (m.value < 0) = decide (D < 0))) := by
  cases m with
  | nan => cases hf
  | inf s => cases hf
  | fin s a ha =>
    have eD : |(D : Rat)| = (D.natAbs : Rat) := by rw [Nat.cast_natAbs, Int.cast_abs]
    have hs : |(if s then (-1 : Rat) else 1)| = 1 := by cases s <;> simp
    have hd0 : (0 : Rat) ≤ D.natAbs := Nat.cast_nonneg _
    obtain ⟨u, eu, hu⟩ := unit_rat
    have hu0 : (0 : Rat) < u := lt_of_lt_of_le (by positivity) hu
    have hav : |(F64.fin s a ha).value * 100000000| = (a : Rat) / u * 100000000 := by
      rw [F64.value_signed, eu, abs_mul, abs_mul, hs, one_mul,
        abs_of_nonneg (div_nonneg (Nat.cast_nonneg a) hu0.le), abs_of_pos (show (0 : Rat) < 100000000 by norm_num)]
    have h2 : |(a : Rat) / u * 100000000 - D.natAbs| < 1 / 2 - (D.natAbs + 1) / 2 ^ 53 := by
      rw [← hav]
      refine lt_of_le_of_lt ?_ h
      rw [← eD]
      exact abs_abs_sub_abs_le _ _
    have hp := roundQ_one_rel (a * 100000000)
    push_cast at hp
    have key : |(roundQ (a * 100000000) 1 : Rat) - D.natAbs * u| < u / 2 := by
      generalize (roundQ (a * 100000000) 1 : Rat) = p at *
      obtain ⟨a', ea⟩ : ∃ a' : Rat, (a : Rat) / u * 100000000 = a' := ⟨_, rfl⟩
      have ea2 : (a : Rat) * 100000000 = a' * u := by rw [← ea]; field_simp
      rw [ea] at h2
      rw [ea2] at hp
      generalize (D.natAbs : Rat) = d at *
      have e : p - d * u = (p - a' * u) + (a' - d) * u := by ring
      rw [e]
      refine lt_of_le_of_lt (abs_add_le _ _) ?_
      rw [abs_mul (a' - d), abs_of_pos hu0]
      have h3 : |a' - d| * u < (1 / 2 - (d + 1) / 2 ^ 53) * u := mul_lt_mul_of_pos_right h2 hu0
      have h4 : a' ≤ d + 1 := by
        rw [abs_lt] at h2
        have : 0 ≤ (d + 1) / 2 ^ 53 := div_nonneg (by linarith) (by norm_num)
        linarith [h2.2]
      have h5 : a' * u / 2 ^ 53 ≤ (d + 1) / 2 ^ 53 * u := by
        have := mul_le_mul_of_nonneg_right h4 hu0.le
        have e6 : (d + 1) / 2 ^ 53 * u = (d + 1) * u / 2 ^ 53 := by ring
        rw [e6]
        exact div_le_div_of_nonneg_right this (by norm_num)
      linarith
    rw [← eu] at key
    have hnear := near_eq _ _ key
    have hsmall : roundQ (a * 100000000) 1 < 2 ^ 2098 := by
      have : (roundQ (a * 100000000) 1 : Rat) ≤ 2 ^ 53 * F64.unit := by
        rw [eu] at key ⊢
        rw [abs_lt] at key
        have hd : (D.natAbs : Rat) ≤ 2 ^ 51 := by exact_mod_cast hD.le
        have := mul_le_mul_of_nonneg_right hd hu0.le
        linarith [key.2]
      exact lt_of_le_of_lt (by exact_mod_cast this) units_53
    obtain ⟨hr, e⟩ := round8_fin s a ha hsmall (by rw [hnear]; exact (hundredMillionths_small _ hD).1)
    obtain ⟨hr', e'⟩ := typed_fin s D.natAbs hD
    have hneg : D ≠ 0 → (F64.fin s a ha).value * D > 0 := by
      intro h0
      have h1 : (1 : Rat) ≤ D.natAbs := by
        have : 1 ≤ D.natAbs := by omega
        exact_mod_cast this
      have h3 : 0 ≤ ((D.natAbs : Rat) + 1) / 2 ^ 53 := div_nonneg (by linarith) (by norm_num)
      rcases lt_or_gt_of_ne h0 with hlt | hgt
      · have hDr : (D : Rat) = -(D.natAbs : Rat) := by rw [← eD, abs_of_neg (by exact_mod_cast hlt)]; ring
        rw [abs_lt, hDr] at h
        rw [hDr]
        have : (F64.fin s a ha).value < 0 := by linarith [h.2]
        exact mul_pos_of_neg_of_neg this (by linarith)
      · have hDr : (D : Rat) = (D.natAbs : Rat) := by rw [← eD, abs_of_pos (by exact_mod_cast hgt)]
        rw [abs_lt, hDr] at h
        rw [hDr]
        have : (F64.fin s a ha).value > 0 := by linarith [h.1]
        exact mul_pos this (by linarith)
    refine ⟨s, ?_, ?_, ?_⟩
    · rw [e, e']
      simp only [hnear]
    · intro h0
      have h1 := hneg h0
      have h2 : 0 ≤ (a : Rat) / F64.unit := div_nonneg (Nat.cast_nonneg a) (by rw [eu]; exact hu0.le)
      rw [F64.value_signed] at h1
      by_cases hlt : D < 0
      · rw [decide_eq_true hlt]
        cases s with
        | true => rfl
        | false =>
          have : (D : Rat) < 0 := by exact_mod_cast hlt
          simp only [Bool.false_eq_true, if_false, one_mul] at h1
          have := mul_nonpos_of_nonneg_of_nonpos h2 this.le
          linarith
      · rw [decide_eq_false hlt]
        cases s with
        | false => rfl
        | true =>
          have : (0 : Rat) ≤ D := by exact_mod_cast not_lt.1 hlt
          simp only [if_true] at h1
          have := mul_nonneg h2 this
          linarith
    · intro h0
      have h1 := hneg h0
      by_cases hlt : D < 0
      · have hr : (D : Rat) < 0 := by exact_mod_cast hlt
        rw [decide_eq_true hlt, decide_eq_true]
        exact neg_of_mul_pos_left h1 hr.le
      · have hr : (0 : Rat) ≤ D := by exact_mod_cast not_lt.1 hlt
        rw [decide_eq_false hlt, decide_eq_false]
        exact not_lt.2 (pos_of_mul_pos_left h1 hr).le

theorem lt_zero_value (m : F64) (hf : m.finite = true) : F64.lt m F64.zero = decide (m.value < 0) := by
  cases m with
  | nan => cases hf
  | inf s => cases hf
  | fin s n h =>
    have hu : (0 : Rat) < F64.unit := by exact_mod_cast unit_pos
    rw [F64.value_fin]
    simp only [F64.lt, F64.zero, F64.zeroS]
    apply decide_eq_decide.2
    rw [div_lt_iff₀ hu, zero_mul, Int.cast_lt_zero, show F64.sgn false 0 = 0 from rfl]

/-- C90. Amounts typed with at most eight decimals are added to the last digit: as long as the number of amounts
plus three, times the sum of their absolute values, is at most 2^51 hundred-millionths, the balance shown is the text
of the exact sum. (A sum of zero is shown as ` 0`, or as `-0`, or as ` -0`: `C90_nothing_left`.) -/
theorem C90_shown_to_the_last_digit (ops : List (PoolOp F64)) (s : Option Str) (ds : List Int)
    (ht : List.Forall₂ TypedAs (ops.flatMap (PoolOp.parts s)) ds) (hb : (ds.length + 3) * absTotal ds ≤ 2 ^ 51)
    (h0 : ds.sum ≠ 0) (x : F64) (hx : TypedAs x ds.sum) :
    Amount.display ⟨((PoolOp.runAll ops).only s).mag, s⟩ = Amount.display ⟨x, s⟩ := by
  have hlen := ht.length_eq
  have hle : ds.sum.natAbs ≤ absTotal ds := by
    clear ht hb h0 hx hlen
    induction ds with
    | nil => simp [absTotal]
    | cons d ds ih =>
      simp only [absTotal, List.map_cons, List.sum_cons] at *
      exact le_trans (Int.natAbs_add_le _ _) (by omega)
  have hA : 3 * absTotal ds ≤ 2 ^ 51 := le_trans (Nat.mul_le_mul_right _ (by omega)) hb
  have hA1 : 1 ≤ absTotal ds := by omega
  have hl : ds.length ≤ 2 ^ 51 := by
    have : (ds.length + 3) * 1 ≤ (ds.length + 3) * absTotal ds := Nat.mul_le_mul_left _ hA1
    omega
  obtain ⟨h1, h2, h3⟩ := typed_sums _ ds ht (by omega)
  have hbr : (ds.length + 3 : Rat) * absTotal ds ≤ 2 ^ 51 := by exact_mod_cast hb
  have hA2 : 3 * (absTotal ds : Rat) ≤ 2 ^ 51 := by exact_mod_cast hA
  have hA3 : (1 : Rat) ≤ absTotal ds := by exact_mod_cast hA1
  have hD : (ds.sum.natAbs : Rat) ≤ absTotal ds := by exact_mod_cast hle
  have hpow : (2 : Rat) ^ 52 ≤ 2 ^ 1000 := pow_le_pow_right₀ (by norm_num) (by norm_num)
  obtain ⟨g1, g2⟩ := C90_pool_error ops s h1 (by omega) (le_trans (by linarith : _ ≤ (2 : Rat) ^ 52) hpow)
  rw [hlen] at g2
  generalize ((PoolOp.runAll ops).only s).mag = m at *
  have hn0 : (0 : Rat) ≤ ds.length := Nat.cast_nonneg _
  have hlr : (ds.length : Rat) ≤ 2 ^ 51 := by exact_mod_cast hl
  have hclose : |m.value * 100000000 - ds.sum| < 1 / 2 - (ds.sum.natAbs + 1) / 2 ^ 53 := by
    generalize absSum (ops.flatMap (PoolOp.parts s)) = B at *
    generalize exactSum (ops.flatMap (PoolOp.parts s)) = S at *
    generalize (absTotal ds : Rat) = A at *
    generalize (ds.length : Rat) = n at *
    generalize (ds.sum.natAbs : Rat) = d at *
    have e : m.value * 100000000 - (ds.sum : Rat) = (m.value - S) * 100000000 + (S * 100000000 - ds.sum) := by ring
    rw [e]
    refine lt_of_le_of_lt (abs_add_le _ _) ?_
    rw [abs_mul, abs_of_pos (show (0 : Rat) < 100000000 by norm_num)]
    have k1 : |m.value - S| * 100000000 ≤ n * (A * (1 + 1 / 2 ^ 53)) / 2 ^ 52 := by
      calc |m.value - S| * 100000000 ≤ n * B / 2 ^ 52 * 100000000 := mul_le_mul_of_nonneg_right g2 (by norm_num)
        _ = n * (B * 100000000) / 2 ^ 52 := by ring
        _ ≤ _ := div_le_div_of_nonneg_right (mul_le_mul_of_nonneg_left h3 hn0) (by norm_num)
    have k2 : n * A ≤ 2 ^ 51 - 3 * A := by linarith
    have k3 : n * (A * (1 + 1 / 2 ^ 53)) / 2 ^ 52 = n * A / 2 ^ 52 + n * A / 2 ^ 53 / 2 ^ 52 := by ring
    rw [k3] at k1
    linarith
  obtain ⟨neg, r1, r2, r3⟩ := round8_shown m g1 ds.sum (by omega) hclose
  obtain ⟨sg, k, rfl, e⟩ := hx
  have hk : k = ds.sum.natAbs := by rw [e]; cases sg <;> simp [F64.sgn]
  have hsg : sg = decide (ds.sum < 0) := by
    rw [e]
    cases sg
    · simp [F64.sgn]
    · simp only [F64.sgn, if_true]
      rw [decide_eq_true]
      omega
  obtain ⟨hr, ek⟩ := typed_fin sg k (by omega)
  rw [r2 h0, ← hk, ← hsg] at r1
  have hfix := round8_fixed sg k (by omega) hr
  rw [← ek] at hfix
  have hmag : magText m = magText (F64.mkRound sg (k * F64.unit) 100000000) := by
    obtain ⟨n1, n2, n3, n4⟩ := round8_shown (F64.mkRound sg (k * F64.unit) 100000000) (by rw [ek]; rfl) ds.sum (by omega)
      (by
        obtain ⟨_, q2⟩ := typed_err (F64.mkRound sg (k * F64.unit) 100000000) ds.sum ⟨sg, k, rfl, e⟩ (by omega)
        refine lt_of_le_of_lt q2 ?_
        rw [show |(ds.sum : Rat)| = (ds.sum.natAbs : Rat) by rw [Nat.cast_natAbs, Int.cast_abs]]
        linarith)
    unfold magText
    rw [r1, hfix]
    have l1 : Mag.lt m (Mag.zero : F64) = F64.lt m F64.zero := rfl
    have l2 : Mag.lt (F64.mkRound sg (k * F64.unit) 100000000) (Mag.zero : F64) =
      F64.lt (F64.mkRound sg (k * F64.unit) 100000000) F64.zero := by simp only [Mag.lt, Mag.zero]
    rw [l1, l2, lt_zero_value m g1, lt_zero_value _ (by rw [ek]; rfl), r3 h0, n4 h0]
  unfold Amount.display
  simp only [hmag]

/-- C90 for the balance report, where that counts what it should (see C51). -/
theorem C90_reported_to_the_last_digit (l : Ledger F64) (tot : List (Str × Pool F64)) (h : l.totals = .ok tot) (k : Str)
    (hne : NoEnvelopeOf k l.entries) (hfa : FirstHasAmount k l.entries) (pool : Pool F64) (hp : mapGet tot k = some pool)
    (s : Option Str) (ds : List Int) (ht : List.Forall₂ TypedAs (partsOf s (l.entries.flatMap fun x => x.movesOf k)) ds)
    (hb : (ds.length + 3) * absTotal ds ≤ 2 ^ 51) (h0 : ds.sum ≠ 0) (x : F64) (hx : TypedAs x ds.sum) :
    Amount.display ⟨(pool.only s).mag, s⟩ = Amount.display ⟨x, s⟩ := by
  rw [C51_sum_of_postings_partial l tot h k hne hfa] at hp
  split at hp
  · cases hp
    have := C90_shown_to_the_last_digit ((l.entries.flatMap fun x => x.movesOf k).map PoolOp.plus) s ds
    rw [plus_parts, ← plus_runAll] at this
    exact this ht hb h0 x hx
  · cases hp

/-- A sum of zero is not always zero: of $0.30, all of which is spent, `$-0` is left, and the pool is not zero. -/
theorem C90_nothing_left :
    ∃ l, loadText F64 "account a\naccount b\n2024/01/05 * x\n a $0.3\n b $-0.3\n2024/01/06 * y\n a $-0.1\n b $0.1\n2024/01/07 * z\n a $-0.2\n b $0.2\n" = .ok l ∧
      (l.displayBalance (stdEnv june15) = .ok [padRight 35 s%"a" ++ s%"    $-0", padRight 35 s%"b" ++ s%"    $ 0"] ∧
      ∃ tot, l.totals = .ok tot ∧ (tot.all fun p => !Pool.isZero p.2) = true) := by decide +kernel

/-- Thirty cents in ten payments, and three whole numbers. -/
example : TypedAs (F64.mkRound false (3000000 * F64.unit) 100000000) 3000000 ∧
    ((List.replicate 10 (3000000 : Int)).length + 3) * absTotal (List.replicate 10 3000000) ≤ 2 ^ 51 ∧
    (List.replicate 10 (3000000 : Int)).sum ≠ 0 := ⟨⟨false, 3000000, rfl, rfl⟩, by decide, by decide⟩

theorem ofInt_whole : (F64.ofInt 5).whole := ⟨by decide +kernel, 5, by decide +kernel⟩

example : let ops := [PoolOp.plus ⟨F64.ofInt 5, some s%"$"⟩, .plus ⟨F64.ofInt 7, none⟩, .minus ⟨F64.ofInt 5, some s%"$"⟩]
    ops.flatMap (PoolOp.parts (some s%"$")) = [F64.ofInt 5, F64.neg (F64.ofInt 5)] ∧
    (∀ x ∈ ops.flatMap (PoolOp.parts (some s%"$")), x.finite = true) ∧
    absSum (ops.flatMap (PoolOp.parts (some s%"$"))) = 10 := by decide +kernel

end Silverfox
