import Verif.Props.SeveralFiles
import Verif.Props.NearTo

/-
C129: with doubles, the balance report on a priced journal in several files is exact to the last digit.
-/

namespace Silverfox

set_option linter.unusedSectionVars false

/-! ### Specification -/

/-- Specification: a number of at most eight decimals. -/
def HasEight (q : Rat) : Prop := ∃ D : Int, q * 100000000 = D

/-- Specification: how much rounding counts for a line, next to a blank one: its amount, and if that has a symbol, also twice
its worth in the money of the journal. -/
def QLine.bulk (l : QLine) : Rat :=
  match l.value with
  | none => 0
  | some (q, none) => |q|
  | some (q, some _) => |q| + 2 * |l.home.getD 0|

/-- Specification: how much it counts for what a line brings: the amount, and for a blank line all the others, as often as
there are lines, and twice more. -/
def QEntry.weight (e : QEntry) (l : QLine) : Rat :=
  match l.value with
  | some v => |v.1|
  | none => (e.lines.length + 2) * (e.lines.map QLine.bulk).sum

/-- Specification: what an entry brings to an account, with the weights. -/
def QEntry.weighed (r : QEntry → Rat × Option Str) (k : Str) (e : QEntry) : List ((Rat × Option Str) × Rat) :=
  e.lines.filterMap fun l => if l.account = k then some (l.value.getD (r e), e.weight l) else none

/-- Specification: so little, and so seldom, that rounding cannot show: the number of lines for the account in a currency,
plus three, times the sum of the weights, is at most 2^51 hundred-millionths (22,517,998 and a bit). -/
def LittleIn (r : QEntry → Rat × Option Str) (k : Str) (es : List QEntry) : Prop :=
  ∀ s, (((es.flatMap (QEntry.weighed r k)).filter fun v => v.1.2 = s).length + 3) *
    (((es.flatMap (QEntry.weighed r k)).filter fun v => v.1.2 = s).map Prod.snd).sum * 100000000 ≤ (2 ^ 51 : Rat)

/-- Specification: all amounts have at most eight decimals. So do, where a line is left blank, the prices, the totals and
what they amount to, and neither those nor the amounts reach 2^51 hundred-millionths. -/
structure QEntry.Fine (e : QEntry) : Prop where
  given : ∀ v ∈ e.given, HasEight v.1
  moderate : (∃ l ∈ e.lines, l.value = none) → ∀ v ∈ e.given, |v.1| * 100000000 < (2 ^ 51 : Rat)
  prices : (∃ l ∈ e.lines, l.value = none) → ∀ l ∈ e.lines, ∀ c ∈ l.clauses,
    HasEight c.value.1 ∧ |c.value.1| * 100000000 < (2 ^ 51 : Rat)
  homes : (∃ l ∈ e.lines, l.value = none) → ∀ l ∈ e.lines, ∀ q, l.home = some q → HasEight q

/-- Specification: the balance report on these entries, exact to the last digit, if a blank line is worth what `r` says: the
accounts that occur, in order, and for each every currency posted, with one amount, which is the sum. -/
structure ExactReport (r : QEntry → Rat × Option Str) (es : List QEntry) (report : List (Str × List Str)) : Prop where
  sorted : report.Pairwise fun a b => strLt a.1 b.1 = true
  accounts : ∀ k, k ∈ report.map Prod.fst ↔ ∃ e ∈ es, ∃ l ∈ e.lines, l.account = k
  amounts : ∀ k ts, (k, ts) ∈ report → ∃ cs : List (Option Str), cs.Nodup ∧
    (∀ s, s ∈ cs ↔ ∃ e ∈ es, ∃ v ∈ e.moves r k, v.2 = s) ∧
    List.Forall₂ (fun t s => Amount.parse t '.' = .ok (⟨pricedSum r k s es, s⟩ : Amount Rat)) ts cs

/-! ### Products -/

theorem mul_zero_value {x y : F64} (hx : x.finite = true) (hy : y.finite = true) (h : x.value = 0 ∨ y.value = 0) :
    (F64.mul x y).finite = true ∧ (F64.mul x y).value = 0 := by
  cases x with
  | nan => cases hx
  | inf s => cases hx
  | fin s n hn =>
    cases y with
    | nan => cases hy
    | inf s => cases hy
    | fin t m hm =>
      have hu : (F64.unit : Rat) ≠ 0 := by have := unit_pos; positivity
      have h0 : n * m = 0 * F64.unit := by
        rw [Nat.zero_mul, Nat.mul_eq_zero]
        rcases h with h | h
        · left
          rw [F64.value_sign, mul_eq_zero, div_eq_zero_iff] at h
          rcases h with h | h | h
          · cases s <;> simp at h
          · exact_mod_cast h
          · exact absurd h hu
        · right
          rw [F64.value_sign, mul_eq_zero, div_eq_zero_iff] at h
          rcases h with h | h | h
          · cases t <;> simp at h
          · exact_mod_cast h
          · exact absurd h hu
      simp only [F64.mul]
      rw [h0, mkRound_exact _ 0 _ unit_pos F64.rep_zero]
      exact ⟨rfl, by rw [F64.value_sign]; simp⟩

/-- The product of two typed amounts, if it has at most eight decimals itself. -/
theorem TypedAs.mul {x y : F64} {D E F : Int} (hx : TypedAs x D) (hy : TypedAs y E) (hD : D.natAbs < 2 ^ 51)
    (hE : E.natAbs < 2 ^ 51) (hF : (D : Rat) * E = F * 100000000) : NearTo (F64.mul x y) F (2 * F.natAbs) := by
  obtain ⟨f1, g1⟩ := typed_err x D hx hD
  obtain ⟨f2, g2⟩ := typed_err y E hy hE
  by_cases h0 : F = 0
  · subst h0
    have hz : x.value = 0 ∨ y.value = 0 := by
      rw [Int.cast_zero, zero_mul, mul_eq_zero] at hF
      rcases hF with h | h
      · left
        rw [h] at g1
        simp only [abs_zero, zero_div, sub_zero] at g1
        have := abs_nonpos_iff.1 g1
        linarith
      · right
        rw [h] at g2
        simp only [abs_zero, zero_div, sub_zero] at g2
        have := abs_nonpos_iff.1 g2
        linarith
    obtain ⟨h1, h2⟩ := mul_zero_value f1 f2 hz
    exact ⟨h1, by rw [h2]; simp, by simp⟩
  · have eD : |(D : Rat)| < 2 ^ 51 := by
      rw [← Int.cast_abs, ← Nat.cast_natAbs]; exact_mod_cast hD
    have eE : |(E : Rat)| < 2 ^ 51 := by
      rw [← Int.cast_abs, ← Nat.cast_natAbs]; exact_mod_cast hE
    have hF1 : (1 : Rat) ≤ |(F : Rat)| := by
      rw [← Int.cast_abs]; exact_mod_cast Int.one_le_abs h0
    have hF2 : |(D : Rat)| * |(E : Rat)| = |(F : Rat)| * 100000000 := by
      rw [← abs_mul, hF, abs_mul]; norm_num
    -- the exact product of the doubles
    have hprod : |x.value * 100000000 * (y.value * 100000000) - D * E| ≤ |(F : Rat)| * 100000000 * (2 / 2 ^ 53 + 1 / 2 ^ 106) := by
      have e : x.value * 100000000 * (y.value * 100000000) - D * E =
          (x.value * 100000000 - D) * (y.value * 100000000 - E) + (x.value * 100000000 - D) * E +
            D * (y.value * 100000000 - E) := by ring
      rw [e]
      refine le_trans (abs_add_le _ _) ?_
      refine le_trans (add_le_add_left (abs_add_le _ _) _) ?_
      rw [abs_mul, abs_mul, abs_mul]
      have k1 : |x.value * 100000000 - D| * |y.value * 100000000 - E| ≤ (|(D : Rat)| / 2 ^ 53) * (|(E : Rat)| / 2 ^ 53) :=
        mul_le_mul g1 g2 (abs_nonneg _) (by positivity)
      have k2 : |x.value * 100000000 - D| * |(E : Rat)| ≤ (|(D : Rat)| / 2 ^ 53) * |(E : Rat)| :=
        mul_le_mul_of_nonneg_right g1 (abs_nonneg _)
      have k3 : |(D : Rat)| * |y.value * 100000000 - E| ≤ |(D : Rat)| * (|(E : Rat)| / 2 ^ 53) :=
        mul_le_mul_of_nonneg_left g2 (abs_nonneg _)
      calc _ ≤ (|(D : Rat)| / 2 ^ 53) * (|(E : Rat)| / 2 ^ 53) + (|(D : Rat)| / 2 ^ 53) * |(E : Rat)| +
            |(D : Rat)| * (|(E : Rat)| / 2 ^ 53) := add_le_add (add_le_add k1 k2) k3
        _ = |(D : Rat)| * |(E : Rat)| * (2 / 2 ^ 53 + 1 / 2 ^ 106) := by ring
        _ = _ := by rw [hF2]
    have hxy : |x.value * y.value * 100000000 - F| ≤ |(F : Rat)| * (2 / 2 ^ 53 + 1 / 2 ^ 106) := by
      have e : x.value * y.value * 100000000 - F = (x.value * 100000000 * (y.value * 100000000) - D * E) / 100000000 := by
        rw [hF]; ring
      rw [e, abs_div, abs_of_pos (show (0 : Rat) < 100000000 by norm_num), div_le_iff₀ (by norm_num)]
      linarith
    have habs : |x.value * y.value| * 100000000 ≤ |(F : Rat)| * (1 + 2 / 2 ^ 53 + 1 / 2 ^ 106) := by
      have := abs_add_le (x.value * y.value * 100000000 - F) (F : Rat)
      rw [sub_add_cancel, abs_mul, abs_of_pos (show (0 : Rat) < 100000000 by norm_num)] at this
      linarith
    have hFb : |(F : Rat)| ≤ 2 ^ 102 := by
      have : |(D : Rat)| * |(E : Rat)| ≤ 2 ^ 51 * 2 ^ 51 := mul_le_mul eD.le eE.le (abs_nonneg _) (by norm_num)
      rw [hF2] at this
      have h102 : (2 : Rat) ^ 51 * 2 ^ 51 = 2 ^ 102 := by norm_num
      have := abs_nonneg (F : Rat)
      linarith
    obtain ⟨K, eK, hK⟩ := large_1000
    have hsmall : |x.value * y.value| ≤ 2 ^ 1000 := by
      rw [eK]
      refine le_trans ?_ hK
      have e100 : (2 : Rat) ^ 102 * (1 + 2 / 2 ^ 53 + 1 / 2 ^ 106) ≤ 2 ^ 100 * 100000000 := by norm_num
      have : |(F : Rat)| * (1 + 2 / 2 ^ 53 + 1 / 2 ^ 106) ≤ (2 : Rat) ^ 102 * (1 + 2 / 2 ^ 53 + 1 / 2 ^ 106) :=
        mul_le_mul_of_nonneg_right hFb (by norm_num)
      linarith
    obtain ⟨m1, m2⟩ := mul_err x y f1 f2 hsmall
    refine ⟨m1, ?_, by omega⟩
    generalize (F64.mul x y).value = m at *
    generalize x.value * y.value = p at *
    have e : m * 100000000 - F = (m - p) * 100000000 + (p * 100000000 - F) := by ring
    rw [e]
    refine le_trans (abs_add_le _ _) ?_
    rw [abs_mul, abs_of_pos (show (0 : Rat) < 100000000 by norm_num)]
    push_cast
    rw [Nat.cast_natAbs, Int.cast_abs]
    have k : |m - p| * 100000000 ≤ |(F : Rat)| * (1 + 2 / 2 ^ 53 + 1 / 2 ^ 106) / 2 ^ 53 + 100000000 / 2 ^ 100 := by
      have : |m - p| * 100000000 ≤ (|p| / 2 ^ 53 + 1 / 2 ^ 100) * 100000000 :=
        mul_le_mul_of_nonneg_right m2 (by norm_num)
      have e2 : (|p| / 2 ^ 53 + 1 / 2 ^ 100) * 100000000 = |p| * 100000000 / 2 ^ 53 + 100000000 / 2 ^ 100 := by ring
      rw [e2] at this
      have : |p| * 100000000 / 2 ^ 53 ≤ |(F : Rat)| * (1 + 2 / 2 ^ 53 + 1 / 2 ^ 106) / 2 ^ 53 :=
        div_le_div_of_nonneg_right habs (by norm_num)
      linarith
    have k2 : (100000000 : Rat) / 2 ^ 100 ≤ |(F : Rat)| * (100000000 / 2 ^ 100) := by
      have : (0 : Rat) ≤ 100000000 / 2 ^ 100 := by norm_num
      nlinarith
    have k3 : (1 + 2 / 2 ^ 53 + 1 / 2 ^ 106 : Rat) / 2 ^ 53 + 100000000 / 2 ^ 100 + (2 / 2 ^ 53 + 1 / 2 ^ 106) ≤ 2 / 2 ^ 52 := by
      norm_num
    have k4 := mul_le_mul_of_nonneg_left k3 (abs_nonneg (F : Rat))
    have e3 : 2 * |(F : Rat)| / 2 ^ 52 = |(F : Rat)| * (2 / 2 ^ 52) := by ring
    have e4 : |(F : Rat)| * (1 + 2 / 2 ^ 53 + 1 / 2 ^ 106) / 2 ^ 53 = |(F : Rat)| * ((1 + 2 / 2 ^ 53 + 1 / 2 ^ 106) / 2 ^ 53) := by
      ring
    rw [e3]
    rw [e4] at k
    linarith

/-! ### What is missing -/

/-- A double near to an amount, with a weight. -/
def NearBy (x : F64) (p : Rat × Rat) : Prop :=
  ∃ (D : Int) (N : Nat), p.1 * 100000000 = D ∧ p.2 * 100000000 = N ∧ NearTo x D N

theorem nearBy_sums {xs : List F64} {ps : List (Rat × Rat)} (h : List.Forall₂ NearBy xs ps) :
    ∃ ts : List (Int × Nat), List.Forall₂ (fun x t => NearTo x t.1 t.2) xs ts ∧ ts.length = ps.length ∧
      (ps.map Prod.fst).sum * 100000000 = ((ts.map Prod.fst).sum : Int) ∧
      (ps.map Prod.snd).sum * 100000000 = ((ts.map Prod.snd).sum : Nat) := by
  induction h with
  | nil => exact ⟨[], .nil, rfl, by simp, by simp⟩
  | @cons x p xs ps h1 _ ih =>
    obtain ⟨ts, t1, t2, t3, t4⟩ := ih
    obtain ⟨D, N, d1, d2, d3⟩ := h1
    refine ⟨(D, N) :: ts, .cons d3 t1, by simp [t2], ?_, ?_⟩
    · simp only [List.map_cons, List.sum_cons, add_mul, t3, d1]; push_cast; rfl
    · simp only [List.map_cons, List.sum_cons, add_mul, t4, d2]; push_cast; rfl

/-- What is left of nothing, or of the first. -/
theorem nearBy_rest {xs : List F64} {ps : List (Rat × Rat)} (h : List.Forall₂ NearBy xs ps) (n : Nat) (hn : ps.length < n)
    (hb : (n + 2) * (ps.map Prod.snd).sum * 400000000 ≤ (2 ^ 51 : Rat)) :
    NearBy (xs.foldl Mag.sub (Mag.zero : F64)) (-(ps.map Prod.fst).sum, (n + 2) * (ps.map Prod.snd).sum) ∧
      ∀ x xs', xs = x :: xs' →
        NearBy (xs'.foldl Mag.sub (Mag.neg x)) (-(ps.map Prod.fst).sum, (n + 2) * (ps.map Prod.snd).sum) := by
  obtain ⟨ts, t1, t2, t3, t4⟩ := nearBy_sums h
  have hS : 4 * ((n + 2) * (ts.map Prod.snd).sum) ≤ 2 ^ 51 := by
    have : (4 : Rat) * ((n + 2) * ((ts.map Prod.snd).sum : Nat)) ≤ 2 ^ 51 := by rw [← t4]; linarith
    exact_mod_cast this
  have hneg : List.Forall₂ (fun x (t : Int × Nat) => NearTo x t.1 t.2) (xs.map F64.neg) (ts.map fun t => (-t.1, t.2)) := by
    rw [List.forall₂_map_left_iff, List.forall₂_map_right_iff]
    exact t1.imp fun a t h => h.neg
  have e1 : ((ts.map fun t => (-t.1, t.2)).map Prod.fst).sum = -(ts.map Prod.fst).sum := by
    rw [List.map_map]
    clear t1 t2 t3 t4 hS hneg
    induction ts with
    | nil => rfl
    | cons t ts ih => simp only [List.map_cons, List.sum_cons, ih, Function.comp]; ring
  have e2 : ((ts.map fun t => (-t.1, t.2)).map Prod.snd) = ts.map Prod.snd := by rw [List.map_map]; rfl
  have hval : (-(ps.map Prod.fst).sum) * 100000000 = ((-(ts.map Prod.fst).sum : Int) : Rat) := by push_cast; linarith
  have hwt : ((n : Rat) + 2) * (ps.map Prod.snd).sum * 100000000 = (((n + 2) * (ts.map Prod.snd).sum : Nat) : Rat) := by
    push_cast; rw [mul_assoc, t4]
  have hle : ∀ m, m ≤ n + 3 → m * (ts.map Prod.snd).sum ≤ 2 ^ 51 := by
    intro m hm
    have h1 : m * (ts.map Prod.snd).sum ≤ (4 * (n + 2)) * (ts.map Prod.snd).sum := Nat.mul_le_mul_right _ (by omega)
    rw [Nat.mul_assoc] at h1
    omega
  constructor
  · have hz := sumF_near (F64.zero :: xs.map F64.neg) ((0, 0) :: ts.map fun t => (-t.1, t.2)) (.cons near_zero hneg) (by
      simp only [List.map_cons, List.sum_cons, List.length_cons, List.length_map, e2]
      rw [Nat.zero_add]
      exact hle _ (by omega))
    simp only [List.map_cons, List.sum_cons, List.length_cons, List.length_map, e2, e1] at hz
    rw [Nat.zero_add, zero_add] at hz
    refine ⟨_, _, hval, hwt, ?_⟩
    rw [foldl_sub_add]
    exact hz.mono (Nat.mul_le_mul_right _ (by omega))
  · intro x xs' hx
    subst hx
    have hz := sumF_near _ _ hneg (by
      simp only [List.length_map, e2]
      exact hle _ (by omega))
    simp only [List.length_map, e2, e1] at hz
    refine ⟨_, _, hval, hwt, ?_⟩
    rw [foldl_sub_add]
    exact hz.mono (Nat.mul_le_mul_right _ (by omega))

/-! ### Lines -/

theorem HasEight.natAbs {q : Rat} (h : HasEight q) : ∃ D : Int, q * 100000000 = D ∧ |q| * 100000000 = D.natAbs := by
  obtain ⟨D, hD⟩ := h
  refine ⟨D, hD, ?_⟩
  rw [Nat.cast_natAbs, Int.cast_abs, ← hD, abs_mul]; norm_num

theorem WrittenAmount.typed_text {t : Str} {q : Rat} {s : Option Str} (h : WrittenAmount t q s) (D : Int)
    (hD : q * 100000000 = D) : TypedAs (magOf t : F64) D := WrittenAmount.typed (l := ⟨[], [], [], t, none⟩) h D hD

theorem bulk_nonneg (l : QLine) : 0 ≤ l.bulk := by
  unfold QLine.bulk
  split
  · exact le_rfl
  · exact abs_nonneg _
  · positivity

theorem QLine.bulk_ge {l : QLine} {v : Rat × Option Str} (h : l.value = some v) : |v.1| ≤ l.bulk := by
  obtain ⟨q, s⟩ := v
  unfold QLine.bulk
  rw [h]
  cases s with
  | none => exact le_rfl
  | some s => simp only; have := abs_nonneg (l.home.getD 0); linarith

theorem QEntry.Fine.bulk {e : QEntry} (h : e.Fine) (hb : ∃ l ∈ e.lines, l.value = none) {l : QLine} (hl : l ∈ e.lines) :
    ∃ N : Nat, l.bulk * 100000000 = N := by
  unfold QLine.bulk
  cases hv : l.value with
  | none => exact ⟨0, by simp⟩
  | some v =>
    obtain ⟨q, s⟩ := v
    obtain ⟨D, _, h2⟩ := (h.given (q, s) (List.mem_filterMap.2 ⟨l, hl, hv⟩)).natAbs
    cases s with
    | none => exact ⟨_, h2⟩
    | some s =>
      simp only
      cases hh : l.home with
      | none => exact ⟨D.natAbs, by simpa using h2⟩
      | some w =>
        obtain ⟨F, _, f2⟩ := (h.homes hb l hl w hh).natAbs
        refine ⟨D.natAbs + 2 * F.natAbs, ?_⟩
        push_cast
        rw [← h2, ← f2]
        simp only [Option.getD_some]; ring

/-- What is read for an amount next to a blank line. -/
theorem QEntry.Fine.given_near {e : QEntry} (h : e.Fine) (hb : ∃ l ∈ e.lines, l.value = none) {accs : List Str} {l : QLine}
    (hl : l ∈ e.lines) (hok : l.Ok accs) {q : Rat} {s : Option Str} (hv : l.value = some (q, s)) :
    NearBy (l.toPLine.mag : F64) (q, l.bulk) := by
  have hm : (q, s) ∈ e.given := List.mem_filterMap.2 ⟨l, hl, hv⟩
  obtain ⟨D, h1, h2⟩ := (h.given _ hm).natAbs
  obtain ⟨N, hN⟩ := h.bulk hb hl
  have hlt : D.natAbs < 2 ^ 51 := by
    have := h.moderate hb _ hm
    simp only at this h2
    rw [h2] at this
    exact_mod_cast this
  refine ⟨D, N, h1, hN, ((hok.base.given q s hv).2.2.typed D h1 |>.near hlt).mono ?_⟩
  have h3 := QLine.bulk_ge hv
  have : (D.natAbs : Rat) ≤ N := by
    rw [← h2, ← hN]; exact mul_le_mul_of_nonneg_right h3 (by norm_num)
  exact_mod_cast this

/-- What is read for its worth. -/
theorem QEntry.Fine.home_near {e : QEntry} (h : e.Fine) (hb : ∃ l ∈ e.lines, l.value = none) {accs : List Str} {l : QLine}
    (hl : l ∈ e.lines) (hok : l.Ok accs) {w : Rat} (hw : l.home = some w) :
    ∃ x : F64, l.readHome = some x ∧ NearBy x (w, l.bulk) := by
  have hw0 := hw
  unfold QLine.home at hw
  unfold QLine.readHome Classic.nativeValue QLine.read
  cases hv : l.value with
  | none => rw [hv] at hw; cases hw
  | some v =>
    obtain ⟨q, s⟩ := v
    have hr : (l.toPLine.read : Option (Amount F64)) = some ⟨l.toPLine.mag, s⟩ := by simp [PLine.read, hv]
    rw [hv] at hw
    rw [hr]
    cases s with
    | none =>
      cases hw
      exact ⟨_, rfl, h.given_near hb hl hok hv⟩
    | some s =>
      have hm : (q, some s) ∈ e.given := List.mem_filterMap.2 ⟨l, hl, hv⟩
      obtain ⟨F, f1, f2⟩ := (h.homes hb l hl w hw0).natAbs
      obtain ⟨N, hN⟩ := h.bulk hb hl
      have hbig : 2 * F.natAbs ≤ N := by
        have e1 : l.bulk = |q| + 2 * |w| := by
          unfold QLine.bulk; rw [hv, hw0]; rfl
        have : (2 : Rat) * F.natAbs ≤ N := by
          rw [← f2, ← hN, e1]
          have := abs_nonneg q
          linarith
        exact_mod_cast this
      simp only [Option.isNone, QLine.clauseRead, QLine.clause] at hw ⊢
      cases hf : l.clauses.find? fun c => c.op == s%"@" with
      | some p =>
        rw [hf] at hw
        have hp := List.mem_of_find?_eq_some hf
        have hwr := (hok.amounts p hp).2
        obtain ⟨p8, pb⟩ := h.prices hb l hl p hp
        obtain ⟨E, g1, g2⟩ := p8.natAbs
        obtain ⟨op, tx, p, ps⟩ := p
        cases ps with
        | some y => cases hw
        | none =>
          simp only [Option.map, Option.some.injEq] at hw g1 g2 pb hwr
          refine ⟨_, rfl, F, N, f1, hN, NearTo.mono ?_ hbig⟩
          obtain ⟨D, d1, d2⟩ := (h.given _ hm).natAbs
          simp only at d1 d2
          have hDlt : D.natAbs < 2 ^ 51 := by
            have := h.moderate hb _ hm
            simp only at this
            rw [d2] at this
            exact_mod_cast this
          have hElt : E.natAbs < 2 ^ 51 := by
            rw [g2] at pb
            exact_mod_cast pb
          refine TypedAs.mul ((hok.base.given q _ hv).2.2.typed D d1) (hwr.typed_text E g1) hDlt hElt ?_
          rw [← d1, ← g1, ← f1, ← hw]; ring
      | none =>
        rw [hf] at hw
        cases hf2 : l.clauses.find? fun c => c.op == s%"=" with
        | none => rw [hf2] at hw; cases hw
        | some t =>
          rw [hf2] at hw
          have hp := List.mem_of_find?_eq_some hf2
          have hwr := (hok.amounts t hp).2
          obtain ⟨p8, pb⟩ := h.prices hb l hl t hp
          obtain ⟨op, tx, t, ts⟩ := t
          cases ts with
          | some y => cases hw
          | none =>
            simp only [Option.map, Option.some.injEq] at hw pb hwr
            subst hw
            refine ⟨_, rfl, F, N, f1, hN, NearTo.mono ?_ (show F.natAbs ≤ N by omega)⟩
            have hlt : F.natAbs < 2 ^ 51 := by
              rw [f2] at pb
              exact_mod_cast pb
            exact (hwr.typed_text F f1).near hlt

/-- What is read for a blank line is near to what it is worth. -/
theorem QEntry.Fine.booked_near {env : Env} {fmt : Str} {accs : List Str} {e : QEntry} (h : e.Fine) (hok : e.Ok env fmt accs)
    (hb : ∃ l ∈ e.lines, l.value = none)
    (hw : (e.lines.length + 2) * (e.lines.map QLine.bulk).sum * 400000000 ≤ (2 ^ 51 : Rat)) :
    (e.readBooked : Amount F64).sym = e.booked.2 ∧
      NearBy (e.readBooked : Amount F64).mag (e.booked.1, (e.lines.length + 2) * (e.lines.map QLine.bulk).sum) := by
  obtain ⟨hne, hk⟩ := hok.known hb
  -- the lines that count, with their bulk
  have hsub : ∀ (f : QLine → Option Rat), (∀ l ∈ e.lines, l.value = none → f l = none) →
      (∀ l ∈ e.lines, f l = none → l.value = none) →
      ((e.lines.filterMap fun l => (f l).map fun w => (w, l.bulk)).map Prod.snd).sum = (e.lines.map QLine.bulk).sum ∧
        (e.lines.filterMap fun l => (f l).map fun w => (w, l.bulk)).length < e.lines.length := by
    intro f f1 f2
    obtain ⟨b, hbm, hbv⟩ := hb
    constructor
    · have : ∀ ls : List QLine, (∀ l ∈ ls, l ∈ e.lines) →
          ((ls.filterMap fun l => (f l).map fun w => (w, l.bulk)).map Prod.snd).sum = (ls.map QLine.bulk).sum := by
        intro ls
        induction ls with
        | nil => intro _; rfl
        | cons l ls ih =>
          intro hl
          have ih := ih fun j hj => hl j (by simp [hj])
          cases hf : f l with
          | none =>
            rw [List.filterMap_cons_none (by simp [hf]), ih, List.map_cons, List.sum_cons]
            have : l.bulk = 0 := by unfold QLine.bulk; rw [f2 l (hl l (by simp)) hf]
            rw [this, zero_add]
          | some w =>
            rw [List.filterMap_cons_some (b := (w, l.bulk)) (by simp [hf]), List.map_cons, List.sum_cons, ih, List.map_cons, List.sum_cons]
      exact this e.lines fun _ h => h
    · refine lt_of_le_of_ne (List.length_filterMap_le _ _) fun he => ?_
      have := List.filterMap_length_eq_length.1 he b hbm
      rw [f1 b hbm hbv] at this
      cases this
  by_cases hs : ∃ s, e.In s
  · unfold QEntry.readBooked QEntry.booked
    rw [if_pos hs, if_pos hs]
    obtain ⟨s1, s2⟩ := hsub (fun l => l.value.map Prod.fst) (by intro l _ h; simp [h]) (by
      intro l _ h
      cases hv : l.value with
      | none => rfl
      | some v => rw [hv] at h; cases h)
    have hF : List.Forall₂ NearBy ((e.lines.filterMap fun l => (l.toPLine.read : Option (Amount F64))).map Amount.mag)
        (e.lines.filterMap fun l => (l.value.map Prod.fst).map fun w => (w, l.bulk)) := by
      have : ∀ ls : List QLine, (∀ l ∈ ls, l ∈ e.lines) →
          List.Forall₂ NearBy ((ls.filterMap fun l => (l.toPLine.read : Option (Amount F64))).map Amount.mag)
            (ls.filterMap fun l => (l.value.map Prod.fst).map fun w => (w, l.bulk)) := by
        intro ls
        induction ls with
        | nil => intro _; exact .nil
        | cons l ls ih =>
          intro hl
          have ih := ih fun j hj => hl j (by simp [hj])
          cases hv : l.value with
          | none =>
            rw [List.filterMap_cons_none (by simp [PLine.read, hv]), List.filterMap_cons_none (by simp [hv])]
            exact ih
          | some v =>
            rw [List.filterMap_cons_some (b := ⟨l.toPLine.mag, v.2⟩) (by simp [PLine.read, hv]),
              List.filterMap_cons_some (b := (v.1, l.bulk)) (by simp [hv]), List.map_cons]
            exact .cons (h.given_near hb (hl l (by simp)) (hok.lines l (hl l (by simp))) hv) ih
      exact this e.lines fun _ h => h
    have hsum : ((e.lines.filterMap fun l => (l.value.map Prod.fst).map fun w => (w, l.bulk)).map Prod.fst) =
        e.given.map Prod.fst := by
      unfold QEntry.given
      rw [List.map_filterMap, List.map_filterMap]
      refine List.filterMap_congr fun l _ => ?_
      cases l.value <;> rfl
    have hrest := (nearBy_rest hF e.lines.length s2 (by rw [s1]; exact hw)).2
    rw [s1, hsum] at hrest
    have hsy := given_syms (M := F64) e
    cases hg : e.lines.filterMap fun l => (l.toPLine.read : Option (Amount F64)) with
    | nil =>
      rw [hg] at hsy
      exact absurd (List.map_eq_nil_iff.1 hsy.symm) hne
    | cons a as =>
      rw [hg] at hsy hrest
      refine ⟨?_, hrest a.mag (as.map Amount.mag) rfl⟩
      obtain ⟨v, vs, hv⟩ := List.exists_cons_of_ne_nil hne
      rw [hv] at hsy ⊢
      exact (List.cons.inj hsy).1
  · unfold QEntry.readBooked QEntry.booked
    rw [if_neg hs, if_neg hs]
    obtain ⟨hk, _⟩ := hk.resolve_left hs
    have hblank : ∀ l : QLine, l.value = none → l.home = none := by
      intro l hv; unfold QLine.home; rw [hv]
    obtain ⟨s1, s2⟩ := hsub (fun l => l.home) (fun l _ hv => hblank l hv) (by
      intro l hl hh
      by_contra hv
      exact hk l hl hv hh)
    have hF : List.Forall₂ NearBy (e.lines.filterMap (QLine.readHome (M := F64)))
        (e.lines.filterMap fun l => l.home.map fun w => (w, l.bulk)) := by
      have : ∀ ls : List QLine, (∀ l ∈ ls, l ∈ e.lines) →
          List.Forall₂ NearBy (ls.filterMap (QLine.readHome (M := F64)))
            (ls.filterMap fun l => l.home.map fun w => (w, l.bulk)) := by
        intro ls
        induction ls with
        | nil => intro _; exact .nil
        | cons l ls ih =>
          intro hl
          have ih := ih fun j hj => hl j (by simp [hj])
          cases hh : l.home with
          | none =>
            have : (l.readHome : Option F64) = none := by
              have := readHome_isSome (M := F64) l
              rw [hh] at this
              simpa using this
            rw [List.filterMap_cons_none this, List.filterMap_cons_none (by simp [hh])]
            exact ih
          | some w =>
            obtain ⟨x, x1, x2⟩ := h.home_near hb (hl l (by simp)) (hok.lines l (hl l (by simp))) hh
            rw [List.filterMap_cons_some x1, List.filterMap_cons_some (b := (w, l.bulk)) (by simp [hh])]
            exact .cons x2 ih
      exact this e.lines fun _ h => h
    have hsum : ((e.lines.filterMap fun l => l.home.map fun w => (w, l.bulk)).map Prod.fst) = e.lines.filterMap QLine.home := by
      rw [List.map_filterMap]
      refine List.filterMap_congr fun l _ => ?_
      cases l.home <;> rfl
    have hrest := (nearBy_rest hF e.lines.length s2 (by rw [s1]; exact hw)).1
    rw [s1, hsum] at hrest
    exact ⟨rfl, hrest⟩

/-! ### Accounts -/

theorem readAs_of {a : Amount F64} {v : Rat × Option Str} {W : Rat} (hs : a.sym = v.2) (h : NearBy a.mag (v.1, W)) :
    ReadAs a (v, W) := by
  obtain ⟨D, N, h1, h2, h3⟩ := h
  simp only at h1 h2
  have e : W * 100000000 = ((N : Int) : Rat) := by rw [h2]; rfl
  refine ⟨hs, by simp only [u8_of h1]; exact h1, by simp only [u8_of e, Int.natAbs_natCast]; exact h2, ?_⟩
  simp only [u8_of h1, u8_of e, Int.natAbs_natCast]
  exact h3

/-- What is read for the lines of some accounts. -/
theorem QEntry.Fine.lines_near {env : Env} {fmt : Str} {accs : List Str} {e : QEntry} (h : e.Fine) (hok : e.Ok env fmt accs)
    (F : Str → Prop) [DecidablePred F] (hw : ∀ l ∈ e.lines, F l.account → e.weight l * 400000000 ≤ (2 ^ 51 : Rat)) :
    List.Forall₂ Silverfox.ReadAs (e.lines.filterMap fun l => if F l.account then some (l.toPLine.read.getD e.readBooked) else none)
      (e.lines.filterMap fun l => if F l.account then some (l.value.getD e.booked, e.weight l) else none) := by
  have : ∀ ls : List QLine, (∀ l ∈ ls, l ∈ e.lines) →
      List.Forall₂ Silverfox.ReadAs (ls.filterMap fun l => if F l.account then some (l.toPLine.read.getD e.readBooked) else none)
        (ls.filterMap fun l => if F l.account then some (l.value.getD e.booked, e.weight l) else none) := by
    intro ls
    induction ls with
    | nil => intro _; exact .nil
    | cons l ls ih =>
      intro hl
      have ih := ih fun j hj => hl j (by simp [hj])
      have hle := hl l (by simp)
      by_cases hk : F l.account
      · rw [List.filterMap_cons_some (by rw [if_pos hk]), List.filterMap_cons_some (by rw [if_pos hk])]
        refine .cons ?_ ih
        have hwl := hw l hle hk
        unfold QEntry.weight at hwl ⊢
        cases hv : l.value with
        | some v =>
          rw [hv] at hwl
          simp only [PLine.read, hv, Option.map, Option.getD]
          simp only at hwl
          obtain ⟨D, h1, h2⟩ := (h.given v (List.mem_filterMap.2 ⟨l, hle, hv⟩)).natAbs
          refine readAs_of rfl ⟨D, D.natAbs, h1, h2, ((hok.lines l hle).base.given v.1 v.2 hv).2.2.typed D h1 |>.near ?_⟩
          have : 4 * (D.natAbs : Rat) ≤ 2 ^ 51 := by rw [← h2]; linarith
          have : 4 * D.natAbs ≤ 2 ^ 51 := by exact_mod_cast this
          omega
        | none =>
          rw [hv] at hwl
          simp only [PLine.read, hv, Option.map, Option.getD]
          simp only at hwl
          obtain ⟨b1, b2⟩ := h.booked_near hok ⟨l, hle, hv⟩ hwl
          exact readAs_of b1 b2
      · rw [List.filterMap_cons_none (by simp [hk]), List.filterMap_cons_none (by simp [hk])]
        exact ih
  exact this e.lines fun _ h => h

theorem QEntry.Fine.moves_near {env : Env} {fmt : Str} {accs : List Str} {e : QEntry} (h : e.Fine) (hok : e.Ok env fmt accs)
    (k : Str) (hw : ∀ w ∈ e.weighed QEntry.booked k, w.2 * 400000000 ≤ (2 ^ 51 : Rat)) :
    List.Forall₂ Silverfox.ReadAs (e.readMoves k) (e.weighed QEntry.booked k) := by
  refine h.lines_near hok (fun a => a = k) fun l hl hk => ?_
  exact hw (l.value.getD e.booked, e.weight l) (List.mem_filterMap.2 ⟨l, hl, by rw [if_pos hk]⟩)

theorem qweight_nonneg (r : QEntry → Rat × Option Str) (k : Str) (e : QEntry) : ∀ w ∈ e.weighed r k, 0 ≤ w.2 := by
  intro w hw
  obtain ⟨l, _, hl⟩ := List.mem_filterMap.1 hw
  split at hl
  · cases hl
    show 0 ≤ e.weight l
    unfold QEntry.weight
    split
    · exact abs_nonneg _
    · refine mul_nonneg (by positivity) (List.sum_nonneg ?_)
      intro x hx
      obtain ⟨l, _, rfl⟩ := List.mem_map.1 hx
      exact bulk_nonneg l
  · cases hl

theorem qall_near {env : Env} {es : List QEntry} (h : ∀ e ∈ es, ∃ fmt accs, e.Ok env fmt accs) (h8 : ∀ e ∈ es, e.Fine)
    (k : Str) (hs : LittleIn QEntry.booked k es) :
    List.Forall₂ ReadAs (es.flatMap (QEntry.readMoves k)) (es.flatMap (QEntry.weighed QEntry.booked k)) := by
  have hw : ∀ w ∈ es.flatMap (QEntry.weighed QEntry.booked k), w.2 * 400000000 ≤ (2 ^ 51 : Rat) := by
    intro w hw
    have hnn : ∀ v ∈ es.flatMap (QEntry.weighed QEntry.booked k), 0 ≤ v.2 := by
      intro v hv
      obtain ⟨e, _, hv⟩ := List.mem_flatMap.1 hv
      exact qweight_nonneg _ k e v hv
    have h2 := hs w.1.2
    have hm : w ∈ (es.flatMap (QEntry.weighed QEntry.booked k)).filter fun v => v.1.2 = w.1.2 :=
      List.mem_filter.2 ⟨hw, by simp⟩
    have h1 : w.2 ≤ (((es.flatMap (QEntry.weighed QEntry.booked k)).filter fun v => v.1.2 = w.1.2).map Prod.snd).sum := by
      refine List.single_le_sum ?_ _ (List.mem_map_of_mem hm)
      intro x hx
      obtain ⟨v, hv, rfl⟩ := List.mem_map.1 hx
      exact hnn v (List.mem_filter.1 hv).1
    generalize (es.flatMap (QEntry.weighed QEntry.booked k)).filter (fun v => v.1.2 = w.1.2) = L at *
    have hlen : (1 : Rat) ≤ L.length := by exact_mod_cast List.length_pos_of_mem hm
    have h0 := hnn w hw
    generalize (L.map Prod.snd).sum = S at *
    generalize (L.length : Rat) = n at *
    have h3 : 4 * S ≤ (n + 3) * S := mul_le_mul_of_nonneg_right (by linarith) (by linarith)
    linarith
  clear hs
  induction es with
  | nil => exact .nil
  | cons e es ih =>
    rw [List.flatMap_cons, List.flatMap_cons] at *
    refine List.rel_append ?_ ?_
    · obtain ⟨_, _, hok⟩ := h e (by simp)
      exact (h8 e (by simp)).moves_near hok k fun w hm => hw w (List.mem_append_left _ hm)
    · exact ih (fun x hx => h x (by simp [hx])) (fun x hx => h8 x (by simp [hx])) fun w hm => hw w (List.mem_append_right _ hm)

theorem qweighed_moves (r : QEntry → Rat × Option Str) (k : Str) (es : List QEntry) :
    (es.flatMap (QEntry.weighed r k)).map Prod.fst = es.flatMap (QEntry.moves r k) := by
  rw [List.map_flatMap]
  refine List.flatMap_congr fun e _ => ?_
  unfold QEntry.weighed QEntry.moves
  rw [List.map_filterMap]
  refine List.filterMap_congr fun l _ => ?_
  split <;> rfl

theorem pricedSum_weighed (r : QEntry → Rat × Option Str) (k : Str) (s : Option Str) (es : List QEntry) :
    pricedSum r k s es = (((es.flatMap (QEntry.weighed r k)).filter fun v => v.1.2 = s).map fun v => v.1.1).sum := by
  unfold pricedSum
  rw [← qweighed_moves, List.map_map]
  generalize es.flatMap (QEntry.weighed r k) = L
  induction L with
  | nil => rfl
  | cons v L ih =>
    rw [List.map_cons, List.sum_cons, ih, List.filter_cons]
    by_cases h : v.1.2 = s
    · simp [h]
    · simp [h]

/-- What is printed for the account in the currency. -/
theorem weighed_shown {L : List ((Rat × Option Str) × Rat)} {as : List (Amount F64)}
    (hs : ∀ s, ((L.filter fun v => v.1.2 = s).length + 3) * ((L.filter fun v => v.1.2 = s).map Prod.snd).sum * 100000000 ≤
      (2 ^ 51 : Rat)) (hn : List.Forall₂ ReadAs as L) (ms : List (Amount F64)) (hp : ms.Perm as) (a : Amount F64)
    (ha : a ∈ ms.foldl Pool.add []) :
    (round8 a.mag).finite = true ∧ ∃ d k' neg, IsNumeral (Mag.fmt (round8 a.mag)) neg d k' ∧
      Mag.parse (Mag.fmt (round8 a.mag)) = some ((L.filter fun v => v.1.2 = a.sym).map fun v => v.1.1).sum := by
  obtain ⟨p1, p2, p3⟩ := parts_near a.sym _ _ hn
  have hperm : (partsOf a.sym ms).Perm (partsOf a.sym as) := (hp.filter _).map _
  obtain ⟨ts, t1, t2⟩ := List.perm_comp_forall₂ hperm p1
  have e0 : a.mag = sumF (partsOf a.sym ms) := by
    have e1 : ((ms.foldl Pool.add []).only a.sym).mag = a.mag := by
      have := line_of_mem _ (pool_syms ms).1 a ha
      unfold Pool.line at this
      unfold Pool.only
      rw [this]; rfl
    rw [← e1, plus_runAll, only_parts, plus_parts]
    cases partsOf a.sym ms <;> rfl
  have hlen := t2.length_eq
  have hfst := (t2.map Prod.fst).sum_eq
  have hsnd := (t2.map Prod.snd).sum_eq
  rw [List.length_map] at hlen
  rw [List.map_map] at hfst hsnd
  have hb : (ts.length + 3) * (ts.map Prod.snd).sum ≤ 2 ^ 51 := by
    have := hs a.sym
    rw [mul_assoc, p3, ← hlen] at this
    rw [hsnd]
    exact_mod_cast this
  obtain ⟨r1, neg, r2, r3⟩ := sumF_shown _ ts t1 hb
  obtain ⟨d, k', q1, q2⟩ := shows_rat r2
  rw [← e0] at r1 q1 q2
  refine ⟨r1, d, k', neg, q1, ?_⟩
  rw [q2, ← r3, hfst]
  congr 1
  rw [div_eq_iff (by norm_num)]
  exact p2.symm

/-! ### C129 -/

/-- C129. What is printed, with doubles, on every such journal, also where entries are paid for in kind
(`C126_exact_rule`). -/
theorem C129_exact_rule (env : Env) (hord : FairOrder env.ord) (o : Outside) (w : World) (path : Str)
    (items all : List QItem) (n : Nat) (hroot : Holds w path items) (h : Spread (w.cdParent path) n items all)
    (hw : WellWritten env s%"%Y/%m/%d" [] all) (hfuel : n < o.fuel) (hfine : ∀ e ∈ QItem.entries all, e.Fine)
    (hseen : ∀ k, PricedBefore k (QItem.entries all)) (hsmall : ∀ k, LittleIn QEntry.booked k (QItem.entries all))
    (c : Str) (args : List Str) (fs : List Flag) (hc : c.head? = some 'b') (ha : Spelled fs args)
    (hj : journalFor o fs = some path) :
    ∃ w' out, mainProgram F64 env o (c :: args) w = (w', .ok out) ∧ w'.file = w.file ∧
      ExactReport QEntry.booked (QItem.entries all) (readReport out) := by
  obtain ⟨xs, l, g1, g2, g3, g4, _⟩ := spread_load (M := F64) hord hroot h hw hfuel
  have hes := wellWritten_entries env all _ _ hw
  have hnear := fun k => qall_near hes hfine k (hsmall k)
  obtain ⟨w', out, r1, r2, r3, r4, r5⟩ := qentries_report env hord o w _ xs g1 hes l path g4 g2 g3 c args fs hc ha hj
    (Or.inr fun k => ⟨hseen k, fun ms hp a ha => fmtOk_f64 (weighed_shown (hsmall k) (hnear k) ms hp a ha).1⟩)
  refine ⟨w', out, r1, r2, r3, r4, ?_⟩
  intro k ts hm
  obtain ⟨ms, hperm, h6⟩ := r5 k ts hm (hseen k)
  have hsyms := pool_syms ms
  refine ⟨(ms.foldl Pool.add []).map Amount.sym, hsyms.1, ?_, ?_⟩
  · intro s
    rw [hsyms.2 s, (hperm.map Amount.sym).mem_iff]
    have e1 : ((QItem.entries all).flatMap (QEntry.readMoves (M := F64) k)).map Amount.sym =
        ((QItem.entries all).flatMap (QEntry.moves QEntry.booked k)).map Prod.snd := by
      rw [← qweighed_moves, List.map_map]
      have := hnear k
      generalize (QItem.entries all).flatMap (QEntry.readMoves (M := F64) k) = as at this
      generalize (QItem.entries all).flatMap (QEntry.weighed QEntry.booked k) = bs at this
      induction this with
      | nil => rfl
      | cons h1 _ ih => rw [List.map_cons, List.map_cons, ih, h1.1]; rfl
    rw [e1]
    simp only [List.mem_map, List.mem_flatMap]
    constructor
    · rintro ⟨v, ⟨e, he, hv⟩, rfl⟩; exact ⟨e, he, v, hv, rfl⟩
    · rintro ⟨e, he, v, hv, rfl⟩; exact ⟨v, ⟨e, he, hv⟩, rfl⟩
  · rw [List.forall₂_map_right_iff]
    refine forall₂_strengthen h6 ?_
    intro t a ha ⟨ht, hq⟩
    obtain ⟨_, d, k', neg, q1, q2⟩ := weighed_shown (hsmall k) (hnear k) ms hperm a ha
    rw [ht, pricedSum_weighed]
    exact Amount.parse_display_as q1 q2 hq

theorem ExactReport.congr {r r' : QEntry → Rat × Option Str} {es : List QEntry} {report : List (Str × List Str)}
    (h : ExactReport r es report) (hr : ∀ e ∈ es, (∃ l ∈ e.lines, l.value = none) → r e = r' e) : ExactReport r' es report := by
  have hm : ∀ k, ∀ e ∈ es, e.moves r k = e.moves r' k := fun k e he => QEntry.moves_congr (hr e he) k
  have hs : ∀ k s, pricedSum r k s es = pricedSum r' k s es := by
    intro k s
    unfold pricedSum
    rw [List.flatMap_congr fun e he => hm k e he]
  refine ⟨h.sorted, h.accounts, fun k ts hk => ?_⟩
  obtain ⟨cs, c1, c2, c3⟩ := h.amounts k ts hk
  refine ⟨cs, c1, fun s => ?_, ?_⟩
  · rw [c2 s]
    constructor
    · rintro ⟨e, he, v, hv, rfl⟩; exact ⟨e, he, v, by rw [← hm k e he]; exact hv, rfl⟩
    · rintro ⟨e, he, v, hv, rfl⟩; exact ⟨e, he, v, by rw [hm k e he]; exact hv, rfl⟩
  · simpa only [hs] using c3

/-- C129. With doubles, as the program has them: `silverfox balance` on a journal kept in several files of one directory,
with prices, totals, asserted balances, payees and date formats, of amounts of at most eight decimals, no account left blank
before it has occurred on an earlier day, no entry paid for in kind, and small enough, prints exactly the sums. -/
theorem C129_priced_exact (env : Env) (hord : FairOrder env.ord) (o : Outside) (w : World) (path : Str)
    (items all : List QItem) (n : Nat) (hroot : Holds w path items) (h : Spread (w.cdParent path) n items all)
    (hw : WellWritten env s%"%Y/%m/%d" [] all) (hkind : ∀ e ∈ QItem.entries all, ¬ e.PaidForInKind) (hfuel : n < o.fuel)
    (hfine : ∀ e ∈ QItem.entries all, e.Fine) (hseen : ∀ k, PricedBefore k (QItem.entries all))
    (hsmall : ∀ k, LittleIn QEntry.rest k (QItem.entries all))
    (c : Str) (args : List Str) (fs : List Flag) (hc : c.head? = some 'b') (ha : Spelled fs args)
    (hj : journalFor o fs = some path) :
    ∃ w' out, mainProgram F64 env o (c :: args) w = (w', .ok out) ∧ w'.file = w.file ∧
      ExactReport QEntry.rest (QItem.entries all) (readReport out) := by
  have hrule : ∀ e ∈ QItem.entries all, (∃ l ∈ e.lines, l.value = none) → e.booked = e.rest := by
    intro e he hb
    obtain ⟨_, _, hok⟩ := wellWritten_entries env all _ _ hw e he
    exact QEntry.booked_eq_rest hb (hok.known hb).1 (hkind e he)
  obtain ⟨w', out, h1, h2, h3⟩ := C129_exact_rule env hord o w path items all n hroot h hw hfuel hfine hseen (by
    intro k
    have : (QItem.entries all).flatMap (QEntry.weighed QEntry.booked k) =
        (QItem.entries all).flatMap (QEntry.weighed QEntry.rest k) := by
      refine List.flatMap_congr fun e he => List.filterMap_congr fun l hl => ?_
      cases hv : l.value with
      | some v => rfl
      | none => rw [hrule e he ⟨l, hl, hv⟩]
    unfold LittleIn
    rw [this]
    exact hsmall k) c args fs hc ha hj
  exact ⟨w', out, h1, h2, h3.congr hrule⟩

/-! ### The journal in three files -/

/-- It is enough to look at all currencies together. -/
theorem little_of_all (r : QEntry → Rat × Option Str) (k : Str) (es : List QEntry)
    (h : ((es.flatMap fun e => e.lines.filterMap fun l => if l.account = k then some (e.weight l) else none).length + 3) *
      (es.flatMap fun e => e.lines.filterMap fun l => if l.account = k then some (e.weight l) else none).sum * 100000000 ≤
        (2 ^ 51 : Rat)) : LittleIn r k es := by
  have e : (es.flatMap fun e => e.lines.filterMap fun l => if l.account = k then some (e.weight l) else none) =
      (es.flatMap (QEntry.weighed r k)).map Prod.snd := by
    rw [List.map_flatMap]
    refine List.flatMap_congr fun e _ => ?_
    unfold QEntry.weighed
    rw [List.map_filterMap]
    refine List.filterMap_congr fun l _ => ?_
    split <;> rfl
  rw [e, List.length_map] at h
  have hnn : ∀ v ∈ es.flatMap (QEntry.weighed r k), 0 ≤ v.2 := by
    intro v hv
    obtain ⟨e, _, hv⟩ := List.mem_flatMap.1 hv
    exact qweight_nonneg r k e v hv
  intro s
  generalize es.flatMap (QEntry.weighed r k) = L at *
  have key : ((L.filter fun v => v.1.2 = s).map Prod.snd).sum ≤ (L.map Prod.snd).sum ∧
      0 ≤ ((L.filter fun v => v.1.2 = s).map Prod.snd).sum := by
    clear h e
    induction L with
    | nil => simp
    | cons v L ih =>
      obtain ⟨i1, i2⟩ := ih fun u hu => hnn u (by simp [hu])
      have h0 := hnn v (by simp)
      rw [List.filter_cons]
      split
      · simp only [List.map_cons, List.sum_cons]
        exact ⟨by linarith, by linarith⟩
      · simp only [List.map_cons, List.sum_cons]
        exact ⟨by linarith, i2⟩
  have hl : ((L.filter fun v => v.1.2 = s).length : Rat) ≤ L.length := by exact_mod_cast List.length_filter_le _ _
  refine le_trans (mul_le_mul_of_nonneg_right ?_ (by norm_num)) h
  exact mul_le_mul (by linarith) key.1 key.2 (by positivity)

/-- The journal of C128 meets the conditions; the blank line is worth 5 times 3.5 and 1. -/
example : (∀ e ∈ QItem.entries exThreeAll, e.Fine) ∧ (∀ k, PricedBefore k (QItem.entries exThreeAll)) ∧
    (∀ k, LittleIn QEntry.rest k (QItem.entries exThreeAll)) ∧
    ∃ out, (mainProgram F64 (stdEnv june15) exOutside [s%"balance", s%"-f", s%"j"] exThree).2 = .ok out ∧
      readReport out = [(s%"bank", [s%" 81.5"]), (s%"fee", [s%"-99"]), (s%"shares", [s%" 5 XYZ"])] := by
  have hmem : ∀ e ∈ QItem.entries exThreeAll, e = exOpening ∨ e = exDotted := by
    intro e he
    change e ∈ [exOpening, exDotted] at he
    simpa using he
  refine ⟨?_, ?_, ?_, by decide +kernel⟩
  · intro e he
    rcases hmem e he with rfl | rfl
    · have hno : ¬ ∃ l ∈ exOpening.lines, l.value = none := by decide +kernel
      refine ⟨?_, fun h => absurd h hno, fun h => absurd h hno, fun h => absurd h hno⟩
      intro v hv
      change v ∈ [((100 : Rat), (none : Option Str)), (-100, none)] at hv
      simp only [List.mem_cons, List.not_mem_nil, or_false] at hv
      rcases hv with rfl | rfl
      · exact ⟨10000000000, by norm_num⟩
      · exact ⟨-10000000000, by norm_num⟩
    · have hg : ∀ v ∈ exDotted.given, v = (5, some s%"XYZ") ∨ v = (1, none) := by decide +kernel
      refine ⟨?_, fun _ => ?_, fun _ => ?_, fun _ => ?_⟩
      · intro v hv
        rcases hg v hv with rfl | rfl
        · exact ⟨500000000, by norm_num⟩
        · exact ⟨100000000, by norm_num⟩
      · intro v hv
        rcases hg v hv with rfl | rfl
        · norm_num
        · norm_num
      · intro l hl c hc
        have : ∀ l ∈ exDotted.lines, ∀ c ∈ l.clauses, c.value.1 = 7 / 2 ∨ c.value.1 = 0 := by decide +kernel
        rcases this l hl c hc with h | h
        · rw [h]; exact ⟨⟨350000000, by norm_num⟩, by norm_num⟩
        · rw [h]; exact ⟨⟨0, by norm_num⟩, by norm_num⟩
      · intro l hl q hq
        have : ∀ l ∈ exDotted.lines, l.home = some (35 / 2) ∨ l.home = some 1 ∨ l.home = none := by decide +kernel
        rcases this l hl with h | h | h
        · rw [h] at hq; cases hq; exact ⟨1750000000, by norm_num⟩
        · rw [h] at hq; cases hq; exact ⟨100000000, by norm_num⟩
        · rw [h] at hq; cases hq
  · have h1 : PricedBefore s%"bank" (QItem.entries exThreeAll) := by unfold PricedBefore; decide +kernel
    have h3 : ∀ e ∈ QItem.entries exThreeAll, ∀ l ∈ e.lines, l.value = none → l.account = s%"bank" := by decide +kernel
    intro k e he ⟨l, hl, hk, hv⟩
    have := h3 e he l hl hv
    have h2 := h1 e he ⟨l, hl, this, hv⟩
    rw [← hk, this]; exact h2
  · intro k
    apply little_of_all
    by_cases h1 : k = s%"bank"
    · subst h1; decide +kernel
    · by_cases h2 : k = s%"fee"
      · subst h2; decide +kernel
      · by_cases h3 : k = s%"shares"
        · subst h3; decide +kernel
        · have : ∀ e ∈ QItem.entries exThreeAll, ∀ l ∈ e.lines,
              l.account = s%"bank" ∨ l.account = s%"fee" ∨ l.account = s%"shares" := by decide +kernel
          have e : ((QItem.entries exThreeAll).flatMap fun e => e.lines.filterMap fun l =>
              if l.account = k then some (e.weight l) else none) = [] := by
            rw [List.flatMap_eq_nil_iff]
            intro e he
            rw [List.filterMap_eq_nil_iff]
            intro l hl
            refine if_neg ?_
            rcases this e he l hl with h | h | h <;> rw [h] <;> exact Ne.symm ‹_›
          rw [e]; norm_num

/-- A tenth of a share at seventy cents is seven cents, although the doubles give 0.06999999999999999. -/
example : (F64.parse s%"0.1").bind (fun x => (F64.parse s%"0.7").map fun y => F64.fmt (F64.mul x y)) =
      some s%"0.06999999999999999" ∧
    ∃ out, (mainProgram F64 (stdEnv june15) exOutside [s%"balance", s%"-f", s%"j"]
      (disk [("j", "account a\naccount b\naccount c\n2024/01/02 * x\n b 1\n a -1\n2024/01/03 * y\n a 0.1 X @ 0.7\n c 0.1\n b\n")])).2
        = .ok out ∧
      readReport out = [(s%"a", [s%"-1", s%"X 0.1"]), (s%"b", [s%" 0.83"]), (s%"c", [s%" 0.1"])] := by decide +kernel

end Silverfox
