import Verif.Props.Filling
import Verif.Props.FloatSums

/-
C39 in doubles: several fills of one account.
-/

namespace Silverfox

set_option linter.unusedSectionVars false

theorem F64.finite_of_bounds {a b : F64} (h0 : F64.Le F64.zero a) (h1 : F64.Le a b) (hb : b.finite = true) :
    a.finite = true := by
  cases a with
  | nan => have := h0.2.1; simp [F64.isNan] at this
  | fin s n h => rfl
  | inf s =>
    cases s with
    | true => have := h0.2.2; simp [F64.zero, F64.zeroS, F64.lt] at this
    | false =>
      cases b with
      | nan => cases hb
      | inf t => cases hb
      | fin t m h => have := h1.2.2; simp [F64.lt] at this

theorem F64.le_iff_value {a b : F64} (ha : a.finite = true) (hb : b.finite = true) :
    F64.Le a b ↔ a.value ≤ b.value := by
  cases a with
  | nan => cases ha
  | inf s => cases ha
  | fin s n h =>
    cases b with
    | nan => cases hb
    | inf s => cases hb
    | fin t m h' =>
      have hu : (0 : Rat) < F64.unit := by exact_mod_cast unit_pos
      rw [F64.value_fin, F64.value_fin, div_le_div_iff_of_pos_right hu, Int.cast_le]
      simp [F64.Le, F64.isNan, F64.lt]

theorem F64.value_zero : F64.zero.value = 0 := by
  simp [F64.zero, F64.zeroS, F64.value]

/-- What is left of a currency after taking an amount of it out of a pool. -/
theorem only_subAssign_same (p : Pool F64) (a : Amount F64) :
    (((Pool.subAssign p a).only a.sym).mag = F64.sub (p.only a.sym).mag a.mag) ∨
    ((p.only a.sym).mag = F64.zero ∧ ((Pool.subAssign p a).only a.sym).mag = F64.neg a.mag) := by
  have h := Pool.line_subAssign p a a.sym
  unfold Pool.line at h
  unfold Pool.only
  simp only [PoolOp.spec, if_true] at h
  cases hp : List.find? (fun x => x.sym == a.sym) p with
  | none =>
    rw [hp] at h
    right
    cases hq : List.find? (fun x => x.sym == a.sym) (Pool.subAssign p a) with
    | none => rw [hq] at h; simp at h
    | some y =>
      rw [hq] at h
      simp only [Option.map_some, Option.map_none, Option.some.injEq] at h
      exact ⟨rfl, h⟩
  | some x =>
    rw [hp] at h
    left
    cases hq : List.find? (fun x => x.sym == a.sym) (Pool.subAssign p a) with
    | none => rw [hq] at h; simp at h
    | some y =>
      rw [hq] at h
      simp only [Option.map_some, Option.some.injEq] at h
      exact h

theorem only_subAssign_other (p : Pool F64) (a : Amount F64) (s : Option Str) (hs : a.sym ≠ s) :
    ((Pool.subAssign p a).only s).mag = (p.only s).mag := by
  have h := Pool.line_subAssign p a s
  unfold Pool.line at h
  unfold Pool.only
  simp only [PoolOp.spec, if_neg hs] at h
  cases hp : List.find? (fun x => x.sym == s) p <;>
    cases hq : List.find? (fun x => x.sym == s) (Pool.subAssign p a) <;>
    rw [hp, hq] at h <;> simp_all

/-- The amounts of currency `s` among the fills. -/
def fillsF (s : Option Str) (ps : List (EnvPosting F64)) : List F64 :=
  (ps.filter fun p => p.amount.sym = s).map fun p => p.amount.mag

/-- The envelope is not overdrawn, as far as the program can tell. -/
def Envelope.InCredit (e : Envelope F64) : Prop := F64.Le F64.zero (F64.add e.now.mag e.next.mag)

/-- One step: taking `x`, at most `r`, out of `r`. -/
theorem left_over (p : Pool F64) (a : Amount F64) (hr : (p.only a.sym).mag.finite = true)
    (h0 : F64.Le F64.zero a.mag) (h1 : F64.Le a.mag (p.only a.sym).mag)
    (hb : (p.only a.sym).mag.value ≤ 2 ^ 1023) :
    ((Pool.subAssign p a).only a.sym).mag.finite = true ∧
    0 ≤ ((Pool.subAssign p a).only a.sym).mag.value ∧
    ((Pool.subAssign p a).only a.sym).mag.value ≤
      ((p.only a.sym).mag.value - a.mag.value) * (1 + 1 / 2 ^ 53) := by
  have hf := F64.finite_of_bounds h0 h1 hr
  have v0 := (F64.le_iff_value (by rfl) hf).1 h0
  have v1 := (F64.le_iff_value hf hr).1 h1
  rw [F64.value_zero] at v0
  rcases only_subAssign_same p a with h | ⟨hz, h⟩
  · rw [h]
    have hn := F64.finite_neg a.mag
    rw [hf] at hn
    have hv : (p.only a.sym).mag.value + (F64.neg a.mag).value = (p.only a.sym).mag.value - a.mag.value := by
      rw [F64.value_neg]; ring
    have habs : |(p.only a.sym).mag.value + (F64.neg a.mag).value| = (p.only a.sym).mag.value - a.mag.value := by
      rw [hv, abs_of_nonneg (by linarith)]
    obtain ⟨e1, e2⟩ := add_err (p.only a.sym).mag (F64.neg a.mag) hr hn (by rw [habs]; exact le_trans (by linarith) hb)
    rw [habs, hv, abs_le] at e2
    have hd : 0 ≤ (p.only a.sym).mag.value - a.mag.value := by linarith
    have hs : F64.sub (p.only a.sym).mag a.mag = F64.add (p.only a.sym).mag (F64.neg a.mag) := rfl
    rw [hs]
    refine ⟨e1, ?_, ?_⟩
    · have : ((p.only a.sym).mag.value - a.mag.value) / 2 ^ 53 ≤ (p.only a.sym).mag.value - a.mag.value :=
        div_le_self hd (by norm_num)
      linarith [e2.1]
    · have := e2.2
      rw [mul_add, mul_one, mul_one_div]
      linarith
  · rw [hz, F64.value_zero] at v1 ⊢
    rw [h, F64.finite_neg, F64.value_neg]
    have hx : a.mag.value = 0 := le_antisymm v1 v0
    rw [hx]
    refine ⟨hf, by norm_num, by norm_num⟩

theorem double_bound (x B q : Rat) (h0 : 0 ≤ x) (hb : x ≤ B) (hq0 : 0 ≤ q) (hq : q ≤ 1) :
    x * (1 + q) ≤ B * 2 :=
  mul_le_mul hb (by linarith) (by linarith) (by linarith)

theorem two_thousand : (2 : Rat) ^ 1000 * 2 ≤ 2 ^ 1023 := by
  have h : ∀ n m : Nat, n < m → (2 : Rat) ^ n * 2 ≤ 2 ^ m := by
    intro n m h
    rw [← pow_succ]
    exact pow_le_pow_right₀ (by norm_num) h
  exact h 1000 1023 (by norm_num)

/-- C39 in doubles, for all fills of an account. If no envelope is overdrawn and what is available of a
currency is not negative, every fill in that currency is a finite number, not negative, and together
they take, up to a rounding error of one part in 2^52 per envelope, at most what is available. -/
theorem C39_float_fills_partial (today : Date) (a : Account F64) (ps : List (EnvPosting F64)) (s : Option Str)
    (hpos : ∀ e ∈ a.envelopes, e.InCredit)
    (hf : (a.available.only s).mag.finite = true) (h0 : F64.Le F64.zero (a.available.only s).mag)
    (hb : (a.available.only s).mag.value ≤ 2 ^ 1000) (hn : a.envelopes.length ≤ 2 ^ 52)
    (h : a.fillingPostings today = .ok ps) :
    (∀ x ∈ fillsF s ps, x.finite = true ∧ 0 ≤ x.value) ∧
    exactSum (fillsF s ps) ≤ (a.available.only s).mag.value * (1 + a.envelopes.length / 2 ^ 52) := by
  have key : ∀ (es : List (Envelope F64)) (avail : Pool F64) (ps : List (EnvPosting F64)),
      (∀ e ∈ es, e.InCredit) → (avail.only s).mag.finite = true → 0 ≤ (avail.only s).mag.value →
      (avail.only s).mag.value * (1 + 1 / 2 ^ 53) ^ es.length ≤ 2 ^ 1023 →
      Account.fillLoop today es avail = .ok ps →
      (∀ x ∈ fillsF s ps, x.finite = true ∧ 0 ≤ x.value) ∧
      exactSum (fillsF s ps) ≤ (avail.only s).mag.value * (1 + 1 / 2 ^ 53) ^ es.length := by
    intro es
    induction es with
    | nil =>
      intro avail ps _ hf h0 _ h
      cases h
      refine ⟨by simp [fillsF], ?_⟩
      simpa [fillsF, exactSum] using h0
    | cons e es ih =>
      intro avail ps hpos hf h0 hb h
      obtain ⟨p, ps', rfl, hp, hps⟩ := fillLoop_cons today e es avail ps h
      obtain ⟨_, _, hfill⟩ := fillingPosting_ok _ _ _ _ hp
      have hs := C37_fill_currency _ _ _ _ hfill
      have hq1 : (1 : Rat) ≤ (1 + 1 / 2 ^ 53) ^ es.length := one_le_pow₀ (by norm_num)
      have hq : (1 : Rat) ≤ 1 + 1 / 2 ^ 53 := by norm_num
      rw [List.length_cons, pow_succ] at hb ⊢
      generalize hQ : (1 + 1 / 2 ^ 53 : Rat) ^ es.length = Q at *
      have hge : (avail.only s).mag.value ≤ (avail.only s).mag.value * (Q * (1 + 1 / 2 ^ 53)) :=
        le_mul_of_one_le_right h0 (one_le_mul_of_one_le_of_one_le hq1 hq)
      by_cases hsym : p.amount.sym = s
      · have hle : F64.Le p.amount.mag (avail.only p.amount.sym).mag := by
          have hc := hpos e (by simp)
          rw [hs]
          refine C39_float_single_fill_partial today e _ _ hc.2.2 hc.2.1 ?_ hfill
          rw [← hs, hsym]
          exact (F64.le_iff_value (by rfl) hf).2 (by rw [F64.value_zero]; exact h0)
        have hnn := C37_fill_never_negative _ _ _ _ hfill
        obtain ⟨l1, l2, l3⟩ := left_over avail p.amount (by rw [hsym]; exact hf) hnn hle
          (by rw [hsym]; exact le_trans hge hb)
        have hxf := F64.finite_of_bounds hnn hle (by rw [hsym]; exact hf)
        have hxv := (F64.le_iff_value (by rfl) hxf).1 hnn
        have hxr := (F64.le_iff_value hxf (by rw [hsym]; exact hf)).1 hle
        rw [F64.value_zero] at hxv
        rw [hsym] at l1 l2 l3 hxr
        have hstep : ((Pool.subAssign avail p.amount).only s).mag.value * Q ≤
            ((avail.only s).mag.value - p.amount.mag.value) * (Q * (1 + 1 / 2 ^ 53)) := by
          have := mul_le_mul_of_nonneg_right l3 (by linarith : (0 : Rat) ≤ Q)
          linarith
        have hpq : (1 : Rat) ≤ Q * (1 + 1 / 2 ^ 53) := one_le_mul_of_one_le_of_one_le hq1 hq
        have hxq : p.amount.mag.value ≤ p.amount.mag.value * (Q * (1 + 1 / 2 ^ 53)) :=
          le_mul_of_one_le_right hxv hpq
        have hexp : ((avail.only s).mag.value - p.amount.mag.value) * (Q * (1 + 1 / 2 ^ 53)) =
            (avail.only s).mag.value * (Q * (1 + 1 / 2 ^ 53)) -
              p.amount.mag.value * (Q * (1 + 1 / 2 ^ 53)) := by ring
        obtain ⟨i1, i2⟩ := ih _ _ (fun e he => hpos e (by simp [he])) l1 l2
          (le_trans (le_trans hstep (by linarith)) hb) hps
        have hfl : fillsF s (p :: ps') = p.amount.mag :: fillsF s ps' := by
          simp [fillsF, hsym]
        rw [hfl]
        refine ⟨?_, ?_⟩
        · intro x hx
          rcases List.mem_cons.1 hx with rfl | hx
          · exact ⟨hxf, hxv⟩
          · exact i1 x hx
        · simp only [exactSum, List.map_cons, List.sum_cons] at i2 ⊢
          linarith
      · have hsame := only_subAssign_other avail p.amount s hsym
        have hr0 : (avail.only s).mag.value * Q ≤ (avail.only s).mag.value * (Q * (1 + 1 / 2 ^ 53)) :=
          mul_le_mul_of_nonneg_left (le_mul_of_one_le_right (by linarith) hq) h0
        obtain ⟨i1, i2⟩ := ih _ _ (fun e he => hpos e (by simp [he])) (by rw [hsame]; exact hf)
          (by rw [hsame]; exact h0) (by rw [hsame]; exact le_trans hr0 hb) hps
        have hfl : fillsF s (p :: ps') = fillsF s ps' := by simp [fillsF, hsym]
        rw [hfl]
        rw [hsame] at i2
        exact ⟨i1, by linarith⟩
  have v0 := (F64.le_iff_value (by rfl) hf).1 h0
  rw [F64.value_zero] at v0
  have hlen : a.envelopes.reverse.length = a.envelopes.length := List.length_reverse
  have hpow := pow_bound a.envelopes.length hn
  have hmul := mul_le_mul_of_nonneg_left hpow v0
  have hn' : (a.envelopes.length : Rat) / 2 ^ 52 ≤ 1 := by
    rw [div_le_one (by norm_num)]; exact_mod_cast hn
  obtain ⟨k1, k2⟩ := key a.envelopes.reverse a.available ps (fun e he => hpos e (by simpa using he)) hf v0
    (by
      rw [hlen]
      have h2 : (a.available.only s).mag.value * (1 + a.envelopes.length / 2 ^ 52) ≤ 2 ^ 1000 * 2 :=
        double_bound _ _ _ v0 hb (div_nonneg (Nat.cast_nonneg _) (pow_nonneg zero_le_two _)) hn'
      have h3 : (2 : Rat) ^ 1000 * 2 ≤ 2 ^ 1023 :=
        two_thousand
      exact le_trans (le_trans hmul h2) h3) h
  rw [hlen] at k2
  exact ⟨k1, by linarith⟩

/-- Two envelopes of 0.1 and 0.2 a month, funded at once, with 0.25 to share. -/
def exShare : Account F64 :=
  let e (n : Str) (m : F64) : Envelope F64 := ⟨n, ⟨m, none⟩, .expense, [], .monthly 15, .aggressive, none,
    ⟨F64.zero, none⟩, ⟨F64.zero, none⟩, s%"a", Date.zero⟩
  ⟨s%"a", [e s%"x" (F64.div (F64.ofInt 1) (F64.ofInt 10)), e s%"y" (F64.div (F64.ofInt 2) (F64.ofInt 10))], [],
    [⟨F64.div (F64.ofInt 1) (F64.ofInt 4), none⟩]⟩

example : (∀ e ∈ exShare.envelopes, e.InCredit) ∧ (exShare.available.only none).mag.finite = true ∧
    F64.Le F64.zero (exShare.available.only none).mag ∧
    (exShare.available.only none).mag.value = 1 / 4 ∧
    ∃ ps, exShare.fillingPostings june15 = .ok ps ∧ ((fillsF none ps).length = 2) := by
  unfold Envelope.InCredit
  decide +kernel

end Silverfox
