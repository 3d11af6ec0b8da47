import Verif.Mag
import Mathlib.Tactic.Linarith
import Mathlib.Tactic.FieldSimp
import Mathlib.Tactic.Ring
import Mathlib.Algebra.Order.Field.Rat

/-
Decimal numerals: reading and writing.
-/

namespace Silverfox

/-! ### Digits -/

theorem digitChar (d : Nat) (h : d < 10) :
    isDigit (Char.ofNat (48 + d)) = true ∧ (Char.ofNat (48 + d)).toNat - 48 = d := by
  revert d
  decide

theorem digitsVal_snoc (s : Str) (c : Char) : digitsVal (s ++ [c]) = 10 * digitsVal s + (c.toNat - 48) := by
  simp [digitsVal, List.foldl_append]

theorem digitsVal_zeros (k : Nat) (s : Str) : digitsVal (List.replicate k '0' ++ s) = digitsVal s := by
  induction k with
  | zero => rfl
  | succ k ih =>
    rw [List.replicate_succ, List.cons_append]
    have : digitsVal ('0' :: (List.replicate k '0' ++ s)) = digitsVal (List.replicate k '0' ++ s) := by
      simp [digitsVal]
    rw [this, ih]

theorem natStrGo_spec (f n : Nat) (acc : Str) (h : n < f) :
    ∃ ds, natStrGo f n acc = ds ++ acc ∧ ds ≠ [] ∧ (∀ c ∈ ds, isDigit c = true) ∧ digitsVal ds = n := by
  induction f generalizing n acc with
  | zero => omega
  | succ f ih =>
    obtain ⟨h1, h2⟩ := digitChar (n % 10) (Nat.mod_lt _ (by omega))
    simp only [natStrGo]
    split
    · rename_i h0
      refine ⟨[Char.ofNat (48 + n % 10)], rfl, by simp, by simpa using h1, ?_⟩
      have : digitsVal [Char.ofNat (48 + n % 10)] = (Char.ofNat (48 + n % 10)).toNat - 48 := by
        simp [digitsVal]
      rw [this, h2]
      omega
    · rename_i h0
      obtain ⟨ds, e1, e2, e3, e4⟩ := ih (n / 10) (Char.ofNat (48 + n % 10) :: acc) (by omega)
      refine ⟨ds ++ [Char.ofNat (48 + n % 10)], by rw [e1]; simp, by simp, ?_, ?_⟩
      · intro c hc
        rcases List.mem_append.1 hc with hc | hc
        · exact e3 c hc
        · simp at hc; rw [hc]; exact h1
      · rw [digitsVal_snoc, e4, h2]; omega

theorem natStr_spec (n : Nat) : natStr n ≠ [] ∧ (∀ c ∈ natStr n, isDigit c = true) ∧ digitsVal (natStr n) = n := by
  obtain ⟨ds, h1, h2, h3, h4⟩ := natStrGo_spec (n + 1) n [] (by omega)
  unfold natStr
  rw [h1, List.append_nil]
  exact ⟨h2, h3, h4⟩

/-! ### Reading a numeral -/

/-- Specification: `s` is a decimal numeral for `± d / 10^k`: an optional minus, digits, and
optionally a dot and `k` more digits; at least one digit. -/
def IsNumeral (s : Str) (neg : Bool) (d k : Nat) : Prop :=
  ∃ ip fp : Str, (∀ c ∈ ip, isDigit c = true) ∧ (∀ c ∈ fp, isDigit c = true) ∧ ip ++ fp ≠ [] ∧
    d = digitsVal (ip ++ fp) ∧ k = fp.length ∧
    (s = (if neg then ['-'] else []) ++ ip ++ '.' :: fp ∨
      (fp = [] ∧ s = (if neg then ['-'] else []) ++ ip))

theorem isDigit_dash : isDigit '-' = false := by decide
theorem isDigit_dot : isDigit '.' = false := by decide

theorem takeWhile_digits {a b : Str} (ha : ∀ c ∈ a, isDigit c = true)
    (hb : b = [] ∨ ∃ c r, b = c :: r ∧ isDigit c = false) :
    (a ++ b).takeWhile isDigit = a ∧ (a ++ b).dropWhile isDigit = b := by
  induction a with
  | nil =>
    rcases hb with rfl | ⟨c, r, rfl, hc⟩
    · exact ⟨rfl, rfl⟩
    · simp [hc]
  | cons x a ih =>
    have hx := ha x (by simp)
    obtain ⟨h1, h2⟩ := ih fun c hc => ha c (by simp [hc])
    rw [List.cons_append]
    simp [hx, h1, h2]

theorem parseNumeral_iff (s : Str) (neg : Bool) (d k : Nat) :
    parseNumeral s = some (neg, d, k) ↔ IsNumeral s neg d k := by
  -- the part after the sign
  have key : ∀ r : Str, ∀ n : Bool,
      (match r.dropWhile isDigit with
        | [] => if (r.takeWhile isDigit).isEmpty then none else some (n, digitsVal (r.takeWhile isDigit), 0)
        | c :: fp =>
          if c = '.' ∧ fp.all isDigit ∧ ¬ ((r.takeWhile isDigit).isEmpty ∧ fp.isEmpty) then
            some (n, digitsVal (r.takeWhile isDigit ++ fp), fp.length)
          else none) = some (neg, d, k) ↔
      n = neg ∧ ∃ ip fp : Str, (∀ c ∈ ip, isDigit c = true) ∧ (∀ c ∈ fp, isDigit c = true) ∧
        ip ++ fp ≠ [] ∧ d = digitsVal (ip ++ fp) ∧ k = fp.length ∧
        (r = ip ++ '.' :: fp ∨ (fp = [] ∧ r = ip)) := by
    intro r n
    constructor
    · intro h
      have hr := List.takeWhile_append_dropWhile (p := isDigit) (l := r)
      have hd : ∀ c ∈ r.takeWhile isDigit, isDigit c = true := fun c hc => by
        have := List.all_takeWhile (p := isDigit) (l := r)
        exact List.all_eq_true.1 this c hc
      generalize r.takeWhile isDigit = ip at h hr hd
      generalize r.dropWhile isDigit = rest at h hr
      cases rest with
      | nil =>
        simp only at h
        split at h
        · cases h
        · rename_i hne
          simp only [Option.some.injEq, Prod.mk.injEq] at h
          obtain ⟨h1, h2, h3⟩ := h
          refine ⟨h1, ip, [], hd, by simp, by simpa using hne, by simp [h2], by simp [← h3], Or.inr ⟨rfl, ?_⟩⟩
          rw [← hr]; simp
      | cons c fp =>
        simp only at h
        split at h
        · rename_i hc
          obtain ⟨rfl, h1, h2⟩ := hc
          simp only [Option.some.injEq, Prod.mk.injEq] at h
          obtain ⟨h3, h4, h5⟩ := h
          refine ⟨h3, ip, fp, hd, fun c hc => List.all_eq_true.1 h1 c hc, ?_, h4.symm, h5.symm, Or.inl hr.symm⟩
          intro e
          apply h2
          simp at e
          simp [e.1, e.2]
        · cases h
    · rintro ⟨rfl, ip, fp, h1, h2, h3, rfl, rfl, h4⟩
      rcases h4 with rfl | ⟨rfl, rfl⟩
      · obtain ⟨e1, e2⟩ := takeWhile_digits (b := '.' :: fp) h1 (Or.inr ⟨'.', fp, rfl, isDigit_dot⟩)
        rw [e1, e2]
        simp only
        rw [if_pos]
        refine ⟨by trivial, List.all_eq_true.2 h2, ?_⟩
        rintro ⟨e3, e4⟩
        apply h3
        simp at e3 e4
        simp [e3, e4]
      · obtain ⟨e1, e2⟩ := takeWhile_digits (b := []) h1 (Or.inl rfl)
        rw [List.append_nil] at e1 e2
        rw [e1, e2]
        simp only [List.append_nil] at h3 ⊢
        rw [if_neg (by simpa using h3)]
        rfl
  have hform : ∀ n : Bool, ∀ r : Str, IsNumeral ((if n then ['-'] else []) ++ r) n d k ↔
      ∃ ip fp : Str, (∀ c ∈ ip, isDigit c = true) ∧ (∀ c ∈ fp, isDigit c = true) ∧
        ip ++ fp ≠ [] ∧ d = digitsVal (ip ++ fp) ∧ k = fp.length ∧
        (r = ip ++ '.' :: fp ∨ (fp = [] ∧ r = ip)) := by
    intro n r
    unfold IsNumeral
    simp only [List.append_assoc, List.append_cancel_left_eq]
  unfold parseNumeral
  split
  rename_i n r hsplit
  split at hsplit
  · -- a minus
    rename_i r'
    cases hsplit
    refine (key r true).trans ?_
    cases neg with
    | true => rw [← hform true r]; simp
    | false =>
      simp only [Bool.true_eq_false, false_and, false_iff]
      rintro ⟨ip, fp, h1, h2, h3, _, _, h4⟩
      simp only [Bool.false_eq_true, if_false, List.nil_append] at h4
      rcases h4 with h4 | ⟨_, h4⟩
      · cases ip with
        | nil => simp at h4
        | cons c ip =>
          simp only [List.cons_append, List.cons.injEq] at h4
          have := h1 c (by simp)
          rw [← h4.1, isDigit_dash] at this; cases this
      · cases ip with
        | nil => cases h4
        | cons c ip =>
          simp only [List.cons.injEq] at h4
          have := h1 c (by simp)
          rw [← h4.1, isDigit_dash] at this; cases this
  · -- no minus
    rename_i hno
    cases hsplit
    refine (key s false).trans ?_
    cases neg with
    | false =>
      have := hform false s
      simp only [Bool.false_eq_true, if_false, List.nil_append] at this
      rw [this]
      simp
    | true =>
      simp only [Bool.false_eq_true, false_and, false_iff]
      rintro ⟨ip, fp, _, _, _, _, _, h4⟩
      simp only [if_true, List.cons_append, List.nil_append] at h4
      rcases h4 with h4 | ⟨_, h4⟩
      · exact hno _ h4
      · exact hno _ h4

/-! ### Writing a numeral -/

theorem renderSigned_numeral (neg : Bool) (d k : Nat) : IsNumeral (F64.renderSigned neg d k) neg d k := by
  obtain ⟨h1, h2, h3⟩ := natStr_spec d
  unfold F64.renderSigned renderDec
  by_cases hk : k = 0
  · subst hk
    rw [if_pos rfl]
    exact ⟨natStr d, [], h2, by simp, by simpa using h1, by simp [h3], rfl, Or.inr ⟨rfl, rfl⟩⟩
  · rw [if_neg hk]
    simp only
    generalize hds : List.replicate (k + 1 - (natStr d).length) '0' ++ natStr d = ds
    have hlen : k + 1 ≤ ds.length := by rw [← hds]; simp; omega
    have hdig : ∀ c ∈ ds, isDigit c = true := by
      intro c hc
      rw [← hds] at hc
      rcases List.mem_append.1 hc with hc | hc
      · rw [List.eq_of_mem_replicate hc]; decide
      · exact h2 c hc
    have hval : digitsVal ds = d := by rw [← hds, digitsVal_zeros, h3]
    refine ⟨ds.take (ds.length - k), ds.drop (ds.length - k), fun c hc => hdig c (List.mem_of_mem_take hc),
      fun c hc => hdig c (List.mem_of_mem_drop hc), ?_, ?_, ?_, Or.inl ?_⟩
    · rw [List.take_append_drop]; intro e; rw [e] at hlen; simp at hlen
    · rw [List.take_append_drop, hval]
    · rw [List.length_drop]; omega
    · simp

/-- The letters of numerals, and where the minus can stand. -/
theorem IsNumeral.chars {s : Str} {neg : Bool} {d k : Nat} (h : IsNumeral s neg d k) :
    s ≠ [] ∧ ∃ r, s = (if neg then ['-'] else []) ++ r ∧ ∀ c ∈ r, isDigit c = true ∨ c = '.' := by
  obtain ⟨ip, fp, h1, h2, h3, _, _, h4⟩ := h
  rcases h4 with rfl | ⟨rfl, rfl⟩
  · refine ⟨by simp, ip ++ '.' :: fp, by simp, ?_⟩
    intro c hc
    rcases List.mem_append.1 hc with hc | hc
    · exact Or.inl (h1 c hc)
    · rcases List.mem_cons.1 hc with rfl | hc
      · exact Or.inr rfl
      · exact Or.inl (h2 c hc)
  · rw [List.append_nil] at h3
    exact ⟨by simp [h3], ip, rfl, fun c hc => Or.inl (h1 c hc)⟩

/-! ### Doubles -/

theorem rne_mul (n k : Nat) (h : 0 < k) : rne (n * k) k = n := by
  unfold rne
  simp only [Nat.mul_mod_left, Nat.mul_div_cancel _ h]
  rw [if_pos (by omega)]

theorem roundQ_exact (n k : Nat) (h : 0 < k) (hr : rep n = true) : roundQ (n * k) k = n := by
  unfold roundQ
  rw [Nat.mul_div_cancel _ h]
  have hdvd : n % 2 ^ ulpExp n = 0 := by
    unfold rep at hr
    simp only [Bool.and_eq_true, beq_iff_eq] at hr
    exact hr.1
  obtain ⟨m, hm⟩ := Nat.dvd_of_mod_eq_zero hdvd
  have hp : 0 < 2 ^ ulpExp n := Nat.pow_pos (by omega)
  have e : n * k = m * (k * 2 ^ ulpExp n) := by
    conv => lhs; rw [hm]
    ring
  rw [e, rne_mul _ _ (Nat.mul_pos h hp), Nat.mul_comm]
  exact hm.symm

theorem mkRound_exact (neg : Bool) (n k : Nat) (h : 0 < k) (hr : rep n = true) :
    F64.mkRound neg (n * k) k = .fin neg n hr := by
  unfold F64.mkRound
  simp only [roundQ_exact n k h hr]
  rw [dif_pos hr]

/-- A finite double. -/
def F64.finite : F64 → Bool
  | .fin _ _ _ => true
  | _ => false

/-- Some text of the value, for every finite double. -/
theorem F64.fmt_numeral (x : F64) (h : x.finite = true) :
    ∃ neg d k, IsNumeral (F64.fmt x) neg d k ∧ F64.parse (F64.fmt x) = some x := by
  cases x with
  | nan => cases h
  | inf s => cases h
  | fin s n hr =>
    unfold F64.fmt
    simp only
    split
    · rename_i h0
      subst h0
      have hp : ∀ t : Str, ∀ neg, parseNumeral t = some (neg, 0, 0) → F64.parse t = some (.fin neg 0 hr) := by
        intro t neg e
        unfold F64.parse
        rw [e]
        simp only [Option.map_some, Option.some.injEq]
        have := mkRound_exact neg 0 (10 ^ 0) (by decide) hr
        rw [Nat.zero_mul] at this ⊢
        exact this
      cases s with
      | true =>
        have e : parseNumeral s%"-0" = some (true, 0, 0) := by decide
        exact ⟨true, 0, 0, (parseNumeral_iff _ _ _ _).1 e, hp _ _ e⟩
      | false =>
        have e : parseNumeral s%"0" = some (false, 0, 0) := by decide
        exact ⟨false, 0, 0, (parseNumeral_iff _ _ _ _).1 e, hp _ _ e⟩
    · -- every candidate is checked
      have hcand : ∀ d k t, F64.tryCand (.fin s n hr) s d k = some t →
          ∃ neg d k, IsNumeral t neg d k ∧ F64.parse t = some (.fin s n hr) := by
        intro d k t ht
        unfold F64.tryCand at ht
        simp only at ht
        generalize F64.dropZero d k = dk at ht
        generalize hu : F64.renderSigned s (if dk.2 < 0 then dk.1 * 10 ^ dk.2.natAbs else dk.1) dk.2.toNat = u at ht
        by_cases hp : F64.parse u = some (.fin s n hr)
        · rw [if_pos hp, Option.some.injEq] at ht
          subst ht
          exact ⟨_, _, _, hu ▸ renderSigned_numeral _ _ _, hp⟩
        · rw [if_neg hp] at ht
          cases ht
      have hdig : ∀ p t, F64.tryDigits (.fin s n hr) s n p = some t →
          ∃ neg d k, IsNumeral t neg d k ∧ F64.parse t = some (.fin s n hr) := by
        intro p t ht
        unfold F64.tryDigits at ht
        simp only at ht
        split at ht
        · rcases Option.or_eq_some_iff.1 ht with h | ⟨_, h⟩
          · exact hcand _ _ _ h
          · exact hcand _ _ _ h
        · rcases Option.or_eq_some_iff.1 ht with h | ⟨_, h⟩
          · exact hcand _ _ _ h
          · exact hcand _ _ _ h
      have hsearch : ∀ f p t, F64.searchDigits (.fin s n hr) s n f p = some t →
          ∃ neg d k, IsNumeral t neg d k ∧ F64.parse t = some (.fin s n hr) := by
        intro f
        induction f with
        | zero => intro p t ht; cases ht
        | succ f ih =>
          intro p t ht
          unfold F64.searchDigits at ht
          rcases Option.or_eq_some_iff.1 ht with h | ⟨_, h⟩
          · exact hdig _ _ h
          · exact ih _ _ h
      cases hs : F64.searchDigits (.fin s n hr) s n 17 1 with
      | some t => exact hsearch _ _ _ hs
      | none =>
        simp only
        refine ⟨s, n * 5 ^ 1074, 1074, renderSigned_numeral _ _ _, ?_⟩
        unfold F64.parse
        rw [(parseNumeral_iff _ _ _ _).2 (renderSigned_numeral _ _ _)]
        simp only [Option.map_some, Option.some.injEq]
        have : n * 5 ^ 1074 * F64.unit = n * 10 ^ 1074 := by
          unfold F64.unit
          rw [Nat.mul_assoc, ← Nat.mul_pow]
        rw [this]
        exact mkRound_exact s n (10 ^ 1074) (Nat.pow_pos (by omega)) hr

/-! ### Exact numbers -/

theorem stripZeros_spec (d k : Nat) : (stripZeros d k).1 * 10 ^ k = d * 10 ^ (stripZeros d k).2 := by
  induction k generalizing d with
  | zero => simp [stripZeros]
  | succ k ih =>
    simp only [stripZeros]
    split
    · rename_i h
      have := ih (d / 10)
      have hd : d = 10 * (d / 10) := by omega
      calc (stripZeros (d / 10) k).1 * 10 ^ (k + 1) = 10 * ((stripZeros (d / 10) k).1 * 10 ^ k) := by ring
        _ = 10 * (d / 10 * 10 ^ (stripZeros (d / 10) k).2) := by rw [this]
        _ = (10 * (d / 10)) * 10 ^ (stripZeros (d / 10) k).2 := by ring
        _ = d * 10 ^ (stripZeros (d / 10) k).2 := by rw [← hd]
    · rfl

theorem ratRound_int (i : Int) : ratRound (i : Rat) = i := by
  unfold ratRound
  have key : ∀ j : Int, ((j : Rat) + 1 / 2).floor = j := by
    intro j
    apply le_antisymm
    · have : ((j : Rat) + 1 / 2) < ((j + 1 : Int) : Rat) := by push_cast; linarith
      have h2 := Rat.floor_lt_iff.2 this
      omega
    · exact Rat.le_floor_iff.2 (by linarith)
  split
  · have := key (-i)
    push_cast at this
    rw [this]; omega
  · exact key i

/-- The text of a multiple of 10^-8 reads back as that number. -/
theorem ratFmt_numeral (i : Int) :
    (∃ neg d k, IsNumeral (ratFmt ((i : Rat) / 100000000)) neg d k) ∧
      ratParse (ratFmt ((i : Rat) / 100000000)) = some ((i : Rat) / 100000000) := by
  have h0 : ratFmt ((i : Rat) / 100000000) =
      F64.renderSigned (decide (i < 0)) (stripZeros i.natAbs 8).1 (stripZeros i.natAbs 8).2 := by
    unfold ratFmt F64.renderSigned
    have : (i : Rat) / 100000000 * 100000000 = i := by
      field_simp
    rw [this, ratRound_int]
    simp
  rw [h0]
  refine ⟨⟨_, _, _, renderSigned_numeral _ _ _⟩, ?_⟩
  unfold ratParse
  rw [(parseNumeral_iff _ _ _ _).2 (renderSigned_numeral _ _ _)]
  simp only [Option.map_some, Option.some.injEq]
  have hs := stripZeros_spec i.natAbs 8
  generalize stripZeros i.natAbs 8 = p at hs
  obtain ⟨d, k⟩ := p
  simp only at hs ⊢
  have hs' : (d : Rat) * 10 ^ 8 = (i.natAbs : Rat) * 10 ^ k := by exact_mod_cast hs
  have hk : (10 : Rat) ^ k ≠ 0 := by positivity
  have hv : (d : Rat) / ((10 ^ k : Nat) : Rat) = (i.natAbs : Rat) / 100000000 := by
    push_cast
    field_simp
    linarith
  rw [hv]
  by_cases hi : i < 0
  · have : (i.natAbs : Int) = -i := by omega
    have : ((i.natAbs : Int) : Rat) = ((-i : Int) : Rat) := by rw [this]
    have : (i.natAbs : Rat) = -(i : Rat) := by
      rw [← Int.cast_natCast, this]; push_cast; rfl
    simp only [hi, decide_true, if_true, this]
    ring
  · have : (i.natAbs : Int) = i := by omega
    have : ((i.natAbs : Int) : Rat) = (i : Rat) := by rw [this]
    have : (i.natAbs : Rat) = (i : Rat) := by
      rw [← Int.cast_natCast, this]
    simp [hi, this]

end Silverfox
