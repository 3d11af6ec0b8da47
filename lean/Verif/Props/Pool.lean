import Verif.Model.Amount
import Mathlib.Tactic.Ring
import Mathlib.Algebra.Order.Field.Rat
import Mathlib.Algebra.BigOperators.Group.List.Basic

/-
C01-C04: amounts and pools.
-/

namespace Silverfox

variable {M : Type} [Mag M]

/-! ### Specification -/

/-- The operations on a pool: `+= amount`, `-= amount`, `- amount`, `+= pool`. -/
inductive PoolOp (M : Type) where
  | plus (a : Amount M)
  | minusAssign (a : Amount M)
  | minus (a : Amount M)
  | plusPool (q : Pool M)

/-- The operation as silverfox performs it. -/
def PoolOp.run (p : Pool M) : PoolOp M → Pool M
  | .plus a => Pool.add p a
  | .minusAssign a => Pool.subAssign p a
  | .minus a => Pool.sub p a
  | .plusPool q => Pool.addPool p q

/-- The pool after a sequence of operations on an empty pool. -/
def PoolOp.runAll (ops : List (PoolOp M)) : Pool M := ops.foldl PoolOp.run []

/-- Specification: one amount added to the total of currency `s` (`none`: no amount so far). -/
def specAdd (s : Option Str) (t : Option M) (a : Amount M) : Option M :=
  if a.sym = s then some (match t with | none => a.mag | some m => Mag.add m a.mag) else t

/-- Specification: the effect of an operation on the total of currency `s` alone. -/
def PoolOp.spec (s : Option Str) (t : Option M) : PoolOp M → Option M
  | .plus a => specAdd s t a
  | .minusAssign a =>
    if a.sym = s then
      some (match t with | none => Mag.neg a.mag | some m => Mag.sub m a.mag) else t
  | .minus a => specAdd s t ⟨Mag.neg a.mag, a.sym⟩
  | .plusPool q => q.foldl (specAdd s) t

/-- Specification: the total of currency `s` after all operations. -/
def specTotal (s : Option Str) (ops : List (PoolOp M)) : Option M := ops.foldl (PoolOp.spec s) none

/-- Specification: the currencies an operation touches. -/
def PoolOp.touched : PoolOp M → List (Option Str)
  | .plus a => [a.sym]
  | .minusAssign a => [a.sym]
  | .minus a => [a.sym]
  | .plusPool q => q.map Amount.sym

/-- Appends an element that is not there yet. -/
def pushNew {α : Type} [DecidableEq α] (acc : List α) (a : α) : List α :=
  if a ∈ acc then acc else acc ++ [a]

/-- The distinct elements in order of first occurrence. -/
def firstSeen {α : Type} [DecidableEq α] (l : List α) : List α :=
  l.foldl pushNew []

/-! ### Lemmas -/

/-- The line of a currency, if any. -/
def Pool.line (p : Pool M) (s : Option Str) : Option (Amount M) := p.find? fun a => a.sym == s

omit [Mag M] in
theorem Pool.line_sym {p : Pool M} {s : Option Str} {a : Amount M} (h : p.line s = some a) :
    a.sym = s := by
  have := List.find?_some h
  simpa using this

theorem Pool.line_add (p : Pool M) (a : Amount M) (s : Option Str) :
    ((Pool.add p a).line s).map Amount.mag = specAdd s ((p.line s).map Amount.mag) a := by
  induction p with
  | nil => by_cases h : a.sym = s <;> simp [Pool.add, Pool.line, specAdd, h]
  | cons b p ih =>
    unfold Pool.line at ih
    by_cases hb : b.sym = a.sym
    · by_cases hs : a.sym = s
      · simp [Pool.add, Pool.line, specAdd, hb, hs]
      · simp [Pool.add, Pool.line, specAdd, hb, hs]
    · by_cases hs : b.sym = s
      · have : a.sym ≠ s := fun h => hb (hs.trans h.symm)
        have hc : ¬ s = a.sym := fun h => this h.symm
        simp [Pool.add, Pool.line, specAdd, hs, this, hc]
      · simp [Pool.add, Pool.line, hb, hs, ih]

theorem Pool.line_subAssign (p : Pool M) (a : Amount M) (s : Option Str) :
    ((Pool.subAssign p a).line s).map Amount.mag
      = PoolOp.spec s ((p.line s).map Amount.mag) (.minusAssign a) := by
  induction p with
  | nil => by_cases h : a.sym = s <;> simp [Pool.subAssign, Pool.line, PoolOp.spec, Amount.neg, h]
  | cons b p ih =>
    unfold Pool.line at ih
    by_cases hb : b.sym = a.sym
    · by_cases hs : a.sym = s
      · simp [Pool.subAssign, Pool.line, PoolOp.spec, hb, hs]
      · simp [Pool.subAssign, Pool.line, PoolOp.spec, hb, hs]
    · by_cases hs : b.sym = s
      · have : a.sym ≠ s := fun h => hb (hs.trans h.symm)
        have hc : ¬ s = a.sym := fun h => this h.symm
        simp [Pool.subAssign, Pool.line, PoolOp.spec, hs, this, hc]
      · simp [Pool.subAssign, Pool.line, hb, hs, ih]

theorem Pool.line_addPool (q p : Pool M) (s : Option Str) :
    ((Pool.addPool p q).line s).map Amount.mag
      = q.foldl (specAdd s) ((p.line s).map Amount.mag) := by
  induction q generalizing p with
  | nil => rfl
  | cons a q ih =>
    have := ih (Pool.add p a)
    rw [Pool.line_add] at this
    simpa [Pool.addPool] using this

theorem PoolOp.line_run (p : Pool M) (op : PoolOp M) (s : Option Str) :
    ((op.run p).line s).map Amount.mag = op.spec s ((p.line s).map Amount.mag) := by
  cases op with
  | plus a => exact Pool.line_add p a s
  | minusAssign a => exact Pool.line_subAssign p a s
  | minus a => exact Pool.line_add p a.neg s
  | plusPool q => exact Pool.line_addPool q p s

theorem PoolOp.line_foldl (ops : List (PoolOp M)) (p : Pool M) (s : Option Str) :
    ((ops.foldl PoolOp.run p).line s).map Amount.mag
      = ops.foldl (PoolOp.spec s) ((p.line s).map Amount.mag) := by
  induction ops generalizing p with
  | nil => rfl
  | cons op ops ih => simp only [List.foldl_cons]; rw [ih, PoolOp.line_run]

/-! ### C01 -/

/-- C01: after any sequence of operations a pool reports, for every currency, the left-to-right sum
of that currency's amounts alone; a currency never seen is reported as zero. For every magnitude
type, so also for `f64`. -/
theorem C01_pool_reports_running_sum (ops : List (PoolOp M)) (s : Option Str) :
    (PoolOp.runAll ops).only s
      = match specTotal s ops with
        | some m => ⟨m, s⟩
        | none => Amount.zero := by
  have h := PoolOp.line_foldl ops [] s
  simp only [Pool.line, List.find?_nil, Option.map_none] at h
  unfold specTotal
  rw [← h]
  unfold PoolOp.runAll Pool.only
  cases hl : (ops.foldl PoolOp.run ([] : Pool M)).find? (fun a => a.sym == s) with
  | none => simp
  | some a =>
    have := Pool.line_sym (p := ops.foldl PoolOp.run ([] : Pool M)) hl
    obtain ⟨m, s'⟩ := a
    simp only at this
    subst this
    simp

/-- Exact arithmetic: the net contribution of an operation to currency `s`. -/
def PoolOp.net (s : Option Str) : PoolOp Rat → Rat
  | .plus a => if a.sym = s then a.mag else 0
  | .minusAssign a => if a.sym = s then -a.mag else 0
  | .minus a => if a.sym = s then -a.mag else 0
  | .plusPool q => (q.map fun a => if a.sym = s then a.mag else 0).sum

theorem specAdd_rat (s : Option Str) (t : Option Rat) (a : Amount Rat) :
    (specAdd s t a).getD 0 = t.getD 0 + if a.sym = s then a.mag else 0 := by
  unfold specAdd
  by_cases h : a.sym = s
  · cases t <;> simp [h, Mag.add]
  · simp [h]

theorem specAdd_foldl_rat (s : Option Str) (q : Pool Rat) (t : Option Rat) :
    (q.foldl (specAdd s) t).getD 0
      = t.getD 0 + (q.map fun a => if a.sym = s then a.mag else 0).sum := by
  induction q generalizing t with
  | nil => simp
  | cons a q ih => simp only [List.foldl_cons, ih, specAdd_rat, List.map_cons, List.sum_cons]; ring

theorem PoolOp.spec_rat (s : Option Str) (t : Option Rat) (op : PoolOp Rat) :
    (op.spec s t).getD 0 = t.getD 0 + op.net s := by
  cases op with
  | plus a => exact specAdd_rat s t a
  | minusAssign a =>
    by_cases h : a.sym = s
    · cases t <;> simp [PoolOp.spec, PoolOp.net, h, Mag.sub, Mag.neg]; ring
    · simp [PoolOp.spec, PoolOp.net, h]
  | minus a => simpa [PoolOp.spec, PoolOp.net, Mag.neg] using specAdd_rat s t ⟨Mag.neg a.mag, a.sym⟩
  | plusPool q => exact specAdd_foldl_rat s q t

theorem specTotal_rat (s : Option Str) (ops : List (PoolOp Rat)) :
    (specTotal s ops).getD 0 = (ops.map (PoolOp.net s)).sum := by
  suffices ∀ t : Option Rat, (ops.foldl (PoolOp.spec s) t).getD 0
      = t.getD 0 + (ops.map (PoolOp.net s)).sum by
    simpa [specTotal] using this none
  induction ops with
  | nil => simp
  | cons op ops ih =>
    intro t
    simp only [List.foldl_cons, ih, PoolOp.spec_rat, List.map_cons, List.sum_cons]
    ring

/-- C01, exact arithmetic: the magnitude reported is the net sum of the operations on that currency. -/
theorem C01_exact_net_sum (ops : List (PoolOp Rat)) (s : Option Str) :
    ((PoolOp.runAll ops).only s).mag = (ops.map (PoolOp.net s)).sum := by
  rw [C01_pool_reports_running_sum, ← specTotal_rat]
  cases specTotal s ops <;> simp [Amount.zero, Mag.zero]

/-- C01, exact arithmetic: the order of the operations does not matter. -/
theorem C01_exact_order_irrelevant (ops ops' : List (PoolOp Rat)) (h : ops.Perm ops')
    (s : Option Str) :
    ((PoolOp.runAll ops).only s).mag = ((PoolOp.runAll ops').only s).mag := by
  rw [C01_exact_net_sum, C01_exact_net_sum]
  exact (h.map _).sum_eq

/-- 5, then $3, then -2: the native line is 3, the dollar line 3. -/
example : PoolOp.runAll [.plus ⟨5, none⟩, .plus ⟨3, some s%"$"⟩, .minusAssign ⟨2, none⟩]
    = [⟨(3 : Rat), none⟩, ⟨3, some s%"$"⟩] := by decide +kernel

/-- In floating point the order does matter: (0.1 + 0.2) - 0.3 is not (0.1 - 0.3) + 0.2. -/
theorem C01_float_order_matters :
    ∃ ops ops' : List (PoolOp F64), ops.Perm ops' ∧
      ((PoolOp.runAll ops).only none).mag ≠ ((PoolOp.runAll ops').only none).mag := by
  refine ⟨[.plus ⟨(F64.parse s%"0.1").getD .nan, none⟩, .plus ⟨(F64.parse s%"0.2").getD .nan, none⟩,
      .minusAssign ⟨(F64.parse s%"0.3").getD .nan, none⟩],
    [.plus ⟨(F64.parse s%"0.1").getD .nan, none⟩,
      .minusAssign ⟨(F64.parse s%"0.3").getD .nan, none⟩,
      .plus ⟨(F64.parse s%"0.2").getD .nan, none⟩], ?_, ?_⟩
  · exact List.Perm.cons _ (List.Perm.swap _ _ _)
  · decide +kernel

/-! ### C02 -/

theorem Pool.syms_add (p : Pool M) (a : Amount M) :
    (Pool.add p a).map Amount.sym
      = pushNew (p.map Amount.sym) a.sym := by
  unfold pushNew
  induction p with
  | nil => simp [Pool.add]
  | cons b p ih =>
    by_cases hb : b.sym = a.sym
    · simp [Pool.add, hb]
    · have hb' : a.sym ≠ b.sym := fun h => hb h.symm
      by_cases hm : a.sym ∈ p.map Amount.sym
      · simp only [Pool.add, hb, if_false, List.map_cons, ih, hm, if_true, List.mem_cons, or_true]
      · simp only [Pool.add, hb, if_false, List.map_cons, ih, hm, List.mem_cons, hb', or_self,
          List.cons_append]

theorem Pool.syms_subAssign (p : Pool M) (a : Amount M) :
    (Pool.subAssign p a).map Amount.sym
      = pushNew (p.map Amount.sym) a.sym := by
  unfold pushNew
  induction p with
  | nil => simp [Pool.subAssign, Amount.neg]
  | cons b p ih =>
    by_cases hb : b.sym = a.sym
    · simp [Pool.subAssign, hb]
    · have hb' : a.sym ≠ b.sym := fun h => hb h.symm
      by_cases hm : a.sym ∈ p.map Amount.sym
      · simp only [Pool.subAssign, hb, if_false, List.map_cons, ih, hm, if_true, List.mem_cons,
          or_true]
      · simp only [Pool.subAssign, hb, if_false, List.map_cons, ih, hm, List.mem_cons, hb', or_self,
          List.cons_append]

theorem Pool.syms_addPool (q p : Pool M) :
    (Pool.addPool p q).map Amount.sym
      = (q.map Amount.sym).foldl pushNew
          (p.map Amount.sym) := by
  induction q generalizing p with
  | nil => rfl
  | cons a q ih =>
    have := ih (Pool.add p a)
    rw [Pool.syms_add] at this
    simpa [Pool.addPool] using this

theorem PoolOp.syms_run (p : Pool M) (op : PoolOp M) :
    (op.run p).map Amount.sym
      = op.touched.foldl pushNew (p.map Amount.sym) := by
  cases op with
  | plus a => simpa [PoolOp.run, Pool.sub, PoolOp.touched] using Pool.syms_add p a
  | minusAssign a => simpa [PoolOp.run, Pool.sub, PoolOp.touched] using Pool.syms_subAssign p a
  | minus a => simpa [PoolOp.run, Pool.sub, PoolOp.touched, Amount.neg] using Pool.syms_add p a.neg
  | plusPool q => exact Pool.syms_addPool q p

/-- C02: the lines of a pool are the currencies touched, each once, in order of first
appearance. -/
theorem C02_one_line_per_currency (ops : List (PoolOp M)) :
    (PoolOp.runAll ops).map Amount.sym = firstSeen (ops.flatMap PoolOp.touched) := by
  suffices ∀ p : Pool M, (ops.foldl PoolOp.run p).map Amount.sym
      = (ops.flatMap PoolOp.touched).foldl pushNew
          (p.map Amount.sym) by
    simpa [PoolOp.runAll, firstSeen] using this []
  induction ops with
  | nil => intro p; rfl
  | cons op ops ih =>
    intro p
    rw [List.foldl_cons, ih, PoolOp.syms_run, List.flatMap_cons, List.foldl_append]

theorem firstSeen_aux {α : Type} [DecidableEq α] (l acc : List α) (h : acc.Nodup) :
    let r := l.foldl pushNew acc
    r.Nodup ∧ ∀ a, a ∈ r ↔ a ∈ acc ∨ a ∈ l := by
  induction l generalizing acc with
  | nil => simp [h]
  | cons b l ih =>
    by_cases hb : b ∈ acc
    · obtain ⟨h1, h2⟩ := ih acc h
      simp only [List.foldl_cons, pushNew, hb, if_true]
      refine ⟨h1, fun a => ?_⟩
      rw [h2]
      simp only [List.mem_cons]
      constructor
      · rintro (h | h) <;> simp [h]
      · rintro (h | rfl | h)
        · exact Or.inl h
        · exact Or.inl hb
        · exact Or.inr h
    · obtain ⟨h1, h2⟩ := ih (acc ++ [b]) (by
        rw [List.nodup_append]
        exact ⟨h, by simp, by intro x hx y hy; simp at hy; subst hy; intro e; exact hb (e ▸ hx)⟩)
      simp only [List.foldl_cons, pushNew, hb, if_false]
      refine ⟨h1, fun a => ?_⟩
      rw [h2]
      simp [or_assoc]

/-- C02: no currency has two lines. -/
theorem C02_no_duplicate_line (ops : List (PoolOp M)) :
    ((PoolOp.runAll ops).map Amount.sym).Nodup := by
  rw [C02_one_line_per_currency]
  exact (firstSeen_aux _ [] List.nodup_nil).1

/-- C02: a currency has a line exactly if an operation touched it. -/
theorem C02_line_iff_touched (ops : List (PoolOp M)) (s : Option Str) :
    s ∈ (PoolOp.runAll ops).map Amount.sym ↔ ∃ op ∈ ops, s ∈ op.touched := by
  rw [C02_one_line_per_currency]
  unfold firstSeen
  rw [(firstSeen_aux _ [] List.nodup_nil).2]
  simp

/-- Three operations on two currencies: two lines, in order of first appearance. -/
example : (PoolOp.runAll [.plus ⟨(1 : Rat), some s%"$"⟩, .plusPool [⟨2, none⟩, ⟨1, some s%"$"⟩],
    .minus ⟨4, none⟩]).map Amount.sym = [some s%"$", none] := by decide +kernel

/-! ### C03 -/

/-- C03: a pool is zero exactly if every line is zero; the empty pool is zero. -/
theorem C03_is_zero_iff_lines (p : Pool M) :
    p.isZero = true ↔ ∀ a ∈ p, Mag.eq a.mag (Mag.zero : M) = true := by
  unfold Pool.isZero
  cases p with
  | nil => simp
  | cons a p => simp

/-- C03, in terms of what a pool reports: it is zero exactly if it reports zero for every currency.
The hypothesis `0 == 0` holds for doubles and rationals. -/
theorem C03_is_zero_iff_reports_zero (h0 : Mag.eq (Mag.zero : M) Mag.zero = true)
    (ops : List (PoolOp M)) :
    (PoolOp.runAll ops).isZero = true
      ↔ ∀ s, Mag.eq ((PoolOp.runAll ops).only s).mag (Mag.zero : M) = true := by
  rw [C03_is_zero_iff_lines]
  have hn := C02_no_duplicate_line ops
  generalize PoolOp.runAll ops = p at hn
  constructor
  · intro h s
    unfold Pool.only
    cases hf : p.find? (fun a => a.sym == s) with
    | none => simpa [Amount.zero] using h0
    | some a => simpa using h a (List.mem_of_find?_eq_some hf)
  · intro h a ha
    have := h a.sym
    unfold Pool.only at this
    have hf : p.find? (fun b => b.sym == a.sym) = some a := by
      clear h this
      induction p with
      | nil => simp at ha
      | cons b p ih =>
        simp only [List.map_cons, List.nodup_cons] at hn
        rcases List.mem_cons.mp ha with rfl | ha'
        · simp
        · have hne : b.sym ≠ a.sym := fun e => hn.1 (e ▸ List.mem_map_of_mem ha')
          simp [hne, ih hn.2 ha']
    rw [hf] at this
    simpa using this

/-- C03, exact arithmetic: a pool is zero exactly if every currency's net sum is zero. -/
theorem C03_exact_is_zero_iff_net_zero (ops : List (PoolOp Rat)) :
    (PoolOp.runAll ops).isZero = true ↔ ∀ s, (ops.map (PoolOp.net s)).sum = 0 := by
  rw [C03_is_zero_iff_reports_zero (by decide)]
  simp only [C01_exact_net_sum]
  simp [Mag.eq, Mag.zero]

example : (PoolOp.runAll [.plus ⟨(1 : Rat), some s%"$"⟩, .minus ⟨1, some s%"$"⟩]).isZero = true ∧
    (PoolOp.runAll [.plus ⟨(1 : Rat), some s%"$"⟩, .minus ⟨1, none⟩]).isZero = false := by
  decide +kernel

example : Mag.eq (Mag.zero : F64) Mag.zero = true := by decide +kernel

/-! ### C04 -/

/-- C04: amounts of different currencies are never combined: every operator aborts. -/
theorem C04_different_currencies_abort (a b : Amount M) (h : a.sym ≠ b.sym) :
    a.add b = panicked ∧ a.sub b = panicked ∧ a.subAssign b = panicked ∧ a.cmp b = panicked := by
  simp [Amount.add, Amount.sub, Amount.subAssign, Amount.cmp, Amount.neg, h]

/-- C04: with equal currencies no operator aborts, and the currency is kept. -/
theorem C04_equal_currencies_work (a b : Amount M) (h : a.sym = b.sym) :
    a.add b = .ok ⟨Mag.add a.mag b.mag, a.sym⟩ ∧
    a.sub b = .ok ⟨Mag.add a.mag (Mag.neg b.mag), a.sym⟩ ∧
    a.subAssign b = .ok ⟨Mag.sub a.mag b.mag, a.sym⟩ ∧ ∃ o, a.cmp b = .ok o := by
  simp [Amount.add, Amount.sub, Amount.subAssign, Amount.cmp, Amount.neg, h]

/-- C04: equality of amounts requires equal currencies. -/
theorem C04_equal_amounts_same_currency (a b : Amount M) (h : a.eqv b = true) : a.sym = b.sym := by
  simp [Amount.eqv] at h
  exact h.2

example : (⟨(5 : Rat), some s%"$"⟩ : Amount Rat).add ⟨3, none⟩ = .error .panic ∧
    (⟨(5 : Rat), none⟩ : Amount Rat).sub ⟨3, none⟩ = .ok ⟨2, none⟩ := by decide +kernel

end Silverfox
