import Verif.Props.NearTo
import Verif.Props.Due

/-
C124: comparing amounts and envelopes.
-/

namespace Silverfox

set_option linter.unusedSectionVars false

variable {M : Type} [Mag M]

/-! ### Specification -/

/-- Specification: due sooner; what is never due comes last. -/
def Sooner : Option Date → Option Date → Prop
  | some d, some e => d.dayNum < e.dayNum
  | some _, none => True
  | none, _ => False

/-- Specification: an order in which of any two exactly one comes first, unless they are the same. -/
structure StrictOrder {α : Type} (R : α → α → Prop) : Prop where
  irrefl : ∀ a, ¬ R a a
  trans : ∀ a b c, R a b → R b c → R a c
  total : ∀ a b, R a b ∨ a = b ∨ R b a

theorem sooner_order : StrictOrder Sooner := by
  refine ⟨?_, ?_, ?_⟩
  · rintro (_ | d) <;> simp [Sooner]
  · rintro (_ | a) (_ | b) (_ | c) <;> simp [Sooner]
    omega
  · rintro (_ | a) (_ | b) <;> simp [Sooner]
    rcases lt_trichotomy a.dayNum b.dayNum with h | h | h
    · exact Or.inl h
    · exact Or.inr (Or.inl (Date.dayNum_inj h))
    · exact Or.inr (Or.inr h)

/-! ### C124 -/

/-- C124. Envelopes are compared by the day they are due next: the one that is due sooner comes first, those that are
never due again last; they count as equal, by either way of comparing, exactly if they are due on the same day or both
never. This is a strict order of the due dates. -/
theorem C124_envelopes_by_due_date (today : Date) (a b : Envelope M) (x y : Option Date) (hx : a.nextDue today = .ok x)
    (hy : b.nextDue today = .ok y) :
    ∃ o eq, a.cmp today b = .ok o ∧ a.eqv today b = .ok eq ∧ (o = .lt ↔ Sooner x y) ∧ (o = .gt ↔ Sooner y x) ∧
      (o = .eq ↔ x = y) ∧ (eq = true ↔ x = y) ∧ StrictOrder Sooner := by
  unfold Envelope.cmp Envelope.eqv
  simp only [hx, hy, bind, Except.bind, pure, Except.pure]
  cases x with
  | none => cases y <;> exact ⟨_, _, rfl, rfl, by simp [Sooner], by simp [Sooner], by simp, by simp, sooner_order⟩
  | some d =>
    cases y with
    | none => exact ⟨_, _, rfl, rfl, by simp [Sooner], by simp [Sooner], by simp, by simp, sooner_order⟩
    | some e =>
      refine ⟨_, _, rfl, rfl, ?_, ?_, ?_, by simp, sooner_order⟩
      all_goals
        have h1 := Date.lt_iff_dayNum d e
        have h2 := Date.lt_iff_dayNum e d
        have h3 : d = e ↔ d.dayNum = e.dayNum := ⟨fun h => by rw [h], Date.dayNum_inj⟩
        simp only [Sooner, Option.some.injEq, h3]
        rcases lt_trichotomy d.dayNum e.dayNum with k | k | k
        · have k1 : Date.lt d e = true := h1.2 k
          simp [k1]; try omega
        · have k1 : Date.lt d e = false := by
            cases q : Date.lt d e
            · rfl
            · exact absurd (h1.1 q) (by omega)
          have k2 : Date.lt e d = false := by
            cases q : Date.lt e d
            · rfl
            · exact absurd (h2.1 q) (by omega)
          simp [k1, k2]; try omega
        · have k1 : Date.lt d e = false := by
            cases q : Date.lt d e
            · rfl
            · exact absurd (h1.1 q) (by omega)
          have k2 : Date.lt e d = true := h2.2 k
          simp [k1, k2]; try omega

/-- C124. It never crashes, whatever the schedules, but on the first day there is. -/
theorem C124_comparing_envelopes_never_crashes (today : Date) (ht : today.Inner) (a b : Envelope M) (ha : a.freq.Inner)
    (hb : b.freq.Inner) : ∃ o eq, a.cmp today b = .ok o ∧ a.eqv today b = .ok eq := by
  have key : ∀ e : Envelope M, e.freq.Inner → ∃ d, e.nextDue today = .ok d := by
    intro e he
    obtain ⟨d, hd⟩ := C28_next_due_never_crashes today e.freq ht he
    unfold Envelope.nextDue
    cases e.starting with
    | none => exact ⟨d, hd⟩
    | some s =>
      simp only [hd, bind, Except.bind, pure, Except.pure]
      cases d <;> exact ⟨_, rfl⟩
  obtain ⟨x, hx⟩ := key a ha
  obtain ⟨y, hy⟩ := key b hb
  obtain ⟨o, eq, h1, h2, _⟩ := C124_envelopes_by_due_date today a b x y hx hy
  exact ⟨o, eq, h1, h2⟩

/-- C124. Amounts of one currency that are finite numbers are compared by what they are worth, and are equal, by either
way of comparing, exactly if they are worth the same. -/
theorem C124_amounts_by_worth_partial (a b : Amount F64) (hs : a.sym = b.sym) (ha : a.mag.finite = true)
    (hb : b.mag.finite = true) :
    ∃ o, a.cmp b = .ok o ∧ (o = .lt ↔ a.mag.value < b.mag.value) ∧ (o = .gt ↔ b.mag.value < a.mag.value) ∧
      (o = .eq ↔ a.mag.value = b.mag.value) ∧ (a.eqv b = true ↔ a.mag.value = b.mag.value) := by
  unfold Amount.cmp Amount.eqv
  rw [if_pos hs]
  refine ⟨_, rfl, ?_⟩
  have h1 : (Mag.lt a.mag b.mag : Bool) = decide (a.mag.value < b.mag.value) := F64.lt_value ha hb
  have h2 : (Mag.lt b.mag a.mag : Bool) = decide (b.mag.value < a.mag.value) := F64.lt_value hb ha
  have h3 : (Mag.eq a.mag b.mag : Bool) = decide (a.mag.value = b.mag.value) := F64.eq_value ha hb
  rw [h1, h2, h3]
  rcases lt_trichotomy a.mag.value b.mag.value with h | h | h
  · simp [h, h.ne, not_lt.2 h.le, hs]
  · simp [h, hs]
  · simp [h, h.ne', not_lt.2 h.le, hs]

/-- C124, exact numbers. -/
theorem C124_amounts_by_worth_exact (a b : Amount Rat) (hs : a.sym = b.sym) :
    ∃ o, a.cmp b = .ok o ∧ (o = .lt ↔ a.mag < b.mag) ∧ (o = .gt ↔ b.mag < a.mag) ∧ (o = .eq ↔ a.mag = b.mag) ∧
      (a.eqv b = true ↔ a = b) := by
  unfold Amount.cmp Amount.eqv
  rw [if_pos hs]
  refine ⟨_, rfl, ?_⟩
  simp only [Mag.lt, Mag.eq]
  have he : a = b ↔ a.mag = b.mag := ⟨fun h => by rw [h], fun h => by cases a; cases b; simp_all⟩
  rw [he]
  rcases lt_trichotomy a.mag b.mag with h | h | h
  · simp [h, h.ne, not_lt.2 h.le, hs]
  · simp [h, hs]
  · simp [h, h.ne', not_lt.2 h.le, hs]

/-- C124 does not hold of amounts that are not numbers, which come about when infinite amounts are added: one is as
great as that, and that is as great as two, but one is less than two; and it is as great as itself, but not equal to
itself. -/
theorem C124_not_a_number :
    Amount.cmp (⟨F64.ofInt 1, none⟩ : Amount F64) ⟨F64.nan, none⟩ = .ok .eq ∧
    Amount.cmp (⟨F64.nan, none⟩ : Amount F64) ⟨F64.ofInt 2, none⟩ = .ok .eq ∧
    Amount.cmp (⟨F64.ofInt 1, none⟩ : Amount F64) ⟨F64.ofInt 2, none⟩ = .ok .lt ∧
    Amount.eqv (⟨F64.nan, none⟩ : Amount F64) ⟨F64.nan, none⟩ = false ∧
    (Amount.parse (List.replicate 400 '9') '.').map (fun a : Amount F64 => F64.add a.mag (F64.neg a.mag)) = .ok F64.nan := by
  decide +kernel

/-- Envelopes that can be compared: one due on the tenth, one on the twentieth, one never. -/
def exDue (f : Frequency) : Envelope F64 where
  name := s%"x"
  amount := Amount.zero
  kind := .expense
  auto := []
  freq := f
  funding := .conservative
  starting := none
  next := Amount.zero
  now := Amount.zero
  account := s%"bank"
  lastTx := Date.zero

example : (exDue (.monthly 20)).cmp june15 (exDue (.monthly 10)) = .ok .lt ∧
    (exDue .never).cmp june15 (exDue (.monthly 10)) = .ok .gt ∧
    (exDue (.monthly 10)).cmp june15 (exDue (.monthly 10)) = .ok .eq ∧
    (exDue (.monthly 20)).eqv june15 (exDue (.monthly 10)) = .ok false := by decide +kernel

end Silverfox
