import Verif.Model.Entry
import Verif.Codec
import Mathlib.Tactic.Linarith
import Mathlib.Tactic.Ring
import Mathlib.Algebra.Order.Field.Rat

/-
C12-C17: native values, blank amounts, validation of entries.
-/

namespace Silverfox

set_option linter.unusedSectionVars false

variable {M : Type} [Mag M]

/-! ### C12 -/

/-- C12, where it holds: the native value of a posting is known in exactly three cases: the amount is
native; or it has a currency and a native unit price; or it has a currency and a native total cost.
Missing for the full claim: with a total cost the sign of the quantity is lost
(`C12_total_cost_loses_sign`). -/
theorem C12_native_value_partial (acc : Str) (am : Option (Amount M)) (cost : Option (Cost M))
    (bal : Option (Amount M)) (v : M) :
    (Posting.classic ⟨acc, am, cost, bal⟩).nativeValue = some v ↔
      am = some ⟨v, none⟩ ∨
      (∃ q s p, am = some ⟨q, some s⟩ ∧ cost = some (.unit ⟨p, none⟩) ∧ v = Mag.mul q p) ∨
      (∃ q s, am = some ⟨q, some s⟩ ∧ cost = some (.total ⟨v, none⟩)) := by
  unfold Posting.nativeValue Classic.nativeValue
  rcases am with _ | ⟨q, _ | s⟩
  · simp
  · simp
  · rcases cost with _ | ⟨⟨t, _ | u⟩⟩ | ⟨⟨t, _ | u⟩⟩ <;> simp [eq_comm]

/-- C12: the price per unit and the equivalent total, quantity times price, give the same value. -/
theorem C12_unit_or_total (acc : Str) (q p : M) (s : Str) (bal : Option (Amount M)) :
    (Posting.classic ⟨acc, some ⟨q, some s⟩, some (.unit ⟨p, none⟩), bal⟩).nativeValue =
      (Posting.classic ⟨acc, some ⟨q, some s⟩, some (.total ⟨Mag.mul q p, none⟩), bal⟩).nativeValue := by
  simp [Posting.nativeValue, Classic.nativeValue]

/-- C12: an envelope posting has no native value, whatever its currency. -/
theorem C12_envelope_posting_has_none (e : EnvPosting M) :
    (Posting.envelope e).nativeValue = none := rfl

/-- C12, where it fails: selling five shares at 3 apiece is worth -15, selling five shares for 15
in total is worth +15. -/
theorem C12_total_cost_loses_sign :
    ∃ p q : Posting Rat,
      Posting.parse s%"assets:shares -5 XYZ @ 3" '.' [s%"assets:shares"] = .ok p ∧
      Posting.parse s%"assets:shares -5 XYZ = 15" '.' [s%"assets:shares"] = .ok q ∧
      p.nativeValue = some (-15) ∧ q.nativeValue = some 15 :=
  ⟨_, _, rfl, rfl, by decide +kernel, by decide +kernel⟩

/-! ### Specification of sums over postings -/

/-- The amounts given in a list of postings. -/
def givenAmounts (ps : List (Posting M)) : List (Amount M) := ps.filterMap Posting.amount

/-- The sum of given amounts, whatever their currency. -/
def sumMags (as : List (Amount Rat)) : Rat := (as.map Amount.mag).sum

/-- All the amounts given are in the currency `s`. -/
def AllIn (s : Option Str) (ps : List (Posting M)) : Prop := ∀ a ∈ givenAmounts ps, a.sym = s


theorem givenAmounts_cons (p : Posting M) (ps : List (Posting M)) :
    givenAmounts (p :: ps) = p.amount.toList ++ givenAmounts ps := by
  unfold givenAmounts
  cases h : p.amount <;> simp [h]

theorem dropBlank_spec (ps : List (Posting M)) :
    (ps.dropWhile (fun p => p.amount.isNone) = [] ∧ givenAmounts ps = []) ∨
    ∃ p rest a, ps.dropWhile (fun p => p.amount.isNone) = p :: rest ∧ p.amount = some a ∧
      givenAmounts ps = a :: givenAmounts rest := by
  induction ps with
  | nil => left; simp [givenAmounts]
  | cons p ps ih =>
    cases h : p.amount with
    | none =>
      rw [givenAmounts_cons]
      simpa [List.dropWhile_cons, h] using ih
    | some a =>
      right
      refine ⟨p, ps, a, ?_, h, ?_⟩
      · simp [h]
      · simp [givenAmounts_cons, h]

theorem hasMixed_false_iff (e : Entry M) :
    e.hasMixed = false ↔ ∃ s, AllIn s e.postings := by
  unfold Entry.hasMixed AllIn
  rcases dropBlank_spec e.postings with ⟨h1, h2⟩ | ⟨p, rest, a, h1, h2, h3⟩
  · simp [h1, h2]
  · rw [h1, h3]
    simp only [h2, Option.bind_some, List.mem_cons, forall_eq_or_imp]
    constructor
    · intro h
      refine ⟨a.sym, rfl, ?_⟩
      intro b hb
      obtain ⟨q, hq, hqb⟩ := List.mem_filterMap.1 hb
      have := List.any_eq_false.1 h q hq
      rw [hqb] at this
      simpa using this
    · rintro ⟨s, hs, hr⟩
      rw [List.any_eq_false]
      intro q hq
      cases hqa : q.amount with
      | none => simp
      | some b =>
        have := hr b (List.mem_filterMap.2 ⟨q, hq, hqa⟩)
        simp [this, hs]

theorem blankRest_eq (s : Option Str) (ps : List (Posting M)) (b : Amount M)
    (hb : b.sym = s) (h : AllIn s ps) :
    blankRest ps b = .ok ⟨((givenAmounts ps).map Amount.mag).foldl Mag.sub b.mag, s⟩ := by
  induction ps generalizing b with
  | nil => cases b; simp_all [blankRest, givenAmounts]
  | cons p ps ih =>
    have hps : AllIn s ps := fun a ha => h a (by rw [givenAmounts_cons]; simp [ha])
    unfold blankRest
    cases hp : p.amount with
    | none => simp only [givenAmounts_cons, hp]; simpa using ih b hb hps
    | some a =>
      have ha : a.sym = s := h a (by rw [givenAmounts_cons, hp]; simp)
      simp only [Amount.subAssign, ha, hb, if_true, bind, Except.bind]
      rw [ih ⟨Mag.sub b.mag a.mag, s⟩ rfl hps]
      simp [givenAmounts_cons, hp]

/-- What is computed, for any magnitudes: minus the first amount, minus the second, and so on. -/
theorem blankAmount_single (e : Entry M) (s : Option Str) (a : Amount M) (as : List (Amount M))
    (hb : ∃ p ∈ e.postings, p.amount = none) (h : AllIn s e.postings)
    (hg : givenAmounts e.postings = a :: as) :
    e.blankAmount = .ok (some ⟨(as.map Amount.mag).foldl Mag.sub (Mag.neg a.mag), s⟩) := by
  have hblank : e.hasBlank = true := by
    obtain ⟨p, hp, hpa⟩ := hb
    exact List.any_eq_true.2 ⟨p, hp, by simp [hpa]⟩
  have hmix : e.hasMixed = false := (hasMixed_false_iff e).2 ⟨s, h⟩
  unfold Entry.blankAmount
  simp only [hblank, hmix, Bool.not_true, Bool.false_eq_true, if_false]
  rcases dropBlank_spec e.postings with ⟨_, h2⟩ | ⟨p, rest, b, h1, h2, h3⟩
  · rw [h2] at hg; cases hg
  · rw [h3] at hg
    cases hg
    have hr : AllIn s rest := fun x hx => h x (by rw [h3]; simp [hx])
    have ha : a.sym = s := h a (by rw [h3]; simp)
    simp only [h1, h2]
    rw [blankRest_eq s rest a.neg ha hr]
    rfl

/-! ### C13 -/

/-- C13, over all postings (exact arithmetic): if the amounts given are in one currency, and there is
at least one, the amount inferred for a blank posting is in that currency and cancels their sum.
Missing for the full claim: envelope postings are counted in the sum, although they move no real
money (`C13_envelope_postings_disturb`). -/
theorem C13_blank_balances_partial (e : Entry Rat) (s : Option Str)
    (hb : ∃ p ∈ e.postings, p.amount = none) (h : AllIn s e.postings)
    (hne : givenAmounts e.postings ≠ []) :
    ∃ b : Amount Rat, e.blankAmount = .ok (some b) ∧ b.sym = s ∧
      sumMags (givenAmounts e.postings) + b.mag = 0 := by
  obtain ⟨a, as, hg⟩ := List.exists_cons_of_ne_nil hne
  refine ⟨_, blankAmount_single e s a as hb h hg, rfl, ?_⟩
  rw [hg]
  have : ∀ (l : List (Amount Rat)) (z : Rat),
      (l.map Amount.mag).foldl Mag.sub z = z - sumMags l := by
    intro l
    induction l with
    | nil => intro z; simp [sumMags]
    | cons x xs ih =>
      intro z
      simp only [List.map_cons, List.foldl_cons, ih]
      simp only [sumMags, List.map_cons, List.sum_cons, Mag.sub]
      ring
  simp only [this, sumMags, List.map_cons, List.sum_cons, Mag.neg]
  ring

/-- C13: without envelope postings this is the claim: the ordinary postings, the blank one at its
inferred amount, sum to exactly zero. -/
theorem C13_ordinary_postings_balance (e : Entry Rat) (s : Option Str)
    (hord : e.envelopePostings = [])
    (pre post : List (Posting Rat)) (p : Posting Rat)
    (hps : e.postings = pre ++ p :: post) (hp : p.amount = none)
    (hrest : ∀ q ∈ pre ++ post, ∃ a, q.amount = some a ∧ a.sym = s) (hne : pre ++ post ≠ []) :
    ∃ b : Amount Rat, e.blankAmount = .ok (some b) ∧ b.sym = s ∧
      ((e.postings.filter fun q => !q.isEnvelope).map fun q => (q.amount.getD b).mag).sum = 0 := by
  have hin : AllIn s e.postings := by
    intro a ha
    obtain ⟨q, hq, hqa⟩ := List.mem_filterMap.1 ha
    rw [hps] at hq
    have : q ∈ pre ++ post ∨ q = p := by
      simp only [List.mem_append, List.mem_cons] at hq ⊢; tauto
    rcases this with hq | rfl
    · obtain ⟨a', h1, h2⟩ := hrest q hq
      rw [h1] at hqa; cases hqa; exact h2
    · rw [hp] at hqa; cases hqa
  have hga : givenAmounts e.postings = givenAmounts (pre ++ post) := by
    rw [hps]; simp [givenAmounts, hp]
  have hne' : givenAmounts e.postings ≠ [] := by
    rw [hga]
    obtain ⟨q, qs, hq⟩ := List.exists_cons_of_ne_nil hne
    obtain ⟨a, ha, _⟩ := hrest q (by rw [hq]; simp)
    rw [hq, givenAmounts_cons, ha]; simp
  obtain ⟨b, hb, hs, hsum⟩ := C13_blank_balances_partial e s ⟨p, by rw [hps]; simp, hp⟩ hin hne'
  refine ⟨b, hb, hs, ?_⟩
  have hall : e.postings.filter (fun q => !q.isEnvelope) = e.postings := by
    apply List.filter_eq_self.2
    intro q hq
    cases q with
    | classic c => rfl
    | envelope x =>
      have : x ∈ e.envelopePostings := List.mem_filterMap.2 ⟨_, hq, rfl⟩
      rw [hord] at this; cases this
  have hsums : ∀ l : List (Posting Rat), (∀ q ∈ l, ∃ a, q.amount = some a ∧ a.sym = s) →
      (l.map fun q => (q.amount.getD b).mag).sum = sumMags (givenAmounts l) := by
    intro l
    induction l with
    | nil => intro _; rfl
    | cons q qs ih =>
      intro h
      obtain ⟨a, ha, _⟩ := h q (by simp)
      have := ih fun x hx => h x (by simp [hx])
      simp [givenAmounts_cons, ha, this, sumMags]
  have happ : ∀ l m : List (Amount Rat), sumMags (l ++ m) = sumMags l + sumMags m := by
    intro l m; simp [sumMags]
  rw [hall, hps]
  simp only [List.map_append, List.map_cons, List.sum_append, List.sum_cons, hp, Option.getD_none]
  rw [hsums pre fun q hq => hrest q (by simp [hq]), hsums post fun q hq => hrest q (by simp [hq])]
  rw [hga] at hsum
  have : givenAmounts (pre ++ post) = givenAmounts pre ++ givenAmounts post := by
    simp [givenAmounts]
  rw [this, happ] at hsum
  linarith

/-- C13, where it fails: 5 into checking, an envelope movement of 3, and a blank posting: -8 is
inferred, and the ordinary postings sum to -3. -/
theorem C13_envelope_postings_disturb :
    ∃ e : Entry Rat, Entry.parse (stdEnv ⟨2024, 6, 15, by decide⟩)
      s%"2024/6/1 ~ pay\n  assets:bank  5\n  envelope assets:bank food 3\n  income" s%"%Y/%m/%d" '.'
      [s%"assets:bank", s%"income"] = .ok e ∧ e.blankAmount = .ok (some ⟨-8, none⟩) :=
  ⟨_, rfl, by decide +kernel⟩

/-- An entry for examples: 100 USD and -30 USD, one blank. -/
def exEntry : Entry Rat :=
  ⟨⟨2024, 6, 1, by decide⟩, .cleared, s%"x", none, none,
    [.classic ⟨s%"a", some ⟨100, some s%"USD"⟩, none, none⟩,
     .classic ⟨s%"b", none, none, none⟩,
     .classic ⟨s%"c", some ⟨-30, some s%"USD"⟩, none, none⟩]⟩

example : exEntry.blankAmount = .ok (some ⟨-70, some s%"USD"⟩) := by decide +kernel

/-! ### C14 -/

theorem blankMixed_spec (ps : List (Posting Rat)) (m : Rat) :
    (∀ p ∈ ps, p.amount.isSome → p.nativeValue.isSome) →
      blankMixed ps m = .ok (m - (ps.filterMap Posting.nativeValue).sum) := by
  induction ps generalizing m with
  | nil => intro _; simp [blankMixed]
  | cons p ps ih =>
    intro h
    have h' := fun q hq => h q (List.mem_cons_of_mem _ hq)
    unfold blankMixed
    cases hv : p.nativeValue with
    | some v =>
      simp only [ih _ h', Mag.sub, List.filterMap_cons, hv, List.sum_cons]
      congr 1; ring
    | none =>
      have hn : p.amount.isSome = false := by
        by_contra hc
        have := h p (by simp) (by simpa [Option.isSome_iff_ne_none] using hc)
        simp [hv] at this
      simp [hn, ih _ h', hv]

theorem blankMixed_error (ps : List (Posting M)) (m : M) :
    (∃ p ∈ ps, p.amount.isSome ∧ p.nativeValue = none) →
      blankMixed ps m = .error (.err .processing) := by
  induction ps generalizing m with
  | nil => rintro ⟨p, hp, _⟩; cases hp
  | cons p ps ih =>
    rintro ⟨q, hq, h1, h2⟩
    unfold blankMixed
    rcases List.mem_cons.1 hq with rfl | hq
    · simp [h1, h2, fail]
    · have := fun m => ih m ⟨q, hq, h1, h2⟩
      cases p.nativeValue with
      | some v => simp [this]
      | none =>
        cases p.amount.isSome <;> simp [this, fail]

/-- C14: with several currencies, the inferred amount is native and cancels the sum of the native
values (exact arithmetic). -/
theorem C14_blank_balances_native (e : Entry Rat)
    (hb : ∃ p ∈ e.postings, p.amount = none) (hmix : ¬ ∃ s, AllIn s e.postings)
    (hk : ∀ p ∈ e.postings, p.amount.isSome → p.nativeValue.isSome) :
    ∃ b : Amount Rat, e.blankAmount = .ok (some b) ∧ b.sym = none ∧
      (e.postings.filterMap Posting.nativeValue).sum + b.mag = 0 := by
  have hblank : e.hasBlank = true := by
    obtain ⟨p, hp, hpa⟩ := hb
    exact List.any_eq_true.2 ⟨p, hp, by simp [hpa]⟩
  have hm : e.hasMixed = true := by
    rw [← Bool.not_eq_false, hasMixed_false_iff]; exact hmix
  refine ⟨⟨0 - (e.postings.filterMap Posting.nativeValue).sum, none⟩, ?_, rfl, by simp⟩
  simp [Entry.blankAmount, hblank, hm, blankMixed_spec _ _ hk, bind, Except.bind, pure, Except.pure,
    Mag.zero]

/-- C14: if the native value of one posting is unknown, the blank amount is refused. -/
theorem C14_unknown_value_refused (e : Entry M)
    (hb : ∃ p ∈ e.postings, p.amount = none) (hmix : ¬ ∃ s, AllIn s e.postings)
    (hk : ∃ p ∈ e.postings, p.amount.isSome ∧ p.nativeValue = none) :
    e.blankAmount = .error (.err .processing) := by
  have hblank : e.hasBlank = true := by
    obtain ⟨p, hp, hpa⟩ := hb
    exact List.any_eq_true.2 ⟨p, hp, by simp [hpa]⟩
  have hm : e.hasMixed = true := by
    rw [← Bool.not_eq_false, hasMixed_false_iff]; exact hmix
  simp [Entry.blankAmount, hblank, hm, blankMixed_error _ _ hk, bind, Except.bind]

/-- Shares bought at 3 apiece with native money. -/
example : ∃ e : Entry Rat, Entry.parse (stdEnv ⟨2024, 6, 15, by decide⟩)
      s%"2024/6/1 ~ buy\n  shares  5 XYZ @ 3\n fee 1\n bank" s%"%Y/%m/%d" '.'
      [s%"shares", s%"fee", s%"bank"] = .ok e ∧ e.blankAmount = .ok (some ⟨-16, none⟩) ∧
      ¬ ∃ s, AllIn s e.postings :=
  ⟨_, rfl, by decide +kernel, by rw [← hasMixed_false_iff]; decide +kernel⟩

/-! ### C15 -/

/-- Number of blank postings. -/
def blankCount (ps : List (Posting M)) : Nat := ps.countP fun p => p.amount.isNone

/-- No two of the given amounts have different currency symbols (amounts without symbol do not count). -/
def OneSymbol (ps : List (Posting M)) : Prop :=
  ∀ a ∈ givenAmounts ps, ∀ b ∈ givenAmounts ps, ∀ s t,
    a.sym = some s → b.sym = some t → s = t

theorem setInsert_mem {α : Type} [DecidableEq α] (s : List α) (a x : α) :
    x ∈ setInsert s a ↔ x ∈ s ∨ x = a := by
  unfold setInsert
  split
  · rename_i h
    have : a ∈ s := by simpa using h
    constructor
    · exact Or.inl
    · rintro (h | rfl) <;> assumption
  · simp

theorem setInsert_nodup {α : Type} [DecidableEq α] (s : List α) (a : α) (h : s.Nodup) :
    (setInsert s a).Nodup := by
  unfold setInsert
  split
  · exact h
  · rename_i hn
    have : a ∉ s := by simpa using hn
    rw [List.nodup_append]
    refine ⟨h, by simp, ?_⟩
    intro x hx y hy
    have : y = a := by simpa using hy
    subst this
    rintro rfl
    contradiction

theorem validateLoop_spec (ps : List (Posting M)) (n : Nat) (syms : List Str) (hn : syms.Nodup)
    (hn1 : n ≤ 1) :
    if n + blankCount ps ≤ 1 then
      ∃ out, validateLoop ps n syms = .ok (n + blankCount ps, out) ∧ out.Nodup ∧
        ∀ s, s ∈ out ↔ s ∈ syms ∨ ∃ a ∈ givenAmounts ps, a.sym = some s
    else validateLoop ps n syms = .error (.err .validation) := by
  induction ps generalizing n syms with
  | nil => simp [blankCount, validateLoop, givenAmounts, hn, hn1]
  | cons p ps ih =>
    have hg := givenAmounts_cons p ps
    cases hp : p.amount with
    | none =>
      have hc : blankCount (p :: ps) = blankCount ps + 1 := by simp [blankCount, hp]
      rw [hc]
      unfold validateLoop
      simp only [hp]
      by_cases h0 : n = 0
      · subst h0
        have := ih 1 syms hn (by omega)
        simp only [hg, hp, Option.toList_none, List.nil_append]
        simp only [show ¬ (0 + 1 > 1) by omega, if_false]
        rw [show 0 + (blankCount ps + 1) = 1 + blankCount ps by omega]
        exact this
      · have : ¬ (n + (blankCount ps + 1) ≤ 1) := by omega
        rw [if_neg this, if_pos (by omega)]; rfl
    | some a =>
      have hc : blankCount (p :: ps) = blankCount ps := by simp [blankCount, hp]
      rw [hc]
      unfold validateLoop
      simp only [hp]
      cases hs : a.sym with
      | none =>
        have := ih n syms hn hn1
        split at this
        · rename_i hle
          rw [if_pos hle]
          obtain ⟨out, h1, h2, h3⟩ := this
          refine ⟨out, h1, h2, fun s => ?_⟩
          rw [h3, hg, hp]
          simp [hs]
        · rename_i hle
          rw [if_neg hle]; exact this
      | some t =>
        have := ih n (setInsert syms t) (setInsert_nodup _ _ hn) hn1
        split at this
        · rename_i hle
          rw [if_pos hle]
          obtain ⟨out, h1, h2, h3⟩ := this
          refine ⟨out, h1, h2, fun s => ?_⟩
          rw [h3, hg, hp, setInsert_mem]
          simp only [Option.toList_some, List.singleton_append, List.mem_cons, exists_eq_or_imp, hs,
            Option.some.injEq]
          rw [or_assoc, eq_comm (a := s)]
        · rename_i hle
          rw [if_neg hle]; exact this

/-- C15: validation lets exactly those entries pass that have at most one blank posting and, if they
have one, no two different currency symbols. Everything else is a validation error. -/
theorem C15_validate_iff (e : Entry M) :
    (e.validate = .ok () ↔
      blankCount e.postings ≤ 1 ∧ (blankCount e.postings = 0 ∨ OneSymbol e.postings)) ∧
    (e.validate ≠ .ok () → e.validate = .error (.err .validation)) := by
  have h := validateLoop_spec e.postings 0 [] (by simp) (by omega)
  simp only [Nat.zero_add] at h
  unfold Entry.validate
  split at h
  · rename_i hle
    obtain ⟨out, h1, h2, h3⟩ := h
    have hlen : ¬ (out.length > 1) ↔ OneSymbol e.postings := by
      constructor
      · intro hl a ha b hb s t hs ht
        have ms : s ∈ out := (h3 s).2 (Or.inr ⟨a, ha, hs⟩)
        have mt : t ∈ out := (h3 t).2 (Or.inr ⟨b, hb, ht⟩)
        match out, hl, ms, mt with
        | [], _, ms, _ => cases ms
        | [x], _, ms, mt => simp at ms mt; rw [ms, mt]
        | _ :: _ :: _, hl, _, _ => simp at hl
      · intro ho
        match out, h2, h3 with
        | [], _, _ => simp
        | [x], _, _ => simp
        | x :: y :: _, h2, h3 =>
          exfalso
          obtain ⟨a, ha, hs⟩ := ((h3 x).1 (by simp)).resolve_left (by simp)
          obtain ⟨b, hb, ht⟩ := ((h3 y).1 (by simp)).resolve_left (by simp)
          have := ho a ha b hb x y hs ht
          simp [this] at h2
    rw [h1]
    simp only [bind, Except.bind, pure, Except.pure, fail]
    rw [← hlen]
    by_cases hz : blankCount e.postings = 0
    · simp [hz]
    · by_cases hl : out.length > 1
      · have : blankCount e.postings > 0 ∧ out.length > 1 := ⟨by omega, hl⟩
        rw [if_pos this]
        simp [hl, hz]
      · have : ¬ (blankCount e.postings > 0 ∧ out.length > 1) := fun h => hl h.2
        rw [if_neg this]
        simp [hl, hle]
  · rename_i hle
    rw [h]
    simp [bind, Except.bind, hle]

/-- C15: so an entry that was read has at most one blank posting, and if it has one, no two different
currency symbols. -/
theorem C15_accepted_entry (env : Env) (chunk fmt : Str) (dec : Char) (accounts : List Str)
    (e : Entry M) (h : Entry.parse env chunk fmt dec accounts = .ok e) :
    blankCount e.postings ≤ 1 ∧ (blankCount e.postings = 0 ∨ OneSymbol e.postings) := by
  unfold Entry.parse at h
  simp only at h
  split at h
  · cases h
  · split at h
    · cases h
    · simp only [bind, Except.bind, pure, Except.pure] at h
      split at h
      · cases h
      · split at h
        · cases h
        · split at h
          · cases h
          · rename_i hv
            cases h
            exact (C15_validate_iff _).1.1 hv

example : exEntry.validate = .ok () ∧
    ({ exEntry with postings := exEntry.postings ++ exEntry.postings }).validate
      = .error (.err .validation) := by decide +kernel

/-! ### C16 -/

/-- C16, where it fails: `5` in one account and `7` in another is accepted, and no amount is left to
be inferred. -/
theorem C16_unbalanced_entry_accepted :
    ∃ e : Entry Rat, Entry.parse (stdEnv ⟨2024, 6, 15, by decide⟩)
      s%"2024/6/1 ~ x\n  a  5\n  b  7" s%"%Y/%m/%d" '.' [s%"a", s%"b"] = .ok e ∧
      e.blankAmount = .ok none ∧ sumMags (givenAmounts e.postings) = 12 :=
  ⟨_, rfl, by decide +kernel, by decide +kernel⟩

/-- C16, where it holds: an accepted entry with a blank posting, whose other postings (at least one) are
ordinary ones in native money or in one currency, balances. -/
theorem C16_blank_entry_balances_partial (env : Env) (chunk fmt : Str) (dec : Char)
    (accounts : List Str) (e : Entry Rat) (s : Option Str)
    (h : Entry.parse env chunk fmt dec accounts = .ok e)
    (hb : ∃ p ∈ e.postings, p.amount = none) (hs : AllIn s e.postings)
    (hne : givenAmounts e.postings ≠ []) (hord : e.envelopePostings = []) :
    ∃ b : Amount Rat, e.blankAmount = .ok (some b) ∧ b.sym = s ∧
      ((e.postings.filter fun q => !q.isEnvelope).map fun q => (q.amount.getD b).mag).sum = 0 := by
  obtain ⟨hc, _⟩ := C15_accepted_entry env chunk fmt dec accounts e h
  obtain ⟨p, hp, hpa⟩ := hb
  obtain ⟨pre, post, hps⟩ := List.append_of_mem hp
  have hno : ∀ q ∈ pre ++ post, q.amount ≠ none := by
    intro q hq hqa
    have h1 : blankCount e.postings = blankCount (pre ++ post) + 1 := by
      rw [hps]; simp [blankCount, hpa]; omega
    have h2 : 0 < blankCount (pre ++ post) := List.countP_pos_iff.2 ⟨q, hq, by simp [hqa]⟩
    omega
  refine C13_ordinary_postings_balance e s hord pre post p hps hpa ?_ ?_
  · intro q hq
    cases hqa : q.amount with
    | none => exact absurd hqa (hno q hq)
    | some a =>
      refine ⟨a, rfl, hs a (List.mem_filterMap.2 ⟨q, ?_, hqa⟩)⟩
      rw [hps]
      simp only [List.mem_append, List.mem_cons] at hq ⊢
      tauto
  · intro hnil
    apply hne
    rw [hps]
    have : pre = [] ∧ post = [] := by simpa using hnil
    simp [this.1, this.2, givenAmounts, hpa]

example : Entry.parse (stdEnv ⟨2024, 6, 15, by decide⟩)
      s%"2024/6/1 ~ x\n  a  100 USD\n  b\n  c -30 USD" s%"%Y/%m/%d" '.' [s%"a", s%"b", s%"c"]
      = .ok exEntry := by decide +kernel

/-! ### C17 -/

/-- C17: computing the blank amount of an entry, accepted or not, aborts in exactly one case: there
are postings and all of them are blank. -/
theorem C17_blank_amount_crashes_iff (e : Entry M) :
    e.blankAmount = .error .panic ↔ e.postings ≠ [] ∧ ∀ p ∈ e.postings, p.amount = none := by
  constructor
  · intro h
    by_cases hb : e.hasBlank = true
    · by_cases hm : e.hasMixed = true
      · exfalso
        simp only [Entry.blankAmount, hb, hm, Bool.not_true, Bool.false_eq_true, if_false, if_true,
          bind, Except.bind, pure, Except.pure] at h
        have key : ∀ (ps : List (Posting M)) (m : M), blankMixed ps m ≠ .error .panic := by
          intro ps
          induction ps with
          | nil => intro m; simp [blankMixed]
          | cons p ps ih =>
            intro m
            unfold blankMixed
            cases p.nativeValue with
            | some v => exact ih _
            | none => cases p.amount.isSome <;> simp [fail, ih]
        split at h
        · rename_i hk; cases h; exact key _ _ hk
        · cases h
      · obtain ⟨s, hs⟩ := (hasMixed_false_iff e).1 (by simpa using hm)
        have hex : ∃ p ∈ e.postings, p.amount = none := by
          obtain ⟨p, hp, hpa⟩ := List.any_eq_true.1 hb
          exact ⟨p, hp, by simpa using hpa⟩
        cases hg : givenAmounts e.postings with
        | cons a as => rw [blankAmount_single e s a as hex hs hg] at h; cases h
        | nil =>
          obtain ⟨p, hp, _⟩ := hex
          refine ⟨fun hn => by (rw [hn] at hp; cases hp), fun q hq => ?_⟩
          cases hqa : q.amount with
          | none => rfl
          | some a =>
            have : a ∈ givenAmounts e.postings := List.mem_filterMap.2 ⟨q, hq, hqa⟩
            rw [hg] at this; cases this
    · simp [Entry.blankAmount, hb] at h
  · rintro ⟨hne, hall⟩
    obtain ⟨p, ps, hps⟩ := List.exists_cons_of_ne_nil hne
    have hb : e.hasBlank = true := List.any_eq_true.2 ⟨p, by rw [hps]; simp, by
      simp [hall p (by rw [hps]; simp)]⟩
    have hd : e.postings.dropWhile (fun p => p.amount.isNone) = [] := by
      rcases dropBlank_spec e.postings with ⟨h1, _⟩ | ⟨q, rest, a, _, _, h3⟩
      · exact h1
      · have : a ∈ givenAmounts e.postings := by rw [h3]; simp
        obtain ⟨x, hx, hxa⟩ := List.mem_filterMap.1 this
        rw [hall x hx] at hxa; cases hxa
    simp [Entry.blankAmount, hb, Entry.hasMixed, hd, panicked]

/-- C17, where it holds: for an accepted entry that has an amount somewhere, or no posting at all, the
blank amount is computed or reported as an error. -/
theorem C17_blank_amount_no_crash_partial (e : Entry M)
    (h : e.postings = [] ∨ givenAmounts e.postings ≠ []) :
    (∃ b, e.blankAmount = .ok b) ∨ ∃ k, e.blankAmount = .error (.err k) := by
  have hn : e.blankAmount ≠ .error .panic := by
    rw [Ne, C17_blank_amount_crashes_iff]
    rintro ⟨hne, hall⟩
    rcases h with h | h
    · exact hne h
    · apply h
      unfold givenAmounts
      rw [List.filterMap_eq_nil_iff]
      exact hall
  cases hb : e.blankAmount with
  | ok b => exact Or.inl ⟨b, rfl⟩
  | error f =>
    cases f with
    | err k => exact Or.inr ⟨k, rfl⟩
    | panic => exact absurd hb hn

/-- C17, where it fails: an entry with a single, blank posting is accepted, and computing its amount
aborts. -/
theorem C17_only_blank_posting_crashes :
    ∃ e : Entry Rat, Entry.parse (stdEnv ⟨2024, 6, 15, by decide⟩)
      s%"2024/6/1 ~ x\n  a" s%"%Y/%m/%d" '.' [s%"a"] = .ok e ∧
      e.blankAmount = .error .panic :=
  ⟨_, rfl, by decide +kernel⟩

end Silverfox
