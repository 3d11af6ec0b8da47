import Verif.Props.Envelopes
import Verif.Props.Accounts
import Mathlib.Tactic.FieldSimp

/-
Filling envelopes: C37 - C43.

Specification: what an envelope lacks is its target minus what is already saved for the next due
date; a fill is a movement of available money into the envelope.
-/

namespace Silverfox

set_option linter.unusedSectionVars false
variable {M : Type} [Mag M]

/-! ### Lemmas -/

/-- The first, funding-dependent, bound of a fill. -/
def Envelope.instalment (today due : Date) (e : Envelope M) : M :=
  match e.funding with
  | .conservative =>
    Mag.div (Mag.add e.amount.mag (Mag.neg e.next.mag)) (Mag.ofInt (Date.daysSince due today))
  | _ => e.amount.mag

/-- The three reasons to leave an envelope alone. -/
def Envelope.Skipped (today : Date) (e : Envelope M) : Prop :=
  e.funding = .manual ∨ e.nextDue today = .ok none ∨ e.lastTx = today

theorem Amount.sub_ok {x y z : Amount M} (h : x.sub y = .ok z) :
    y.sym = x.sym ∧ z = ⟨Mag.add x.mag (Mag.neg y.mag), x.sym⟩ := by
  unfold Amount.sub Amount.add at h
  split at h
  · rename_i hs; cases h; exact ⟨hs.symm, rfl⟩
  · cases h

theorem fillingAmount_ok (today : Date) (e : Envelope M) (av a : Amount M)
    (h : e.fillingAmount today av = .ok a) :
    av.sym = e.amount.sym ∧ a.sym = e.amount.sym ∧
    ((e.Skipped today ∧ a.mag = Mag.zero) ∨
     (¬ e.Skipped today ∧ e.next.sym = e.amount.sym ∧
      ∃ due, e.nextDue today = .ok (some due) ∧
        a.mag = Envelope.fillMag (e.instalment today due) av.mag
          (Mag.add e.amount.mag (Mag.neg e.next.mag)) e.totalMag)) := by
  unfold Envelope.fillingAmount at h
  split at h
  · cases h
  · rename_i hs
    rw [Decidable.not_not] at hs
    refine ⟨hs, ?_⟩
    simp only [bind, Except.bind, pure, Except.pure] at h
    cases hd : e.nextDue today with
    | error f => simp [hd] at h
    | ok d =>
      simp only [hd] at h
      cases d with
      | none => cases h; exact ⟨rfl, Or.inl ⟨Or.inr (Or.inl hd), rfl⟩⟩
      | some due =>
        simp only at h
        split at h
        · cases h
        · rename_i r hr
          obtain ⟨hsym, rfl⟩ := Amount.sub_ok hr
          split at h
          · rename_i hl
            cases h; exact ⟨rfl, Or.inl ⟨Or.inr (Or.inr hl), rfl⟩⟩
          · rename_i hl
            cases hf : e.funding with
            | manual =>
              simp only [hf] at h
              cases h; exact ⟨rfl, Or.inl ⟨Or.inl hf, rfl⟩⟩
            | aggressive =>
              simp only [hf] at h
              cases h
              refine ⟨rfl, Or.inr ⟨?_, hsym, due, rfl, ?_⟩⟩
              · rintro (h | h | h)
                · simp [hf] at h
                · rw [hd] at h; cases h
                · exact hl h
              · simp [Envelope.instalment, hf]
            | conservative =>
              simp only [hf] at h
              cases h
              refine ⟨rfl, Or.inr ⟨?_, hsym, due, rfl, ?_⟩⟩
              · rintro (h | h | h)
                · simp [hf] at h
                · rw [hd] at h; cases h
                · exact hl h
              · simp [Envelope.instalment, hf]

/-- In exact arithmetic the chain of `min` and `max` is the ordinary one. -/
theorem fillMag_rat (first av rem tot : Rat) :
    Envelope.fillMag first av rem tot = max (max (min (min first av) rem) (-tot)) 0 := by
  have hmax : ∀ a b : Rat, (Mag.max a b : Rat) = max a b := by
    intro a b
    show (if a < b then b else a) = max a b
    split
    · rename_i h; exact (max_eq_right (le_of_lt h)).symm
    · rename_i h; exact (max_eq_left (not_lt.mp h)).symm
  have hmin : ∀ a b : Rat, (Mag.min a b : Rat) = min a b := by
    intro a b
    show (if b < a then b else a) = min a b
    split
    · rename_i h; exact (min_eq_right (le_of_lt h)).symm
    · rename_i h; exact (min_eq_left (not_lt.mp h)).symm
  simp only [Envelope.fillMag, hmax, hmin]
  rfl

namespace F64

/-- `a ≤ b` of IEEE-754: both are numbers, and `b < a` is false. -/
def Le (a b : F64) : Prop := a.isNan = false ∧ b.isNan = false ∧ lt b a = false

instance (a b : F64) : Decidable (Le a b) := by unfold Le; infer_instance

theorem Le.refl {a : F64} (h : a.isNan = false) : Le a a := by
  refine ⟨h, h, ?_⟩
  cases a with
  | nan => rfl
  | inf s => cases s <;> rfl
  | fin s n hr => simp [lt]

theorem Le.trans {a b c : F64} (h : Le a b) (h' : Le b c) : Le a c := by
  obtain ⟨h1, h2, h3⟩ := h
  obtain ⟨_, h5, h6⟩ := h'
  refine ⟨h1, h5, ?_⟩
  cases a <;> cases b <;> cases c <;> simp_all [lt, isNan]
  all_goals omega

theorem le_of_lt {a b : F64} (h : lt a b = true) : Le a b := by
  cases a <;> cases b <;> simp_all [lt, isNan, Le]
  omega

theorem le_max_right {a b : F64} (h : b.isNan = false) : Le b (max a b) := by
  unfold max
  split
  · exact Le.refl h
  · rename_i ha
    split
    · exact Le.refl h
    · rename_i hl
      exact ⟨h, by simpa using ha, by simpa using hl⟩

theorem max_le {a b c : F64} (ha : a.isNan = true ∨ Le a c) (hb : Le b c) : Le (max a b) c := by
  unfold max
  split
  · exact hb
  · rename_i hn
    split
    · exact hb
    · exact ha.resolve_left hn

theorem max_isNan {a b : F64} (h : b.isNan = false) : (max a b).isNan = false :=
  (le_max_right h).2.1

theorem min_le_right {a b : F64} (h : b.isNan = false) : Le (min a b) b := by
  unfold min
  split
  · exact Le.refl h
  · rename_i ha
    split
    · exact Le.refl h
    · rename_i hl
      exact ⟨by simpa using ha, h, by simpa using hl⟩

theorem min_le_left {a b : F64} (h : a.isNan = false) : Le (min a b) a := by
  unfold min
  split
  · rename_i hn; simp [h] at hn
  · split
    · rename_i hl; exact le_of_lt hl
    · exact Le.refl h

end F64

/-! ### C37 -/

/-- C37: a fill is a number and not negative, whatever the doubles involved (infinite and NaN
included). -/
theorem C37_fill_never_negative (today : Date) (e : Envelope F64) (av a : Amount F64)
    (h : e.fillingAmount today av = .ok a) : F64.Le F64.zero a.mag := by
  obtain ⟨_, _, h | ⟨_, _, due, _, h⟩⟩ := fillingAmount_ok today e av a h
  · rw [h.2]; exact F64.Le.refl rfl
  · rw [h]; exact F64.le_max_right rfl

/-- C37, exact arithmetic. -/
theorem C37_exact_fill_never_negative (today : Date) (e : Envelope Rat) (av a : Amount Rat)
    (h : e.fillingAmount today av = .ok a) : 0 ≤ a.mag := by
  obtain ⟨_, _, h | ⟨_, _, due, _, h⟩⟩ := fillingAmount_ok today e av a h
  · rw [h.2]; exact le_refl _
  · rw [h, fillMag_rat]; exact le_max_right _ _

/-- C37: manual envelopes, envelopes without a due date and envelopes already touched today get
nothing, in any arithmetic. -/
theorem C37_skipped_gets_nothing (today : Date) (e : Envelope M) (av a : Amount M)
    (hskip : e.funding = .manual ∨ e.nextDue today = .ok none ∨ e.lastTx = today)
    (h : e.fillingAmount today av = .ok a) : a = ⟨Mag.zero, e.amount.sym⟩ := by
  obtain ⟨_, hs, h | ⟨hn, _⟩⟩ := fillingAmount_ok today e av a h
  · cases a; simp_all
  · exact absurd hskip hn

/-- C37: a fill is in the currency of the envelope. -/
theorem C37_fill_currency (today : Date) (e : Envelope M) (av a : Amount M)
    (h : e.fillingAmount today av = .ok a) : a.sym = e.amount.sym :=
  (fillingAmount_ok today e av a h).2.1

example : exFood.fillingAmount june15 ⟨1000, none⟩ = .ok ⟨9, none⟩ := by decide +kernel

example : exFood.fillingAmount june15 ⟨-20, none⟩ = .ok ⟨0, none⟩ := by decide +kernel

/-! ### C38 -/

/-- C38 (the full claim is false, see `C38_overdrawn_overfills`): a fill of an envelope that is
not overdrawn leaves at most the target saved for next, or, if more was saved already, adds
nothing. Missing: envelopes with a negative balance. -/
theorem C38_no_overfill_partial (today : Date) (e : Envelope Rat) (av a : Amount Rat)
    (hpos : 0 ≤ e.holds) (h : e.fillingAmount today av = .ok a) :
    e.next.mag + a.mag ≤ max e.next.mag e.amount.mag := by
  obtain ⟨_, _, h | ⟨_, _, due, _, h⟩⟩ := fillingAmount_ok today e av a h
  · rw [h.2]; show e.next.mag + 0 ≤ _; rw [add_zero]; exact le_max_left _ _
  · rw [h, fillMag_rat]
    have ht : e.totalMag = e.holds := rfl
    have hr : (Mag.add e.amount.mag (Mag.neg e.next.mag) : Rat) = e.amount.mag - e.next.mag :=
      (sub_eq_add_neg _ _).symm
    rw [ht, hr]
    have h1 : min (min (e.instalment today due) av.mag) (e.amount.mag - e.next.mag)
        ≤ e.amount.mag - e.next.mag := min_le_right _ _
    have h2 : max (max (min (min (e.instalment today due) av.mag) (e.amount.mag - e.next.mag))
        (-e.holds)) 0 ≤ max (e.amount.mag - e.next.mag) 0 := by
      refine max_le (max_le (le_trans h1 (le_max_left _ _)) ?_) (le_max_right _ _)
      exact le_trans (by linarith) (le_max_right _ _)
    rcases le_total e.next.mag e.amount.mag with hle | hle
    · rw [max_eq_right hle]
      rw [max_eq_left (by linarith : (0 : Rat) ≤ e.amount.mag - e.next.mag)] at h2
      linarith
    · rw [max_eq_left hle]
      rw [max_eq_right (by linarith : e.amount.mag - e.next.mag ≤ 0)] at h2
      linarith

/-- C38: exactly when it overfills: the fill exceeds what is lacking only if the envelope's balance
is so negative that the debt alone is more than is lacking, and then the fill is the debt. -/
theorem C38_overfill_is_debt (today : Date) (e : Envelope Rat) (av a : Amount Rat)
    (h : e.fillingAmount today av = .ok a)
    (hover : max e.next.mag e.amount.mag < e.next.mag + a.mag) :
    a.mag = -e.holds ∧ 0 < a.mag := by
  obtain ⟨_, _, h | ⟨_, _, due, _, h⟩⟩ := fillingAmount_ok today e av a h
  · rw [h.2] at hover
    have : e.next.mag < e.next.mag + 0 := lt_of_le_of_lt (le_max_left _ _) hover
    linarith
  · rw [fillMag_rat] at h
    have ht : e.totalMag = e.holds := rfl
    have hr : (Mag.add e.amount.mag (Mag.neg e.next.mag) : Rat) = e.amount.mag - e.next.mag :=
      (sub_eq_add_neg _ _).symm
    rw [ht, hr] at h
    have h1 : min (min (e.instalment today due) av.mag) (e.amount.mag - e.next.mag)
        ≤ e.amount.mag - e.next.mag := min_le_right _ _
    have h3 := le_max_left e.next.mag e.amount.mag
    have h4 := le_max_right e.next.mag e.amount.mag
    have hpos : 0 < a.mag := by linarith
    refine ⟨?_, hpos⟩
    rcases max_choice (max (min (min (e.instalment today due) av.mag) (e.amount.mag - e.next.mag))
        (-e.holds)) 0 with h5 | h5
    · rw [h5] at h
      rcases max_choice (min (min (e.instalment today due) av.mag) (e.amount.mag - e.next.mag))
        (-e.holds) with h6 | h6
      · rw [h6] at h; rw [← h] at h1; linarith
      · rw [h6] at h; exact h
    · rw [h5] at h; linarith

/-- C38 in doubles: the fill of an envelope whose balance is not negative is at most what is
lacking, both as computed by the program. -/
theorem C38_float_no_overfill_partial (today : Date) (e : Envelope F64) (av a : Amount F64)
    (hpos : F64.Le F64.zero (F64.add e.now.mag e.next.mag))
    (hlack : F64.Le F64.zero (F64.sub e.amount.mag e.next.mag))
    (h : e.fillingAmount today av = .ok a) :
    F64.Le a.mag (F64.sub e.amount.mag e.next.mag) := by
  obtain ⟨_, _, h | ⟨_, _, due, _, h⟩⟩ := fillingAmount_ok today e av a h
  · rw [h.2]; exact hlack
  · rw [h]
    refine F64.max_le (Or.inr (F64.max_le (Or.inr (F64.min_le_right hlack.2.1)) ?_)) hlack
    refine F64.Le.trans ?_ hlack
    show F64.Le (F64.neg e.totalMag) F64.zero
    have : e.totalMag = F64.add e.now.mag e.next.mag := rfl
    rw [this]
    revert hpos
    cases F64.add e.now.mag e.next.mag with
    | nan => intro h; exact absurd h.2.1 (by decide)
    | inf s => cases s <;> intro h <;> revert h <;> decide
    | fin s n hr =>
      intro h
      have h3 := h.2.2
      simp only [F64.zero, F64.zeroS, F64.lt, decide_eq_false_iff_not] at h3
      refine ⟨rfl, rfl, ?_⟩
      simp only [F64.zero, F64.zeroS, F64.neg, F64.lt, decide_eq_false_iff_not]
      cases s <;> simp [F64.sgn] at h3 ⊢
      omega

/-- An envelope `food` of target 300, after spending 500 from it. -/
def exBroke : Envelope Rat := { exFood with now := ⟨-500, none⟩, next := ⟨0, none⟩ }

/-- C38 fails for an overdrawn envelope: a declared envelope, after one purchase of 500, is filled
with 500 although its target is 300 (and although the account has nothing available). -/
theorem C38_overdrawn_overfills :
    ∃ e : Envelope Rat, Envelope.parse (stdEnv june15)
      s%"  expense food due every 15th\n    amount 300\n    for expenses:food\n    funding aggressive" s%"assets:bank" '.'
        s%"%Y/%m/%d" = .ok e ∧
    ∃ x : Entry Rat, Entry.parse (stdEnv june15)
      s%"2024/6/10 ~ feast\n  assets:bank  -500\n  expenses:food  500" s%"%Y/%m/%d" '.'
        [s%"assets:bank", s%"expenses:food"] = .ok x ∧
    ∃ e', e.processEntry june15 x = .ok e' ∧
    ∃ a, e'.fillingAmount june15 ⟨0, none⟩ = .ok a ∧ e'.amount.mag < e'.next.mag + a.mag := by
  decide +kernel

example : 0 ≤ exFood.holds := by decide +kernel

/-! ### C39 -/

/-- Specification: what the fill postings take from currency `s`. -/
def fillsIn (s : Option Str) (ps : List (EnvPosting Rat)) : Rat :=
  (ps.map fun p => if p.amount.sym = s then p.amount.mag else 0).sum

theorem fillsIn_cons (s : Option Str) (p : EnvPosting Rat) (ps : List (EnvPosting Rat)) :
    fillsIn s (p :: ps) = p.amount.inSym s + fillsIn s ps := by
  simp [fillsIn, Amount.inSym]

theorem fillingPosting_ok (today : Date) (e : Envelope M) (avail : Pool M) (p : EnvPosting M)
    (h : e.fillingPosting today avail = .ok p) :
    p.account = e.account ∧ p.envelope = e.name ∧
      e.fillingAmount today (Pool.only avail e.amount.sym) = .ok p.amount := by
  unfold Envelope.fillingPosting at h
  simp only [bind, Except.bind, pure, Except.pure] at h
  split at h
  · cases h
  · rename_i a ha
    cases h
    exact ⟨rfl, rfl, ha⟩

theorem fillLoop_cons (today : Date) (e : Envelope M) (es : List (Envelope M)) (avail : Pool M)
    (ps : List (EnvPosting M)) (h : Account.fillLoop today (e :: es) avail = .ok ps) :
    ∃ p ps', ps = p :: ps' ∧ e.fillingPosting today avail = .ok p ∧
      Account.fillLoop today es (Pool.subAssign avail p.amount) = .ok ps' := by
  simp only [Account.fillLoop, bind, Except.bind, pure, Except.pure] at h
  split at h
  · cases h
  · rename_i p hp
    split at h
    · cases h
    · rename_i ps' hps
      cases h
      exact ⟨p, ps', rfl, hp, hps⟩

theorem inSym_nonneg {a : Amount Rat} (h : 0 ≤ a.mag) (s : Option Str) : 0 ≤ a.inSym s := by
  unfold Amount.inSym; split
  · exact h
  · exact le_refl _

theorem fillLoop_nonneg (today : Date) (es : List (Envelope Rat)) (avail : Pool Rat)
    (ps : List (EnvPosting Rat)) (h : Account.fillLoop today es avail = .ok ps) :
    ∀ p ∈ ps, 0 ≤ p.amount.mag := by
  induction es generalizing avail ps with
  | nil => cases h; simp
  | cons e es ih =>
    obtain ⟨p, ps', rfl, hp, hps⟩ := fillLoop_cons today e es avail ps h
    intro q hq
    rcases List.mem_cons.1 hq with rfl | hq
    · exact C37_exact_fill_never_negative _ _ _ _ (fillingPosting_ok _ _ _ _ hp).2.2
    · exact ih _ _ hps q hq

theorem fillsIn_nonneg (s : Option Str) (ps : List (EnvPosting Rat))
    (h : ∀ p ∈ ps, 0 ≤ p.amount.mag) : 0 ≤ fillsIn s ps := by
  induction ps with
  | nil => exact le_refl _
  | cons p ps ih =>
    rw [fillsIn_cons]
    exact add_nonneg (inSym_nonneg (h p (by simp)) s) (ih fun q hq => h q (by simp [hq]))

/-- A single fill of an envelope that is not overdrawn takes at most what is available. -/
theorem fill_le_available (today : Date) (e : Envelope Rat) (av a : Amount Rat)
    (hpos : 0 ≤ e.holds) (h : e.fillingAmount today av = .ok a) : a.mag ≤ max av.mag 0 := by
  obtain ⟨_, _, h | ⟨_, _, due, _, h⟩⟩ := fillingAmount_ok today e av a h
  · rw [h.2]; exact le_max_right _ _
  · rw [h, fillMag_rat]
    have ht : e.totalMag = e.holds := rfl
    rw [ht]
    refine max_le (max_le ?_ ?_) (le_max_right _ _)
    · exact le_trans (min_le_left _ _) (le_trans (min_le_right _ _) (le_max_left _ _))
    · exact le_trans (by linarith) (le_max_right _ _)

/-- C39 (the full claim is false, see `C39_overdrawn_overspends`): if no envelope of the account is
overdrawn, the fills of a currency together take at most what is available of it. Missing: accounts
with an overdrawn envelope. -/
theorem C39_fills_within_available_partial (today : Date) (a : Account Rat)
    (hpos : ∀ e ∈ a.envelopes, 0 ≤ e.holds) (ps : List (EnvPosting Rat))
    (h : a.fillingPostings today = .ok ps) (s : Option Str) :
    fillsIn s ps ≤ max (a.available.only s).mag 0 := by
  have key : ∀ (es : List (Envelope Rat)) (avail : Pool Rat) (ps : List (EnvPosting Rat)),
      (∀ e ∈ es, 0 ≤ e.holds) → Account.fillLoop today es avail = .ok ps →
      fillsIn s ps ≤ max (avail.bal s) 0 := by
    intro es
    induction es with
    | nil => intro avail ps _ h; cases h; exact le_max_right _ _
    | cons e es ih =>
      intro avail ps hpos h
      obtain ⟨p, ps', rfl, hp, hps⟩ := fillLoop_cons today e es avail ps h
      have h1 := ih _ _ (fun e he => hpos e (by simp [he])) hps
      rw [Pool.bal_subAssign] at h1
      obtain ⟨_, _, hf⟩ := fillingPosting_ok _ _ _ _ hp
      have h2 := fill_le_available today e _ _ (hpos e (by simp)) hf
      have h3 := C37_exact_fill_never_negative _ _ _ _ hf
      have hs := C37_fill_currency _ _ _ _ hf
      rw [fillsIn_cons]
      have h2' : p.amount.inSym s ≤ max (avail.bal s) 0 := by
        unfold Amount.inSym
        split
        · rename_i hps; rw [hs] at hps; rw [hps] at h2; exact h2
        · exact le_max_right _ _
      have h3' := inSym_nonneg h3 s
      rcases le_total (avail.bal s) 0 with hb | hb
      · rw [max_eq_right hb] at h2' ⊢
        rw [max_eq_right (by linarith)] at h1
        linarith
      · rw [max_eq_left hb] at h2' ⊢
        rw [max_eq_left (by linarith)] at h1
        linarith
  exact key _ _ _ (fun e he => hpos e (by simpa using he)) h

/-- C39: so filling never turns what is available negative (same hypothesis). -/
theorem C39_available_stays_partial (today : Date) (a : Account Rat)
    (hpos : ∀ e ∈ a.envelopes, 0 ≤ e.holds) (ps : List (EnvPosting Rat))
    (h : a.fillingPostings today = .ok ps) (s : Option Str)
    (hav : 0 ≤ (a.available.only s).mag) : 0 ≤ (a.available.only s).mag - fillsIn s ps := by
  have := C39_fills_within_available_partial today a hpos ps h s
  rw [max_eq_left hav] at this
  linarith

/-- C39 in doubles, for one envelope: its fill is at most what is available, if that is not negative
and the envelope is not overdrawn. -/
theorem C39_float_single_fill_partial (today : Date) (e : Envelope F64) (av a : Amount F64)
    (hpos : F64.lt (F64.add e.now.mag e.next.mag) F64.zero = false)
    (hnan : (F64.add e.now.mag e.next.mag).isNan = false)
    (hav : F64.Le F64.zero av.mag) (h : e.fillingAmount today av = .ok a) : F64.Le a.mag av.mag := by
  obtain ⟨_, _, h | ⟨_, _, due, _, h⟩⟩ := fillingAmount_ok today e av a h
  · rw [h.2]; exact hav
  · rw [h]
    have hmin : F64.Le (F64.min (F64.min (e.instalment today due) av.mag)
        (F64.sub e.amount.mag e.next.mag)) av.mag := by
      have h1 : F64.Le (F64.min (e.instalment today due) av.mag) av.mag := F64.min_le_right hav.2.1
      exact F64.Le.trans (F64.min_le_left h1.1) h1
    refine F64.max_le (Or.inr (F64.max_le (Or.inr hmin) ?_)) hav
    refine F64.Le.trans ?_ hav
    show F64.Le (F64.neg (F64.add e.now.mag e.next.mag)) F64.zero
    revert hpos hnan
    cases F64.add e.now.mag e.next.mag with
    | nan => intro _ h; simp [F64.isNan] at h
    | inf s => cases s <;> decide
    | fin s n hr =>
      intro h3 _
      simp only [F64.zero, F64.zeroS, F64.lt, decide_eq_false_iff_not] at h3
      refine ⟨rfl, rfl, ?_⟩
      simp only [F64.zero, F64.zeroS, F64.neg, F64.lt, decide_eq_false_iff_not]
      cases s <;> simp [F64.sgn] at h3 ⊢
      omega

/-- Two envelopes that compete for 50 and one that takes $30 of $30. -/
example : exBank.fillingPostings june15
    = .ok [⟨s%"assets:bank", s%"trip", ⟨30, some ['$']⟩⟩, ⟨s%"assets:bank", s%"food", ⟨9, none⟩⟩] := by
  decide +kernel

example : ∀ e ∈ exBank.envelopes, 0 ≤ e.holds := by decide +kernel

/-- C39 fails with an overdrawn envelope: the account of `exBroke` has nothing, and 500 is taken. -/
theorem C39_overdrawn_overspends :
    ∃ ps, Account.fillingPostings june15 ⟨s%"assets:bank", [exBroke], [], [⟨-500, none⟩]⟩ = .ok ps ∧
      (Account.available (M := Rat) ⟨s%"assets:bank", [exBroke], [], [⟨-500, none⟩]⟩).only none = ⟨0, none⟩ ∧
      fillsIn none ps = 500 := by
  decide +kernel

/-! ### C43 -/

/-- The pool has a line for currency `s`. -/
def Pool.Has (p : Pool M) (s : Option Str) : Prop := s ∈ p.map Amount.sym

theorem mem_pushNew {α : Type} [DecidableEq α] (acc : List α) (a b : α) :
    b ∈ pushNew acc a ↔ b ∈ acc ∨ b = a := by
  unfold pushNew; split <;> simp
  rintro rfl; assumption

theorem Pool.has_add (p : Pool M) (a : Amount M) (s : Option Str) :
    Pool.Has (Pool.add p a) s ↔ Pool.Has p s ∨ s = a.sym := by
  unfold Pool.Has; rw [Pool.syms_add, mem_pushNew]

theorem Pool.has_subAssign (p : Pool M) (a : Amount M) (s : Option Str) :
    Pool.Has (Pool.subAssign p a) s ↔ Pool.Has p s ∨ s = a.sym := by
  unfold Pool.Has; rw [Pool.syms_subAssign, mem_pushNew]

theorem Pool.only_sym {p : Pool M} {s : Option Str} (h : Pool.Has p s) : (Pool.only p s).sym = s := by
  unfold Pool.Has at h
  obtain ⟨a, ha, rfl⟩ := List.mem_map.1 h
  unfold Pool.only
  cases hf : List.find? (fun b => b.sym == a.sym) p with
  | none =>
    rw [List.find?_eq_none] at hf
    exact absurd (hf a ha) (by simp)
  | some b =>
    have := List.find?_some hf
    simpa using this

theorem available_has (a : Account M) (e : Envelope M) (he : e ∈ a.envelopes) :
    Pool.Has a.available e.now.sym := by
  have key : ∀ (es : List (Envelope M)) (p : Pool M) (s : Option Str),
      (Pool.Has p s ∨ ∃ e ∈ es, s = e.now.sym) →
      Pool.Has (es.foldl (fun p e => Pool.sub (Pool.sub p e.next) e.now) p) s := by
    intro es
    induction es with
    | nil => intro p s h; simpa using h
    | cons x es ih =>
      intro p s h
      rw [List.foldl_cons]
      apply ih
      rcases h with h | ⟨y, hy, h⟩
      · left
        unfold Pool.sub
        rw [Pool.has_add, Pool.has_add]
        exact Or.inl (Or.inl h)
      · rcases List.mem_cons.1 hy with rfl | hy
        · left
          unfold Pool.sub
          rw [Pool.has_add]
          exact Or.inr h
        · exact Or.inr ⟨y, hy, h⟩
  exact key _ _ _ (Or.inr ⟨e, he, rfl⟩)

theorem fillingAmount_total (today : Date) (e : Envelope M) (av : Amount M) (hc : e.OneCurrency)
    (hs : av.sym = e.amount.sym) (hd : ∃ d, e.nextDue today = .ok d) :
    ∃ a, e.fillingAmount today av = .ok a := by
  obtain ⟨d, hd⟩ := hd
  unfold Envelope.fillingAmount
  rw [if_neg (by simpa using hs)]
  simp only [bind, Except.bind, pure, Except.pure, hd]
  cases d with
  | none => exact ⟨_, rfl⟩
  | some due =>
    have : e.amount.sub e.next = .ok ⟨Mag.add e.amount.mag (Mag.neg e.next.mag), e.amount.sym⟩ := by
      unfold Amount.sub Amount.add
      rw [if_pos (by simp [Amount.neg, hc.2])]
      rfl
    simp only [this]
    split
    · exact ⟨_, rfl⟩
    · cases e.funding <;> exact ⟨_, rfl⟩

/-- C43: the fill postings of an account can be computed whatever arithmetic does, if the envelopes'
amounts share a currency (`Account.WF`, true of every account met by the program: see
`C43_reachable_never_crashes`) and their next due dates exist. -/
theorem C43_filling_never_crashes (today : Date) (a : Account M) (hw : a.WF)
    (hd : ∀ e ∈ a.envelopes, ∃ d, e.nextDue today = .ok d) :
    ∃ ps, a.fillingPostings today = .ok ps := by
  have key : ∀ (es : List (Envelope M)) (avail : Pool M),
      (∀ e ∈ es, e.OneCurrency ∧ Pool.Has avail e.amount.sym ∧ ∃ d, e.nextDue today = .ok d) →
      ∃ ps, Account.fillLoop today es avail = .ok ps := by
    intro es
    induction es with
    | nil => intro avail _; exact ⟨[], rfl⟩
    | cons e es ih =>
      intro avail h
      obtain ⟨hc, hh, hdd⟩ := h e (by simp)
      obtain ⟨x, hx⟩ := fillingAmount_total today e (Pool.only avail e.amount.sym) hc
        (Pool.only_sym hh) hdd
      obtain ⟨ps, hps⟩ := ih (Pool.subAssign avail x) (fun y hy => by
        obtain ⟨h1, h2, h3⟩ := h y (by simp [hy])
        exact ⟨h1, (Pool.has_subAssign _ _ _).2 (Or.inl h2), h3⟩)
      exact ⟨⟨e.account, e.name, x⟩ :: ps, by
        simp [Account.fillLoop, Envelope.fillingPosting, hx, hps, bind, Except.bind, pure, Except.pure]⟩
  refine key _ _ fun e he => ?_
  have he' : e ∈ a.envelopes := by simpa using he
  refine ⟨hw.currency e he', ?_, hd e he'⟩
  rw [← (hw.currency e he').1]
  exact available_has a e he'

theorem envelope_nextDue_total (today : Date) (e : Envelope M) (ht : today.Inner)
    (hf : e.freq.Inner) : ∃ d, e.nextDue today = .ok d := by
  obtain ⟨d, hd⟩ := C28_next_due_never_crashes today e.freq ht hf
  unfold Envelope.nextDue
  cases e.starting with
  | none => exact ⟨d, hd⟩
  | some s =>
    simp only [hd, bind, Except.bind, pure, Except.pure]
    cases d <;> exact ⟨_, rfl⟩

/-- C43: filling never crashes, for every account declaration and every history, on every day and
with every schedule within the calendar. -/
theorem C43_reachable_never_crashes (env : Env) (dec : Char) (fmt chunk : Str) (today : Date)
    (xs : List (Entry M)) (a a' : Account M)
    (hp : Account.parse env chunk dec fmt = .ok a) (h : runAccount today xs a = .ok a')
    (ht : today.Inner) (hf : ∀ e ∈ a.envelopes, e.freq.Inner) :
    ∃ ps, a'.fillingPostings today = .ok ps := by
  refine C43_filling_never_crashes today a'
    (runAccount_wf today xs a a' h (parsed_account_wf env dec fmt chunk a hp)) fun e he => ?_
  refine envelope_nextDue_total today e ht ?_
  have key : ∀ (xs : List (Entry M)) (a : Account M), runAccount today xs a = .ok a' →
      ∃ e0 ∈ a.envelopes, e.freq = e0.freq := by
    intro xs
    induction xs with
    | nil => intro a h; cases h; exact ⟨e, he, rfl⟩
    | cons x xs ih =>
      intro a h
      simp only [runAccount, bind, Except.bind] at h
      split at h
      · cases h
      · rename_i a1 h1
        obtain ⟨e1, he1, hfr⟩ := ih a1 h
        obtain ⟨e0, he0, hp0⟩ := forall₂_mem_right (C31_envelopes_independent today a a1 x h1) he1
        exact ⟨e0, he0, by
          rw [hfr, (SameButMoney.fields (processEntry_keeps _ _ _ _ hp0).1).2.2.2.2.2.1]⟩
  obtain ⟨e0, he0, hfr⟩ := key xs a h
  rw [hfr]; exact hf e0 he0

/-- A non-trivial case of the hypotheses: an account of two envelopes, one of them in dollars. -/
example : ∃ a : Account Rat, Account.parse (stdEnv june15)
    s%"account bank\n  expense x due every 1st\n    amount 5\n  goal y due every monday\n    amount $5"
      '.' s%"%Y" = .ok a ∧ ∃ a', runAccount june15 [exBuy, exMove] a = .ok a' ∧
      ∃ ps, a'.fillingPostings june15 = .ok ps := by decide +kernel

/-! ### C41 -/

/-- What is saved for next is never negative: only deposits go there. -/
theorem processEntry_next_nonneg (today : Date) (e e' : Envelope Rat) (x : Entry Rat)
    (h : e.processEntry today x = .ok e') (h0 : 0 ≤ e.next.mag) : 0 ≤ e'.next.mag := by
  have happ : ∀ (e e' : Envelope Rat) (a : Amount Rat) (d : Date),
      e.applyAmount today a d = .ok e' → 0 ≤ e.next.mag → 0 ≤ e'.next.mag := by
    intro e e' a d h h0
    rcases applyAmount_ok today e e' a d h with ⟨_, _, rfl⟩ | ⟨_, _, _, _, rfl⟩ |
      ⟨_, hpos, _, _, rfl⟩ | ⟨_, _, rfl⟩
    · exact h0
    · exact h0
    · have hpos' : (0 : Rat) < a.mag := by
        have : decide ((0 : Rat) < a.mag) = true := hpos
        simpa using this
      show (0 : Rat) ≤ e.next.mag + a.mag
      linarith
    · exact h0
  cases hb : x.hasEnvelopePosting with
  | true =>
    rw [processEntry_manual today e x hb] at h
    generalize manualMoves x e = as at h
    induction as generalizing e with
    | nil => cases h; exact h0
    | cons a as ih =>
      simp only [applyAll, bind, Except.bind] at h
      split at h
      · cases h
      · rename_i e1 h1
        exact ih e1 (happ _ _ _ _ h1 h0) h
  | false =>
    unfold Envelope.processEntry at h
    rw [hb] at h
    simp only [Bool.false_eq_true, if_false] at h
    unfold Envelope.infer at h
    simp only [bind, Except.bind, pure, Except.pure] at h
    split at h
    · cases h; exact h0
    · split at h
      · cases h
      · split at h
        · exact happ _ _ _ _ h h0
        · cases h; exact h0

theorem runHistory_next_nonneg (today : Date) (xs : List (Entry Rat)) (e e' : Envelope Rat)
    (h : runHistory today xs e = .ok e') (h0 : 0 ≤ e.next.mag) : 0 ≤ e'.next.mag := by
  induction xs generalizing e with
  | nil => cases h; exact h0
  | cons x xs ih =>
    simp only [runHistory, bind, Except.bind] at h
    split at h
    · cases h
    · rename_i e1 h1
      exact ih e1 h (processEntry_next_nonneg _ _ _ _ h1 h0)

/-- Specification: amounts a fill may move: not negative, at most what is available, and not above the
target. -/
def Envelope.MayMove (e : Envelope Rat) (av x : Rat) : Prop :=
  0 ≤ x ∧ x ≤ max av 0 ∧ e.next.mag + x ≤ max e.next.mag e.amount.mag

/-- C41: an aggressive fill is the largest amount that may be moved. (`0 ≤ next` holds of every envelope
met by the program, see `C41_reachable`.) -/
theorem C41_aggressive_is_greatest (today : Date) (e : Envelope Rat) (av a : Amount Rat)
    (hf : e.funding = .aggressive) (hskip : ¬ e.Skipped today)
    (hpos : 0 ≤ e.holds) (hnext : 0 ≤ e.next.mag)
    (h : e.fillingAmount today av = .ok a) :
    e.MayMove av.mag a.mag ∧ ∀ x, e.MayMove av.mag x → x ≤ a.mag := by
  have h1 := C37_exact_fill_never_negative _ _ _ _ h
  have h2 := fill_le_available _ _ _ _ hpos h
  have h3 := C38_no_overfill_partial _ _ _ _ hpos h
  refine ⟨⟨h1, h2, h3⟩, ?_⟩
  rintro x ⟨hx1, hx2, hx3⟩
  obtain ⟨_, _, h | ⟨_, _, due, _, h⟩⟩ := fillingAmount_ok today e av a h
  · exact absurd h.1 hskip
  · rw [h, fillMag_rat]
    have hi : e.instalment today due = e.amount.mag := by simp [Envelope.instalment, hf]
    have hr : (Mag.add e.amount.mag (Mag.neg e.next.mag) : Rat) = e.amount.mag - e.next.mag :=
      (sub_eq_add_neg _ _).symm
    rw [hi, hr]
    rcases le_or_gt x 0 with hx | hx
    · exact le_trans hx (le_max_right _ _)
    · refine le_trans (le_trans ?_ (le_max_left _ _)) (le_max_left _ _)
      have hav : x ≤ av.mag := by
        rcases le_total av.mag 0 with hv | hv
        · rw [max_eq_right hv] at hx2; linarith
        · rw [max_eq_left hv] at hx2; exact hx2
      have ham : e.next.mag + x ≤ e.amount.mag := by
        rcases le_total e.amount.mag e.next.mag with hv | hv
        · rw [max_eq_left hv] at hx3; linarith
        · rw [max_eq_right hv] at hx3; exact hx3
      exact le_min (le_min (by linarith) hav) (by linarith)

/-- C41 for every envelope the program meets. -/
theorem C41_reachable (env : Env) (chunk acc fmt : Str) (dec : Char) (today : Date)
    (xs : List (Entry Rat)) (e0 e : Envelope Rat) (av a : Amount Rat)
    (hp : Envelope.parse env chunk acc dec fmt = .ok e0) (hx : runHistory today xs e0 = .ok e)
    (hf : e.funding = .aggressive) (hskip : ¬ e.Skipped today) (hpos : 0 ≤ e.holds)
    (h : e.fillingAmount today av = .ok a) :
    e.MayMove av.mag a.mag ∧ ∀ x, e.MayMove av.mag x → x ≤ a.mag := by
  refine C41_aggressive_is_greatest today e av a hf hskip hpos ?_ h
  refine runHistory_next_nonneg today xs e0 e hx ?_
  have := (parsed_envelope_fresh env chunk acc dec fmt e0 hp).1.2.2.1
  rw [this]; exact le_refl _

example : exTrip.fillingAmount june15 ⟨50, some ['$']⟩ = .ok ⟨50, some ['$']⟩ ∧
    exTrip.fillingAmount june15 ⟨500, some ['$']⟩ = .ok ⟨74, some ['$']⟩ ∧
    exTrip.nextDue june15 = .ok (some ⟨2024, 7, 15, by decide⟩) ∧
    exTrip.lastTx ≠ june15 := by decide +kernel

end Silverfox
