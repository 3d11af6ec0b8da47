import Verif.Props.Accept
import Verif.Proofs.Entries
import Mathlib.Data.List.Nodup

/-
C115: the order in which the postings of an entry are written.
-/

namespace Silverfox

set_option linter.unusedSectionVars false

/-! ### Specification -/

/-- Specification: the same entry, its postings in another order. -/
def Reposted (x x' : Entry Rat) : Prop := x' = { x with postings := x'.postings } ∧ x'.postings.Perm x.postings

/-- Specification: one amount of each currency, in another order. -/
def SamePool (r r' : Pool Rat) : Prop := (r.map Amount.sym).Nodup ∧ r'.Perm r

/-- Specification: the same account, its real money in another order of currencies. -/
structure Rearranged (a a' : Account Rat) : Prop where
  name : a'.name = a.name
  expenses : a'.expenses = a.expenses
  goals : a'.goals = a.goals
  real : SamePool a.real a'.real

/-- Specification: the same ledger, but for the order of the postings of each entry and of the currencies of
each account. -/
structure RearrangedLedger (l l' : Ledger Rat) : Prop where
  file : l'.filePath = l.filePath
  entries : List.Forall₂ Reposted l.entries l'.entries
  format : l'.dateFormat = l.dateFormat
  currency : l'.currency = l.currency
  decimal : l'.decimal = l.decimal
  accounts : List.Forall₂ (fun p p' => p'.1 = p.1 ∧ Rearranged p.2 p'.2) l.accounts l'.accounts

/-- Specification: the same item; or an entry, the lines after its first in another order. -/
def SameItem (c c' : Str) : Prop :=
  c' = c ∨ (IsEntryItem c ∧ IsEntryItem c' ∧
    ∃ h ls ls', inkLines c = h :: ls ∧ inkLines c' = h :: ls' ∧ ls'.Perm ls)

/-! ### Entries -/

theorem Reposted.same (x : Entry Rat) : Reposted x x := ⟨rfl, .refl _⟩

theorem givenAmounts_perm {ps ps' : List (Posting Rat)} (h : ps'.Perm ps) :
    (givenAmounts ps').Perm (givenAmounts ps) := h.filterMap _

theorem blankCount_perm {ps ps' : List (Posting Rat)} (h : ps'.Perm ps) : blankCount ps' = blankCount ps := by
  unfold blankCount
  exact h.countP_eq _

theorem validate_perm {x x' : Entry Rat} (h : x'.postings.Perm x.postings) (hv : x.validate = .ok ()) :
    x'.validate = .ok () := by
  rw [(C15_validate_iff _).1] at hv ⊢
  have hg := givenAmounts_perm h
  rw [blankCount_perm h]
  unfold OneSymbol at *
  simpa only [hg.mem_iff] using hv

theorem foldl_msub (l : List (Amount Rat)) (z : Rat) :
    (l.map Amount.mag).foldl Mag.sub z = z - sumMags l := by
  induction l generalizing z with
  | nil => simp [sumMags]
  | cons x xs ih =>
    simp only [List.map_cons, List.foldl_cons, ih]
    simp only [sumMags, List.map_cons, List.sum_cons, Mag.sub]
    ring

theorem blankAmount_perm {x x' : Entry Rat} (h : x'.postings.Perm x.postings) (b : Option (Amount Rat))
    (hb : x.blankAmount = .ok b) : x'.blankAmount = .ok b := by
  have hg := givenAmounts_perm h
  have h0 : x'.hasBlank = x.hasBlank := by
    unfold Entry.hasBlank
    rw [Bool.eq_iff_iff, List.any_eq_true, List.any_eq_true]
    simp [h.mem_iff]
  cases hh : x.hasBlank with
  | false =>
    unfold Entry.blankAmount at hb ⊢
    simp only [h0, hh] at hb ⊢
    exact hb
  | true =>
    have hex : ∃ p ∈ x.postings, p.amount = none := by
      obtain ⟨p, hp, hq⟩ := List.any_eq_true.1 hh
      exact ⟨p, hp, by simpa using hq⟩
    have hex' : ∃ p ∈ x'.postings, p.amount = none := by
      obtain ⟨p, hp, hq⟩ := hex
      exact ⟨p, h.mem_iff.2 hp, hq⟩
    by_cases hm : ∃ s, AllIn s x.postings
    · obtain ⟨s, hs⟩ := hm
      have hs' : AllIn s x'.postings := fun a ha => hs a (hg.mem_iff.1 ha)
      cases hga : givenAmounts x.postings with
      | nil =>
        unfold Entry.blankAmount at hb
        rcases dropBlank_spec x.postings with ⟨h1, h2⟩ | ⟨p, rest, a, h1, h2, h3⟩
        · simp [hh, (hasMixed_false_iff x).2 ⟨s, hs⟩, h1, panicked] at hb
        · rw [hga] at h3; cases h3
      | cons a as =>
        rw [blankAmount_single x s a as hex hs hga] at hb
        cases hga' : givenAmounts x'.postings with
        | nil => rw [hga, hga'] at hg; exact absurd hg.length_eq (by simp)
        | cons a' as' =>
          rw [blankAmount_single x' s a' as' hex' hs' hga']
          rw [← hb]
          congr 3
          rw [hga, hga'] at hg
          have := (hg.map Amount.mag).sum_eq
          simp only [foldl_msub, sumMags, List.map_cons, List.sum_cons, Mag.neg] at this ⊢
          linarith
    · have hm' : ¬ ∃ s, AllIn s x'.postings := by
        rintro ⟨s, hs⟩
        exact hm ⟨s, fun a ha => hs a (hg.mem_iff.2 ha)⟩
      have hx : x.hasMixed = true := by rw [← Bool.not_eq_false, hasMixed_false_iff]; exact hm
      have hx' : x'.hasMixed = true := by rw [← Bool.not_eq_false, hasMixed_false_iff]; exact hm'
      unfold Entry.blankAmount at hb ⊢
      simp only [h0, hh, hx, hx', Bool.not_true, Bool.false_eq_true, if_false, if_true, bind, Except.bind, pure,
        Except.pure] at hb ⊢
      by_cases hk : ∃ p ∈ x.postings, p.amount.isSome ∧ p.nativeValue = none
      · rw [blankMixed_error _ _ hk] at hb; cases hb
      · have hk1 : ∀ p ∈ x.postings, p.amount.isSome → p.nativeValue.isSome := by
          intro p hp hs
          by_contra hc
          exact hk ⟨p, hp, hs, by simpa using hc⟩
        rw [blankMixed_spec _ _ hk1] at hb
        rw [blankMixed_spec _ _ fun p hp => hk1 p (h.mem_iff.1 hp), (h.filterMap _).sum_eq]
        exact hb

/-! ### Envelopes -/

theorem inferAmount_entry (e : Envelope Rat) {x x' : Entry Rat} (h : x'.postings.Perm x.postings) (p : Posting Rat)
    (a : Amount Rat) (ha : e.inferAmount x p = .ok a) : e.inferAmount x' p = .ok a := by
  unfold Envelope.inferAmount at ha ⊢
  cases hp : p.amount with
  | some b => simpa only [hp] using ha
  | none =>
    simp only [hp, bind, Except.bind] at ha ⊢
    cases hb : x.blankAmount with
    | error f => simp [hb] at ha
    | ok b => rw [blankAmount_perm h b hb]; simpa only [hb] using ha

theorem Amount.add_swap (s a b s1 s2 : Amount Rat) (h1 : s.add a = .ok s1) (h2 : s1.add b = .ok s2) :
    ∃ s1', s.add b = .ok s1' ∧ s1'.add a = .ok s2 := by
  unfold Amount.add at h1 h2 ⊢
  split at h1
  · rename_i e1
    cases h1
    simp only at h2
    split at h2
    · rename_i e2
      cases h2
      refine ⟨_, by rw [if_pos e2], ?_⟩
      simp only [e1, if_true, Mag.add]
      rw [add_right_comm]
    · cases h2
  · cases h1

/-- What one posting does to the sums. -/
def inferStep (e : Envelope Rat) (x : Entry Rat) (p : Posting Rat) (st : Amount Rat × Amount Rat) :
    Res (Amount Rat × Amount Rat) := do
  let a ← e.inferAmount x p
  if p.account = e.account then do
    let s ← st.1.add a
    pure (s, st.2)
  else if e.auto.contains p.account then do
    let u ← st.2.add a
    pure (st.1, u)
  else pure st

theorem inferLoop_cons (e : Envelope Rat) (x : Entry Rat) (p : Posting Rat) (ps : List (Posting Rat)) (s a : Amount Rat) :
    e.inferLoop x (p :: ps) s a = (inferStep e x p (s, a)).bind fun st => e.inferLoop x ps st.1 st.2 := by
  simp only [Envelope.inferLoop, inferStep, bind, Except.bind, pure, Except.pure]
  cases e.inferAmount x p with
  | error f => rfl
  | ok b =>
    simp only
    split
    · cases s.add b <;> rfl
    · split
      · cases a.add b <;> rfl
      · rfl

theorem inferStep_swap (e : Envelope Rat) (x : Entry Rat) (p q : Posting Rat) (st st1 st2 : Amount Rat × Amount Rat)
    (h1 : inferStep e x p st = .ok st1) (h2 : inferStep e x q st1 = .ok st2) :
    ∃ st1', inferStep e x q st = .ok st1' ∧ inferStep e x p st1' = .ok st2 := by
  unfold inferStep at *
  simp only [bind, Except.bind, pure, Except.pure] at *
  cases hp : e.inferAmount x p with
  | error f => simp [hp] at h1
  | ok a =>
    cases hq : e.inferAmount x q with
    | error f => simp [hq] at h2
    | ok b =>
      simp only [hp, hq] at *
      by_cases p1 : p.account = e.account
      · simp only [p1, if_true] at h1 ⊢
        split at h1
        · cases h1
        · rename_i s1 hs1
          cases h1
          by_cases q1 : q.account = e.account
          · simp only [q1, if_true] at h2 ⊢
            split at h2
            · cases h2
            · rename_i s2 hs2
              cases h2
              obtain ⟨s1', g1, g2⟩ := Amount.add_swap _ _ _ _ _ hs1 hs2
              exact ⟨(s1', st.2), by simp [g1], by simp [g2]⟩
          · simp only [q1, if_false] at h2 ⊢
            by_cases q2 : e.auto.contains q.account = true
            · simp only [q2, if_true] at h2 ⊢
              split at h2
              · cases h2
              · rename_i s2 hs2
                cases h2
                exact ⟨(st.1, s2), by simp, by simp [hs1]⟩
            · simp only [q2] at h2 ⊢
              cases h2
              exact ⟨st, by simp, by simp [hs1]⟩
      · simp only [p1, if_false] at h1 ⊢
        by_cases p2 : e.auto.contains p.account = true
        · simp only [p2, if_true] at h1 ⊢
          split at h1
          · cases h1
          · rename_i s1 hs1
            cases h1
            by_cases q1 : q.account = e.account
            · simp only [q1, if_true] at h2 ⊢
              split at h2
              · cases h2
              · rename_i s2 hs2
                cases h2
                exact ⟨(s2, st.2), by simp, by simp [hs1]⟩
            · simp only [q1, if_false] at h2 ⊢
              by_cases q2 : e.auto.contains q.account = true
              · simp only [q2, if_true] at h2 ⊢
                split at h2
                · cases h2
                · rename_i s2 hs2
                  cases h2
                  obtain ⟨s1', g1, g2⟩ := Amount.add_swap _ _ _ _ _ hs1 hs2
                  exact ⟨(st.1, s1'), by simp [g1], by simp [g2]⟩
              · simp only [q2] at h2 ⊢
                cases h2
                exact ⟨st, by simp, by simp [hs1]⟩
        · simp only [p2] at h1 ⊢
          cases h1
          exact ⟨st2, h2, by simp⟩

theorem inferLoop_perm (e : Envelope Rat) (x : Entry Rat) (ps ps' : List (Posting Rat)) (h : ps.Perm ps')
    (s a : Amount Rat) (r : Amount Rat × Amount Rat) (hr : e.inferLoop x ps s a = .ok r) :
    e.inferLoop x ps' s a = .ok r := by
  induction h generalizing s a with
  | nil => exact hr
  | cons p _ ih =>
    rw [inferLoop_cons] at hr ⊢
    cases hp : inferStep e x p (s, a) with
    | error f => rw [hp] at hr; cases hr
    | ok st => rw [hp] at hr; exact ih _ _ hr
  | swap p q ps =>
    rw [inferLoop_cons] at hr ⊢
    cases hq : inferStep e x q (s, a) with
    | error f => rw [hq] at hr; cases hr
    | ok st1 =>
      rw [hq] at hr
      simp only [Except.bind, inferLoop_cons] at hr
      cases hp : inferStep e x p st1 with
      | error f => simp [hp] at hr
      | ok st2 =>
        simp only [hp] at hr
        obtain ⟨st1', g1, g2⟩ := inferStep_swap e x q p _ _ _ hq hp
        rw [g1]
        simp only [Except.bind, inferLoop_cons, g2]
        exact hr
  | trans _ _ ih1 ih2 => exact ih2 _ _ (ih1 _ _ hr)

theorem inferLoop_entry (e : Envelope Rat) {x x' : Entry Rat} (h : x'.postings.Perm x.postings)
    (ps : List (Posting Rat)) (s a : Amount Rat) (r : Amount Rat × Amount Rat)
    (hr : e.inferLoop x ps s a = .ok r) : e.inferLoop x' ps s a = .ok r := by
  induction ps generalizing s a with
  | nil => exact hr
  | cons p ps ih =>
    rw [inferLoop_cons] at hr ⊢
    cases hp : e.inferAmount x p with
    | error f => simp [inferStep, hp, bind, Except.bind] at hr
    | ok b =>
      have : inferStep e x' p (s, a) = inferStep e x p (s, a) := by
        unfold inferStep
        rw [hp, inferAmount_entry e h p b hp]
      rw [this]
      cases hst : inferStep e x p (s, a) with
      | error f => rw [hst] at hr; cases hr
      | ok st => rw [hst] at hr; exact ih _ _ hr

theorem infer_reposted (d : Date) (e e1 : Envelope Rat) {x x' : Entry Rat} (h : Reposted x x')
    (he : e.infer d x = .ok e1) : e.infer d x' = .ok e1 := by
  have hd : x'.date = x.date := by rw [h.1]
  unfold Envelope.infer at he ⊢
  simp only [hd, h.2.countP_eq] at he ⊢
  split at he
  · rename_i hc; rw [if_pos hc]; exact he
  · rename_i hc
    rw [if_neg hc]
    simp only [bind, Except.bind] at he ⊢
    cases hl : e.inferLoop x x.postings ⟨Mag.zero, e.amount.sym⟩ ⟨Mag.zero, e.amount.sym⟩ with
    | error f => simp [hl] at he
    | ok r =>
      rw [inferLoop_perm e x' _ _ h.2.symm _ _ r (inferLoop_entry e h.2 _ _ _ r hl)]
      simpa only [hl] using he

theorem applyAmount_of_now (d : Date) (e : Envelope Rat) (a : Amount Rat) (date : Date)
    (h : Mag.lt a.mag Mag.zero = true ∨ (Mag.lt a.mag Mag.zero = false ∧ Mag.lt Mag.zero a.mag = true ∧
      ∃ l, e.freq.lastDue d = .ok (some l) ∧ Date.lt date l = true)) (hs : a.sym = e.now.sym) :
    e.applyAmount d a date = .ok (e.intoNow a.mag date) := by
  unfold Envelope.applyAmount
  rcases h with h1 | ⟨h1, h2, l, h3, h4⟩
  · simp [h1, Amount.add, hs, bind, Except.bind, pure, Except.pure, Envelope.intoNow]
  · simp [h1, h2, h3, h4, Amount.add, hs, bind, Except.bind, pure, Except.pure, Envelope.intoNow]

theorem applyAmount_of_next (d : Date) (e : Envelope Rat) (a : Amount Rat) (date : Date)
    (h1 : Mag.lt a.mag Mag.zero = false) (h2 : Mag.lt Mag.zero a.mag = true)
    (h3 : ∃ o, e.freq.lastDue d = .ok o ∧ ∀ l, o = some l → Date.lt date l = false) (hs : a.sym = e.next.sym) :
    e.applyAmount d a date = .ok (e.intoNext a.mag date) := by
  obtain ⟨o, h3, h4⟩ := h3
  unfold Envelope.applyAmount
  cases o with
  | none => simp [h1, h2, h3, Amount.add, hs, bind, Except.bind, pure, Except.pure, Envelope.intoNext]
  | some l => simp [h1, h2, h3, h4 l rfl, Amount.add, hs, bind, Except.bind, pure, Except.pure, Envelope.intoNext]

theorem applyAmount_of_zero (d : Date) (e : Envelope Rat) (a : Amount Rat) (date : Date)
    (h1 : Mag.lt a.mag Mag.zero = false) (h2 : Mag.lt Mag.zero a.mag = false) :
    e.applyAmount d a date = .ok { e with lastTx := date } := by
  unfold Envelope.applyAmount
  simp [h1, h2]

/-- Two movements of one day in the other order. -/
theorem applyAmount_swap (d : Date) (e e1 e2 : Envelope Rat) (a b : Amount Rat) (date : Date)
    (h1 : e.applyAmount d a date = .ok e1) (h2 : e1.applyAmount d b date = .ok e2) :
    ∃ e1', e.applyAmount d b date = .ok e1' ∧ e1'.applyAmount d a date = .ok e2 := by
  -- a movement goes into one pocket, or none
  have key : ∀ (e e1 : Envelope Rat) (a : Amount Rat), e.applyAmount d a date = .ok e1 →
      (e1 = e.intoNow a.mag date ∧ a.sym = e.now.sym ∧ ∀ f : Envelope Rat, f.freq = e.freq → a.sym = f.now.sym →
        f.applyAmount d a date = .ok (f.intoNow a.mag date)) ∨
      (e1 = e.intoNext a.mag date ∧ a.sym = e.next.sym ∧ ∀ f : Envelope Rat, f.freq = e.freq → a.sym = f.next.sym →
        f.applyAmount d a date = .ok (f.intoNext a.mag date)) ∨
      (e1 = { e with lastTx := date } ∧ ∀ f : Envelope Rat, f.applyAmount d a date = .ok { f with lastTx := date }) := by
    intro e e1 a h
    rcases applyAmount_ok d e e1 a date h with ⟨h1, h2, rfl⟩ | ⟨h1, h2, h3, h4, rfl⟩ |
      ⟨h1, h2, h3, h4, rfl⟩ | ⟨h1, h2, rfl⟩
    · exact .inl ⟨rfl, h2, fun f _ hs => applyAmount_of_now d f a date (.inl h1) hs⟩
    · exact .inl ⟨rfl, h3, fun f hf hs => applyAmount_of_now d f a date (.inr ⟨h1, h2, by rw [hf]; exact h4⟩) hs⟩
    · exact .inr (.inl ⟨rfl, h3, fun f hf hs => applyAmount_of_next d f a date h1 h2 (by rw [hf]; exact h4) hs⟩)
    · exact .inr (.inr ⟨rfl, fun f => applyAmount_of_zero d f a date h1 h2⟩)
  rcases key e e1 a h1 with ⟨rfl, s1, k1⟩ | ⟨rfl, s1, k1⟩ | ⟨rfl, k1⟩ <;>
    rcases key _ e2 b h2 with ⟨rfl, s2, k2⟩ | ⟨rfl, s2, k2⟩ | ⟨rfl, k2⟩
  · refine ⟨_, k2 e rfl s2, ?_⟩
    rw [k1 (e.intoNow b.mag date) rfl s1]
    simp only [Envelope.intoNow, Mag.add, add_right_comm]
  · exact ⟨_, k2 e rfl s2, k1 _ rfl s1⟩
  · exact ⟨_, k2 e, k1 _ rfl s1⟩
  · exact ⟨_, k2 e rfl s2, k1 _ rfl s1⟩
  · refine ⟨_, k2 e rfl s2, ?_⟩
    rw [k1 (e.intoNext b.mag date) rfl s1]
    simp only [Envelope.intoNext, Mag.add, add_right_comm]
  · exact ⟨_, k2 e, k1 _ rfl s1⟩
  · exact ⟨_, k2 e rfl s2, k1 _⟩
  · exact ⟨_, k2 e rfl s2, k1 _⟩
  · exact ⟨_, k2 e, k1 _⟩

theorem applyAll_perm (d date : Date) (as as' : List (Amount Rat)) (h : as.Perm as') (e e1 : Envelope Rat)
    (he : applyAll d date as e = .ok e1) : applyAll d date as' e = .ok e1 := by
  induction h generalizing e with
  | nil => exact he
  | cons a _ ih =>
    simp only [applyAll, bind, Except.bind] at he ⊢
    split at he
    · cases he
    · exact ih _ he
  | swap a b as =>
    simp only [applyAll, bind, Except.bind] at he ⊢
    cases h1 : e.applyAmount d b date with
    | error f => simp [h1] at he
    | ok e2 =>
      simp only [h1] at he
      cases h2 : e2.applyAmount d a date with
      | error f => simp [h2] at he
      | ok e3 =>
        simp only [h2] at he
        obtain ⟨e2', g1, g2⟩ := applyAmount_swap d e e2 e3 b a date h1 h2
        simp only [g1, g2]
        exact he
  | trans _ _ ih1 ih2 => exact ih2 _ (ih1 _ he)

theorem envProcess_reposted (d : Date) (e e1 : Envelope Rat) {x x' : Entry Rat} (h : Reposted x x')
    (he : e.processEntry d x = .ok e1) : e.processEntry d x' = .ok e1 := by
  have hd : x'.date = x.date := by rw [h.1]
  have hh : x'.hasEnvelopePosting = x.hasEnvelopePosting := by
    unfold Entry.hasEnvelopePosting
    rw [Bool.eq_iff_iff, List.any_eq_true, List.any_eq_true]
    simp [h.2.mem_iff]
  unfold Envelope.processEntry at he ⊢
  rw [hh, hd]
  split at he
  · rename_i hc
    rw [if_pos hc]
    rw [processManual_eq] at he ⊢
    refine applyAll_perm d _ _ _ ?_ e e1 he
    exact (((h.2.symm.filterMap _).filter _).map _)
  · rename_i hc
    rw [if_neg hc]
    exact infer_reposted d e e1 h he

theorem processEnvelopes_reposted (d : Date) {x x' : Entry Rat} (h : Reposted x x') (es es1 : List (Envelope Rat))
    (he : Account.processEnvelopes d x es = .ok es1) : Account.processEnvelopes d x' es = .ok es1 := by
  induction es generalizing es1 with
  | nil => exact he
  | cons e es ih =>
    simp only [Account.processEnvelopes, bind, Except.bind, pure, Except.pure] at he ⊢
    split at he
    · cases he
    · rename_i e1 he1
      split at he
      · cases he
      · rename_i es2 hes2
        simp only [envProcess_reposted d e e1 h he1, ih es2 hes2]
        exact he

/-! ### Real money -/

theorem line_mem {r : Pool Rat} (hn : (r.map Amount.sym).Nodup) {a : Amount Rat} (ha : a ∈ r) : r.line a.sym = some a := by
  induction r with
  | nil => cases ha
  | cons b r ih =>
    rw [List.map_cons, List.nodup_cons] at hn
    rcases List.mem_cons.1 ha with rfl | ha
    · simp [Pool.line]
    · have : b.sym ≠ a.sym := fun e => hn.1 (e ▸ List.mem_map_of_mem ha)
      have := ih hn.2 ha
      unfold Pool.line at this ⊢
      rw [List.find?_cons_of_neg (by simpa using ‹b.sym ≠ a.sym›)]
      exact this

theorem mem_of_line {r : Pool Rat} {s : Option Str} {a : Amount Rat} (h : r.line s = some a) : a ∈ r :=
  List.mem_of_find?_eq_some h

theorem samePool_of_lines {r r' : Pool Rat} (hn : (r.map Amount.sym).Nodup) (hn' : (r'.map Amount.sym).Nodup)
    (h : ∀ s, r'.line s = r.line s) : SamePool r r' := by
  refine ⟨hn, (List.perm_ext_iff_of_nodup (List.Nodup.of_map _ hn') (List.Nodup.of_map _ hn)).2 fun a => ?_⟩
  constructor
  · intro ha
    have := line_mem hn' ha
    rw [h] at this
    exact mem_of_line this
  · intro ha
    have := line_mem hn ha
    rw [← h] at this
    exact mem_of_line this

theorem SamePool.right {r r' : Pool Rat} (h : SamePool r r') : (r'.map Amount.sym).Nodup :=
  ((h.2.map Amount.sym).nodup_iff).2 h.1

theorem SamePool.lines {r r' : Pool Rat} (h : SamePool r r') (s : Option Str) : r'.line s = r.line s := by
  cases h1 : r.line s with
  | some a =>
    have := line_mem h.right (h.2.mem_iff.2 (mem_of_line h1))
    rw [Pool.line_sym h1] at this
    exact this
  | none =>
    cases h2 : r'.line s with
    | none => rfl
    | some a =>
      have := line_mem h.1 (h.2.mem_iff.1 (mem_of_line h2))
      rw [Pool.line_sym h2, h1] at this
      cases this

theorem SamePool.refl {r : Pool Rat} (h : (r.map Amount.sym).Nodup) : SamePool r r := ⟨h, .refl _⟩

theorem SamePool.trans {a b c : Pool Rat} (h : SamePool a b) (h' : SamePool b c) : SamePool a c :=
  ⟨h.1, h'.2.trans h.2⟩

theorem samePool_of_mags {r r' : Pool Rat} (hn : (r.map Amount.sym).Nodup) (hn' : (r'.map Amount.sym).Nodup)
    (h : ∀ s, (r'.line s).map Amount.mag = (r.line s).map Amount.mag) : SamePool r r' := by
  refine samePool_of_lines hn hn' fun s => ?_
  have := h s
  cases h1 : r.line s with
  | none => rw [h1] at this; cases h2 : r'.line s with
    | none => rfl
    | some a => rw [h2] at this; cases this
  | some a =>
    rw [h1] at this
    cases h2 : r'.line s with
    | none => rw [h2] at this; cases this
    | some b =>
      rw [h2] at this
      have e1 := Pool.line_sym h1
      have e2 := Pool.line_sym h2
      have e3 : b.mag = a.mag := by simpa using this
      cases a; cases b
      simp only at e1 e2 e3
      rw [e1, e2, e3]

theorem SamePool.mags {r r' : Pool Rat} (h : SamePool r r') (s : Option Str) :
    (r'.line s).map Amount.mag = (r.line s).map Amount.mag := by rw [h.lines s]

theorem pushNew_nodup {α : Type} [DecidableEq α] (acc : List α) (a : α) (h : acc.Nodup) : (pushNew acc a).Nodup := by
  unfold pushNew
  split
  · exact h
  · rename_i hc
    rw [List.nodup_append]
    exact ⟨h, by simp, by rintro b hb c hcc rfl; rw [List.mem_singleton] at hcc; exact hc (hcc ▸ hb)⟩

theorem add_nodup {r : Pool Rat} (h : (r.map Amount.sym).Nodup) (a : Amount Rat) : ((Pool.add r a).map Amount.sym).Nodup := by
  rw [Pool.syms_add]; exact pushNew_nodup _ _ h

theorem subAssign_nodup {r : Pool Rat} (h : (r.map Amount.sym).Nodup) (a : Amount Rat) :
    ((Pool.subAssign r a).map Amount.sym).Nodup := by
  rw [Pool.syms_subAssign]; exact pushNew_nodup _ _ h

theorem SamePool.add {r r' : Pool Rat} (h : SamePool r r') (a : Amount Rat) : SamePool (Pool.add r a) (Pool.add r' a) :=
  samePool_of_mags (add_nodup h.1 a) (add_nodup h.right a) fun s => by rw [Pool.line_add, Pool.line_add, h.mags s]

theorem SamePool.subAssign {r r' : Pool Rat} (h : SamePool r r') (a : Amount Rat) :
    SamePool (Pool.subAssign r a) (Pool.subAssign r' a) :=
  samePool_of_mags (subAssign_nodup h.1 a) (subAssign_nodup h.right a)
    fun s => by rw [Pool.line_subAssign, Pool.line_subAssign, h.mags s]

theorem SamePool.swap {r : Pool Rat} (h : (r.map Amount.sym).Nodup) (a b : Amount Rat) :
    SamePool (Pool.add (Pool.add r a) b) (Pool.add (Pool.add r b) a) :=
  samePool_of_mags (add_nodup (add_nodup h _) _) (add_nodup (add_nodup h _) _) fun s => by
    rw [Pool.line_add, Pool.line_add, Pool.line_add, Pool.line_add]
    unfold specAdd
    by_cases h1 : a.sym = s <;> by_cases h2 : b.sym = s <;> simp only [h1, h2, if_true, if_false]
    cases (r.line s).map Amount.mag with
    | none => simp only [Mag.add]; rw [add_comm]
    | some m => simp only [Mag.add]; rw [add_right_comm]

theorem SamePool.only {r r' : Pool Rat} (h : SamePool r r') (s : Option Str) : Pool.only r' s = Pool.only r s := by
  have := h.lines s
  unfold Pool.line at this
  unfold Pool.only
  rw [this]

/-- What one posting does to the real money. -/
def realStep (name : Str) (x : Entry Rat) (p : Posting Rat) (r : Pool Rat) : Res (Pool Rat) :=
  if p.account = name ∧ p.isEnvelope = false then
    match p.amount with
    | some a => .ok (Pool.add r a)
    | none => match x.blankAmount with
      | .error f => .error f
      | .ok (some a) => .ok (Pool.add r a)
      | .ok none => .ok r
  else .ok r

theorem processReal_cons (name : Str) (x : Entry Rat) (p : Posting Rat) (ps : List (Posting Rat)) (r : Pool Rat) :
    Account.processReal name x (p :: ps) r = (realStep name x p r).bind (Account.processReal name x ps) := by
  simp only [Account.processReal, realStep, bind, Except.bind]
  split
  · cases p.amount with
    | some a => rfl
    | none =>
      cases x.blankAmount with
      | error f => rfl
      | ok b => cases b <;> rfl
  · rfl

theorem realStep_same (name : Str) {x x' : Entry Rat} (h : x'.postings.Perm x.postings) (p : Posting Rat)
    (r r' r1 : Pool Rat) (hs : SamePool r r') (hr : realStep name x p r = .ok r1) :
    ∃ r1', realStep name x' p r' = .ok r1' ∧ SamePool r1 r1' := by
  unfold realStep at hr ⊢
  split at hr
  · rename_i hc
    simp only [if_pos hc]
    cases ha : p.amount with
    | some a => simp only [ha] at hr ⊢; cases hr; exact ⟨_, rfl, hs.add a⟩
    | none =>
      simp only [ha] at hr ⊢
      cases hb : x.blankAmount with
      | error f => simp [hb] at hr
      | ok b =>
        rw [blankAmount_perm h b hb]
        simp only [hb] at hr ⊢
        cases b with
        | none => cases hr; exact ⟨_, rfl, hs⟩
        | some a => cases hr; exact ⟨_, rfl, hs.add a⟩
  · rename_i hc
    simp only [if_neg hc]
    cases hr
    exact ⟨_, rfl, hs⟩

theorem realStep_swap (name : Str) (x : Entry Rat) (p q : Posting Rat) (r r1 r2 : Pool Rat)
    (hn : (r.map Amount.sym).Nodup)
    (h1 : realStep name x p r = .ok r1) (h2 : realStep name x q r1 = .ok r2) :
    ∃ r1' r2', realStep name x q r = .ok r1' ∧ realStep name x p r1' = .ok r2' ∧ SamePool r2 r2' := by
  have key : ∀ (p : Posting Rat) (r r1 : Pool Rat), realStep name x p r = .ok r1 →
      (∃ a, r1 = Pool.add r a ∧ ∀ r', realStep name x p r' = .ok (Pool.add r' a)) ∨
      (r1 = r ∧ ∀ r', realStep name x p r' = .ok r') := by
    intro p r r1 h
    unfold realStep at h
    split at h
    · rename_i hc
      cases ha : p.amount with
      | some a =>
        simp only [ha] at h
        cases h
        exact .inl ⟨a, rfl, fun r' => by unfold realStep; simp only [if_pos hc, ha]⟩
      | none =>
        simp only [ha] at h
        cases hb : x.blankAmount with
        | error f => simp [hb] at h
        | ok b =>
          simp only [hb] at h
          cases b with
          | none =>
            cases h
            exact .inr ⟨rfl, fun r' => by unfold realStep; simp only [if_pos hc, ha, hb]⟩
          | some a =>
            cases h
            exact .inl ⟨a, rfl, fun r' => by unfold realStep; simp only [if_pos hc, ha, hb]⟩
    · rename_i hc
      cases h
      exact .inr ⟨rfl, fun r' => by unfold realStep; rw [if_neg hc]⟩
  rcases key p r r1 h1 with ⟨a, rfl, k1⟩ | ⟨rfl, k1⟩ <;> rcases key q _ r2 h2 with ⟨b, rfl, k2⟩ | ⟨rfl, k2⟩
  · exact ⟨_, _, k2 r, k1 _, SamePool.swap hn a b⟩
  · exact ⟨_, _, k2 r, k1 _, .refl (add_nodup hn _)⟩
  · exact ⟨_, _, k2 _, k1 _, .refl (add_nodup hn _)⟩
  · exact ⟨_, _, k2 _, k1 _, .refl hn⟩

theorem processReal_same (name : Str) {x x' : Entry Rat} (h : x'.postings.Perm x.postings) (ps : List (Posting Rat))
    (r r' r1 : Pool Rat) (hs : SamePool r r') (hr : Account.processReal name x ps r = .ok r1) :
    ∃ r1', Account.processReal name x' ps r' = .ok r1' ∧ SamePool r1 r1' := by
  induction ps generalizing r r' with
  | nil => cases hr; exact ⟨r', rfl, hs⟩
  | cons p ps ih =>
    rw [processReal_cons] at hr ⊢
    cases hp : realStep name x p r with
    | error f => rw [hp] at hr; cases hr
    | ok r2 =>
      rw [hp] at hr
      obtain ⟨r2', g1, g2⟩ := realStep_same name h p r r' r2 hs hp
      rw [g1]
      exact ih r2 r2' g2 hr

theorem processReal_perm (name : Str) (x : Entry Rat) (ps ps' : List (Posting Rat)) (h : ps.Perm ps')
    (r r' r1 : Pool Rat) (hs : SamePool r r') (hr : Account.processReal name x ps r = .ok r1) :
    ∃ r1', Account.processReal name x ps' r' = .ok r1' ∧ SamePool r1 r1' := by
  induction h generalizing r r' r1 with
  | nil => cases hr; exact ⟨r', rfl, hs⟩
  | cons p _ ih =>
    rw [processReal_cons] at hr ⊢
    cases hp : realStep name x p r with
    | error f => rw [hp] at hr; cases hr
    | ok r2 =>
      rw [hp] at hr
      obtain ⟨r2', g1, g2⟩ := realStep_same name (.refl x.postings) p r r' r2 hs hp
      rw [g1]
      exact ih r2 r2' r1 g2 hr
  | swap p q ps =>
    rw [processReal_cons] at hr
    cases hq : realStep name x q r with
    | error f => rw [hq] at hr; cases hr
    | ok r2 =>
      rw [hq] at hr
      simp only [Except.bind, processReal_cons] at hr
      cases hp : realStep name x p r2 with
      | error f => simp [hp] at hr
      | ok r3 =>
        simp only [hp] at hr
        obtain ⟨r2', r3', g1, g2, g3⟩ := realStep_swap name x q p r r2 r3 hs.1 hq hp
        obtain ⟨r4, k1, k2⟩ := realStep_same name (.refl x.postings) p r r' r2' hs g1
        obtain ⟨r5, k3, k4⟩ := realStep_same name (.refl x.postings) q r2' r4 r3' k2 g2
        rw [processReal_cons, k1]
        simp only [Except.bind, processReal_cons, k3]
        exact processReal_same name (.refl x.postings) ps r3 r5 r1 (g3.trans k4) hr
  | trans _ _ ih1 ih2 =>
    obtain ⟨r2, g1, g2⟩ := ih1 r r r1 (.refl hs.1) hr
    obtain ⟨r3, g3, g4⟩ := ih2 r r' r2 hs g1
    exact ⟨r3, g3, g2.trans g4⟩

/-! ### Accounts and ledgers -/

theorem Rearranged.refl {a : Account Rat} (h : (a.real.map Amount.sym).Nodup) : Rearranged a a := ⟨rfl, rfl, rfl, .refl h⟩

theorem acctProcess_reposted (d : Date) {x x' : Entry Rat} (h : Reposted x x') (a a' a1 : Account Rat)
    (hs : Rearranged a a') (ha : a.processEntry d x = .ok a1) :
    ∃ a1', a'.processEntry d x' = .ok a1' ∧ Rearranged a1 a1' := by
  obtain ⟨ex, go, re, h1, h2, h3, rfl⟩ := (processAccount_ok d x a a1).1 ha
  obtain ⟨re1, k1, k2⟩ := processReal_same a.name h.2 x.postings a.real a'.real re hs.real h3
  obtain ⟨re2, k3, k4⟩ := processReal_perm a.name x' _ _ h.2.symm a'.real a'.real re1 (.refl hs.real.right) k1
  refine ⟨_, (processAccount_ok d x' a' _).2 ⟨ex, go, re2, ?_, ?_, by rw [hs.name]; exact k3, rfl⟩, ⟨hs.name, rfl, rfl, k2.trans k4⟩⟩
  · rw [hs.expenses]; exact processEnvelopes_reposted d h _ _ h1
  · rw [hs.goals]; exact processEnvelopes_reposted d h _ _ h2

abbrev MapRearranged : Str × Account Rat → Str × Account Rat → Prop := fun p p' => p'.1 = p.1 ∧ Rearranged p.2 p'.2

theorem processAll_reposted (d : Date) {x x' : Entry Rat} (h : Reposted x x') (as as' : List (Str × Account Rat))
    (hs : List.Forall₂ MapRearranged as as') (as1 : List (Str × Account Rat))
    (ha : Ledger.processAll d x as = .ok as1) :
    ∃ as1', Ledger.processAll d x' as' = .ok as1' ∧ List.Forall₂ MapRearranged as1 as1' := by
  induction hs generalizing as1 with
  | nil => cases ha; exact ⟨[], rfl, .nil⟩
  | @cons p p' ps ps' hx _ ih =>
    obtain ⟨k, a⟩ := p
    obtain ⟨k', a'⟩ := p'
    obtain ⟨hk, hb⟩ := hx
    simp only at hk hb
    simp only [Ledger.processAll, bind, Except.bind, pure, Except.pure] at ha ⊢
    split at ha
    · cases ha
    · rename_i a1 ha1
      split at ha
      · cases ha
      · rename_i as2 has2
        cases ha
        obtain ⟨a1', h1, h2⟩ := acctProcess_reposted d h _ _ a1 hb ha1
        obtain ⟨as2', h3, h4⟩ := ih as2 has2
        exact ⟨(k', a1') :: as2', by simp only [h1, h3], .cons ⟨hk, h2⟩ h4⟩

theorem insertBy_reposted {x x' : Entry Rat} (h : Reposted x x') (es es' : List (Entry Rat))
    (hs : List.Forall₂ Reposted es es') :
    List.Forall₂ Reposted (insertBy (fun a b => Date.lt a.date b.date) x es)
      (insertBy (fun a b => Date.lt a.date b.date) x' es') := by
  have hd : x'.date = x.date := by rw [h.1]
  induction hs with
  | nil => exact .cons h .nil
  | @cons y y' ys ys' hy hys ih =>
    have hd' : y'.date = y.date := by rw [hy.1]
    simp only [insertBy, hd, hd']
    split
    · exact .cons hy ih
    · exact .cons h (.cons hy hys)

theorem stableSort_reposted (es es' : List (Entry Rat)) (hs : List.Forall₂ Reposted es es') :
    List.Forall₂ Reposted (stableSort (fun a b => Date.lt a.date b.date) es)
      (stableSort (fun a b => Date.lt a.date b.date) es') := by
  induction hs with
  | nil => exact .nil
  | cons hy _ ih => exact insertBy_reposted hy _ _ ih

theorem forall₂_snoc {α : Type} {R : α → α → Prop} {xs ys : List α} (h : List.Forall₂ R xs ys) {x y : α} (hxy : R x y) :
    List.Forall₂ R (xs ++ [x]) (ys ++ [y]) := by
  induction h with
  | nil => exact .cons hxy .nil
  | cons h1 _ ih => exact .cons h1 ih

theorem addEntry_reposted (env : Env) (hord : FairOrder env.ord) {x x' : Entry Rat} (h : Reposted x x')
    (l l' l1 : Ledger Rat) (hs : RearrangedLedger l l') (hl : l.addEntry env x = .ok l1) :
    ∃ l1', l'.addEntry env x' = .ok l1' ∧ RearrangedLedger l1 l1' := by
  obtain ⟨accs, h1, rfl⟩ := (addEntry_iff env hord l l1 x).1 hl
  obtain ⟨accs', h2, h3⟩ := processAll_reposted env.today h _ _ hs.accounts accs h1
  exact ⟨_, (addEntry_iff env hord l' _ x').2 ⟨accs', h2, rfl⟩,
    ⟨hs.file, stableSort_reposted _ _ (forall₂_snoc hs.entries h), hs.format, hs.currency, hs.decimal, h3⟩⟩

theorem mapRearranged_names (as as' : List (Str × Account Rat)) (hs : List.Forall₂ MapRearranged as as') :
    as'.map Prod.fst = as.map Prod.fst := by
  induction hs with
  | nil => rfl
  | cons hx _ ih => simp [hx.1, ih]

theorem mapInsert_rearranged (as as' : List (Str × Account Rat)) (hs : List.Forall₂ MapRearranged as as')
    (k : Str) (a : Account Rat) (hn : (a.real.map Amount.sym).Nodup) : List.Forall₂ MapRearranged (mapInsert as k a) (mapInsert as' k a) := by
  induction hs with
  | nil => exact .cons ⟨rfl, .refl hn⟩ .nil
  | @cons p p' ps ps' hx hxs ih =>
    obtain ⟨q, b⟩ := p
    obtain ⟨q', b'⟩ := p'
    obtain ⟨hk, hb⟩ := hx
    simp only at hk hb
    subst hk
    simp only [mapInsert]
    split
    · exact .cons ⟨rfl, .refl hn⟩ hxs
    · exact .cons ⟨rfl, hb⟩ ih

/-! ### Texts -/

theorem parsePostings_perm (dec : Char) (accs : List Str) (ls ls' : List Str) (h : ls.Perm ls')
    (ps : List (Posting Rat)) (hp : Entry.parsePostings dec accs ls = .ok ps) :
    ∃ ps', Entry.parsePostings dec accs ls' = .ok ps' ∧ ps'.Perm ps := by
  induction h generalizing ps with
  | nil => exact ⟨ps, hp, .refl _⟩
  | cons l _ ih =>
    unfold Entry.parsePostings at hp ⊢
    split at hp
    · rename_i hc; rw [if_pos hc]; exact ih ps hp
    · rename_i hc
      rw [if_neg hc]
      simp only [bind, Except.bind, pure, Except.pure] at hp ⊢
      split at hp
      · cases hp
      · rename_i p hp1
        split at hp
        · cases hp
        · rename_i qs hq
          cases hp
          obtain ⟨qs', g1, g2⟩ := ih qs hq
          exact ⟨p :: qs', by simp only [g1], g2.cons p⟩
  | swap l m ls =>
    simp only [Entry.parsePostings, bind, Except.bind, pure, Except.pure] at hp ⊢
    by_cases h1 : (trim l).isEmpty = true <;> by_cases h2 : (trim m).isEmpty = true <;>
      simp only [h1, h2, if_true] at hp ⊢
    · exact ⟨ps, hp, .refl _⟩
    · simp only [Bool.false_eq_true, if_false] at hp ⊢
      exact ⟨ps, hp, .refl _⟩
    · simp only [Bool.false_eq_true, if_false] at hp ⊢
      exact ⟨ps, hp, .refl _⟩
    · simp only [Bool.false_eq_true, if_false] at hp ⊢
      cases h3 : (Posting.parse m dec accs : Res (Posting Rat)) with
      | error f => simp [h3] at hp
      | ok q =>
        cases h4 : (Posting.parse l dec accs : Res (Posting Rat)) with
        | error f => simp [h3, h4] at hp
        | ok p =>
          cases h5 : (Entry.parsePostings dec accs ls : Res (List (Posting Rat))) with
          | error f => simp [h3, h4, h5] at hp
          | ok qs =>
            simp only [h3, h4, h5] at hp ⊢
            cases hp
            exact ⟨_, rfl, .swap _ _ _⟩
  | trans _ _ ih1 ih2 =>
    obtain ⟨qs, g1, g2⟩ := ih1 ps hp
    obtain ⟨rs, g3, g4⟩ := ih2 qs g1
    exact ⟨rs, g3, g4.trans g2⟩

theorem parse_sameItem (env : Env) (c c' : Str) (hc : SameItem c c') (fmt : Str) (dec : Char) (accs : List Str)
    (x : Entry Rat) (h : Entry.parse env c fmt dec accs = .ok x) :
    ∃ x', Entry.parse env c' fmt dec accs = .ok x' ∧ Reposted x x' := by
  rcases hc with rfl | ⟨_, _, hd, ls, ls', h1, h2, hp⟩
  · exact ⟨x, h, .same x⟩
  · rw [Entry.parse_ink, h1] at h
    rw [Entry.parse_ink, h2]
    simp only [bind, Except.bind, pure, Except.pure] at h ⊢
    cases h3 : (Entry.parseHeader env hd fmt : Res (Entry Rat)) with
    | error f => simp [h3] at h
    | ok e =>
      simp only [h3] at h ⊢
      cases h4 : (Entry.parsePostings dec accs ls : Res (List (Posting Rat))) with
      | error f => simp [h4] at h
      | ok ps =>
        simp only [h4] at h
        obtain ⟨ps', g1, g2⟩ := parsePostings_perm dec accs ls ls' hp.symm ps h4
        simp only [g1]
        split at h
        · cases h
        · rename_i u hv
          cases h
          have hv' : ({ e with postings := ps' } : Entry Rat).validate = .ok () :=
            validate_perm (x := { e with postings := ps }) g2 hv
          simp only [hv']
          exact ⟨_, rfl, rfl, g2⟩

theorem SameItem.words {c c' : Str} (h : SameItem c c') : c' = c ∨ (IsEntryItem c ∧ IsEntryItem c') := by
  rcases h with h | ⟨h1, h2, _⟩
  · exact .inl h
  · exact .inr ⟨h1, h2⟩

theorem reading_sameItem (env : Env) (hord : FairOrder env.ord) (c c' : Str) (hc : SameItem c c')
    (l l' l1 : Ledger Rat) (hs : RearrangedLedger l l') (h : Reading env c l l1) :
    ∃ l1', Reading env c' l' l1' ∧ RearrangedLedger l1 l1' := by
  have hn : l'.accountNames = l.accountNames := mapRearranged_names _ _ hs.accounts
  have same : ∀ k, k ∈ [s%"account", s%"currency", s%"date_format", s%"include"] →
      (splitWs c).head? = some k → c' = c := by
    intro k hk hh
    rcases hc.words with h | ⟨⟨kw, more, e, hn⟩, _⟩
    · exact h
    · rw [e] at hh
      cases hh
      exact absurd hk hn
  cases h with
  | account a h1 h2 =>
    cases same _ (by simp) h1
    exact ⟨_, .account a h1 (by rw [hs.decimal, hs.format]; exact h2),
      ⟨hs.file, hs.entries, hs.format, hs.currency, hs.decimal, mapInsert_rearranged _ _ hs.accounts _ a (by rw [(parsed_account_fresh _ _ _ _ _ h2).1]; simp)⟩⟩
  | currency v more h1 =>
    cases same s%"currency" (by simp) (by rw [h1]; rfl)
    exact ⟨_, .currency v more h1, ⟨hs.file, hs.entries, hs.format, rfl, hs.decimal, hs.accounts⟩⟩
  | dateFormat v more h1 =>
    cases same s%"date_format" (by simp) (by rw [h1]; rfl)
    exact ⟨_, .dateFormat v more h1, ⟨hs.file, hs.entries, rfl, hs.currency, hs.decimal, hs.accounts⟩⟩
  | entry kw x _ h1 h2 h3 h4 =>
    obtain ⟨x', k1, k2⟩ := parse_sameItem env c c' hc _ _ _ x h3
    obtain ⟨l1', h5, h6⟩ := addEntry_reposted env hord k2 l l' l1 hs h4
    have hk : ∃ kw', (splitWs c').head? = some kw' ∧ kw' ∉ [s%"account", s%"currency", s%"date_format", s%"include"] := by
      rcases hc.words with rfl | ⟨_, kw', more, e, hn⟩
      · exact ⟨kw, h1, h2⟩
      · exact ⟨kw', by rw [e]; rfl, hn⟩
    obtain ⟨kw', e1, e2⟩ := hk
    refine ⟨l1', .entry kw' x' _ e1 e2 ?_ h5, h6⟩
    rw [hs.format, hs.decimal, hn]
    exact k1

/-- Specification: the same files, but for the order of the postings in the entries. -/
def SameFiles (file file' : APath → Option Str) : Prop :=
  ∀ p t, file p = some t → ∃ t', file' p = some t' ∧
    ∃ cs cs', Itemised (lines t) cs ∧ Itemised (lines t') cs' ∧ List.Forall₂ SameItem cs cs'

/-- Specification: the same task. -/
inductive SameTask : Task → Task → Prop
  | file (p : Str) : SameTask (.file p) (.file p)
  | items (cs cs' : List Str) : List.Forall₂ SameItem cs cs' → SameTask (.items cs) (.items cs')

theorem denotes_rearranged (env : Env) (hord : FairOrder env.ord) (file file' : APath → Option Str)
    (hf : SameFiles file file') (st st1 : Ledger Rat × APath) (task : Task) (h : Denotes env file st task st1)
    (task' : Task) (ht : SameTask task task') (l' : Ledger Rat) (hs : RearrangedLedger st.1 l') :
    ∃ l1', Denotes env file' (l', st.2) task' (l1', st1.2) ∧ RearrangedLedger st1.1 l1' := by
  induction h generalizing l' task' with
  | file l cwd path t cs st h1 h2 h3 _ ih =>
    cases ht
    obtain ⟨t', h2', ds, ds', i1, i2, hds⟩ := hf _ _ h2
    obtain ⟨items, _, hu⟩ := C88_items_of_a_text (lines t)
    have : ds = cs := by rw [hu ds i1, hu cs h3]
    subst this
    obtain ⟨l1', h4, h5⟩ := ih _ (.items _ _ hds) l' hs
    exact ⟨l1', .file l' cwd path t' ds' _ h1 h2' i2 h4, h5⟩
  | done st =>
    cases ht with
    | items _ _ hds => cases hds; exact ⟨l', .done _, hs⟩
  | nothing st st' c cs h1 _ ih =>
    cases ht with
    | items _ _ hds =>
      cases hds with
      | @cons _ c' _ cs' hc hcs =>
        obtain ⟨l1', h4, h5⟩ := ih _ (.items _ _ hcs) l' hs
        have : c' = c := by
          rcases hc.words with h | ⟨⟨kw, more, e, _⟩, _⟩
          · exact h
          · rw [h1] at e; cases e
        subst this
        exact ⟨l1', .nothing _ _ _ _ h1 h4, h5⟩
  | item l l2 cwd st' c cs h1 _ ih =>
    cases ht with
    | items _ _ hds =>
      cases hds with
      | @cons _ c' _ cs' hc hcs =>
        obtain ⟨l2', h2, h3⟩ := reading_sameItem env hord c c' hc l l' l2 hs h1
        obtain ⟨l1', h4, h5⟩ := ih _ (.items _ _ hcs) l2' h3
        exact ⟨l1', .item l' l2' cwd _ c' cs' h2 h4, h5⟩
  | incl st st1 st' c v more cs h1 _ _ ih1 ih2 =>
    cases ht with
    | items _ _ hds =>
      cases hds with
      | @cons _ c' _ cs' hc hcs =>
        have : c' = c := by
          rcases hc.words with h | ⟨⟨kw, more, e, hn⟩, _⟩
          · exact h
          · rw [h1] at e; cases e; exact absurd (by simp) hn
        subst this
        obtain ⟨l2', h2, h3⟩ := ih1 _ (.file v) l' hs
        obtain ⟨l1', h4, h5⟩ := ih2 _ (.items _ _ hcs) l2' h3
        exact ⟨l1', .incl _ _ _ _ v more _ h1 h2 h4, h5⟩

/-- **C115.** In exact arithmetic, with the postings of the entries written in another order, in the journal and in
the files it includes, the journal loads too; the entries are the same but for the order of their postings, the
envelopes are the same, and so is the money of each currency in each account. -/
theorem C115_order_of_postings (env : Env) (hord : FairOrder env.ord) (w w' : World) (path : Str)
    (hf : SameFiles w.file w'.file) (hc : w'.cwd = w.cwd) (l : Ledger Rat) (cwd : APath)
    (h : ∃ fuel, Ledger.fromFile env fuel w path = .ok (l, { w with cwd := cwd })) :
    ∃ l', (∃ fuel, Ledger.fromFile env fuel w' path = .ok (l', { w' with cwd := cwd })) ∧ RearrangedLedger l l' := by
  rw [C88_loading_reads_the_items] at h
  obtain ⟨l', h1, h2⟩ := denotes_rearranged env hord w.file w'.file hf _ _ _ h _ (.file path) (Ledger.new path)
    ⟨rfl, .nil, rfl, rfl, rfl, .nil⟩
  refine ⟨l', (C88_loading_reads_the_items env w' path l' cwd).2 ?_, h2⟩
  rw [hc]
  exact h1

/-! ### Filling and the envelope report -/

/-- **C115.** So the one journal loads just when the other does. -/
theorem C115_loads_iff (env : Env) (hord : FairOrder env.ord) (w w' : World) (path : Str)
    (hf : SameFiles w.file w'.file) (hf' : SameFiles w'.file w.file) (hc : w'.cwd = w.cwd) (cwd : APath) :
    (∃ (l : Ledger Rat) (fuel : Nat), Ledger.fromFile env fuel w path = .ok (l, { w with cwd := cwd })) ↔
      ∃ (l : Ledger Rat) (fuel : Nat), Ledger.fromFile env fuel w' path = .ok (l, { w' with cwd := cwd }) := by
  constructor
  · rintro ⟨l, h⟩
    obtain ⟨l', h', _⟩ := C115_order_of_postings env hord w w' path hf hc l cwd h
    exact ⟨l', h'⟩
  · rintro ⟨l, h⟩
    obtain ⟨l', h', _⟩ := C115_order_of_postings env hord w' w path hf' hc.symm l cwd h
    exact ⟨l', h'⟩

theorem available_same {a a' : Account Rat} (h : Rearranged a a') : SamePool a.available a'.available := by
  unfold Account.available Account.envelopes
  rw [h.expenses, h.goals]
  have hr := h.real
  generalize a.real = r at hr
  generalize a'.real = r' at hr
  generalize a.expenses ++ a.goals = es
  induction es generalizing r r' with
  | nil => exact hr
  | cons e es ih => exact ih _ _ ((hr.add _).add _)

theorem fillLoop_same (d : Date) (es : List (Envelope Rat)) (r r' : Pool Rat) (h : SamePool r r') :
    Account.fillLoop d es r' = Account.fillLoop d es r := by
  induction es generalizing r r' with
  | nil => rfl
  | cons e es ih =>
    simp only [Account.fillLoop, Envelope.fillingPosting, h.only, bind, Except.bind, pure, Except.pure]
    cases e.fillingAmount d (Pool.only r e.amount.sym) with
    | error f => rfl
    | ok b => simp only [ih _ _ (h.subAssign b)]

/-- **C115.** The envelopes of the account are filled in the same way. -/
theorem C115_filling (today : Date) (a a' : Account Rat) (h : Rearranged a a') :
    a'.fillingPostings today = a.fillingPostings today := by
  unfold Account.fillingPostings
  rw [fillLoop_same today _ _ _ (available_same h)]
  unfold Account.envelopes
  rw [h.expenses, h.goals]

/-- **C115.** What the envelope report shows for the account are the same lines; only what is available may be
listed in another order of currencies. -/
theorem C115_envelope_report (today : Date) (a a' : Account Rat) (h : Rearranged a a') (ls : List Str)
    (hl : a.display today = .ok ls) : ∃ ls', a'.display today = .ok ls' ∧ ls'.Perm ls := by
  have hp := ((available_same h).2.filter fun x => !Mag.eq x.mag (Mag.zero : Rat)).map
    fun x : Amount Rat => s%"    " ++ x.display
  unfold Account.display at hl ⊢
  rw [h.expenses, h.goals, h.name]
  split at hl
  · rename_i hc; rw [if_pos hc]; exact ⟨ls, hl, .refl _⟩
  · rename_i hc
    rw [if_neg hc]
    simp only [bind, Except.bind, pure, Except.pure] at hl ⊢
    split at hl
    · cases hl
    · split at hl
      · cases hl
      · cases hl
        refine ⟨_, rfl, ?_⟩
        simp only [List.cons_append]
        refine List.Perm.cons _ (List.Perm.cons _ ?_)
        exact ((hp.append_right _).append_right _).append_right _

/-- **C115.** If the account has money of one currency, what is shown is the very same. -/
theorem C115_envelope_report_one_currency (today : Date) (a a' : Account Rat) (h : Rearranged a a')
    (h1 : a.real.length ≤ 1) : a' = a ∧ a'.display today = a.display today := by
  have hr : a'.real = a.real := by
    have := h.real.2
    rcases hh : a.real with _ | ⟨b, _ | ⟨c, r⟩⟩
    · rw [hh] at this; exact this.eq_nil
    · rw [hh] at this; exact List.perm_singleton.1 this
    · rw [hh] at h1; simp at h1
  have : a' = a := by
    have e1 := h.name; have e2 := h.expenses; have e3 := h.goals
    cases a; cases a'
    simp only at e1 e2 e3 hr
    rw [e1, e2, e3, hr]
  exact ⟨this, by rw [this]⟩

/-! ### The balance report -/

/-- Specification: nothing, or the same pool. -/
def SameShown : Option (Pool Rat) → Option (Pool Rat) → Prop
  | none, none => True
  | some r, some r' => SamePool r r'
  | _, _ => False

/-- Specification: the account is not posted to, in one entry, both with an amount and without. -/
def NotBoth (k : Str) (x : Entry Rat) : Prop :=
  ∀ p ∈ x.postings, ∀ q ∈ x.postings, p.account = k → q.account = k → p.amount = none → q.amount = none

theorem countStep_other (k : Str) (x : Entry Rat) (t : Option (Pool Rat)) (p : Posting Rat) (h : p.account ≠ k) :
    countStep k x t p = t := by unfold countStep; rw [if_neg h]

theorem count_filter (k : Str) (x : Entry Rat) (ps : List (Posting Rat)) (t : Option (Pool Rat)) :
    ps.foldl (countStep k x) t = (ps.filter fun p => p.account = k).foldl (countStep k x) t := by
  induction ps generalizing t with
  | nil => rfl
  | cons p ps ih =>
    by_cases h : p.account = k
    · rw [List.filter_cons_of_pos (by simpa using h), List.foldl_cons, List.foldl_cons, ih]
    · rw [List.filter_cons_of_neg (by simpa using h), List.foldl_cons, countStep_other k x t p h, ih]

/-- Postings with amounts, all of the account. -/
theorem count_amounts (k : Str) (x : Entry Rat) (ps : List (Posting Rat)) (h : ∀ p ∈ ps, p.account = k ∧ p.amount ≠ none)
    (t : Option (Pool Rat)) :
    ps.foldl (countStep k x) t =
      if ps = [] then t else some ((givenAmounts ps).foldl Pool.add (t.getD [])) := by
  induction ps generalizing t with
  | nil => rfl
  | cons p ps ih =>
    obtain ⟨h1, h2⟩ := h p (by simp)
    obtain ⟨a, ha⟩ := Option.ne_none_iff_exists'.1 h2
    rw [List.foldl_cons, ih (fun q hq => h q (by simp [hq])), givenAmounts_cons, ha]
    have hs : countStep k x t p = some (Pool.add (t.getD []) a) := by
      unfold countStep
      rw [if_pos h1]
      cases t <;> simp [ha]
    rw [hs, if_neg (List.cons_ne_nil p ps)]
    cases ps with
    | nil => rfl
    | cons q ps => rfl

theorem foldl_add_same (as as' : List (Amount Rat)) (h : as.Perm as') (r r' : Pool Rat) (hs : SamePool r r') :
    SamePool (as.foldl Pool.add r) (as'.foldl Pool.add r') := by
  induction h generalizing r r' with
  | nil => exact hs
  | cons a _ ih => exact ih _ _ (hs.add a)
  | swap a b as =>
    simp only [List.foldl_cons]
    have : ∀ (as : List (Amount Rat)) (r r' : Pool Rat), SamePool r r' →
        SamePool (as.foldl Pool.add r) (as.foldl Pool.add r') := by
      intro as
      induction as with
      | nil => exact fun _ _ h => h
      | cons c as ih => exact fun _ _ h => ih _ _ (h.add c)
    exact this as _ _ ((SamePool.swap hs.1 b a).trans ((hs.add a).add b))
  | trans _ _ ih1 ih2 => exact (ih1 r r (.refl hs.1)).trans (ih2 r r' hs)

theorem SameShown.step (k : Str) {x x' : Entry Rat} (h : x'.postings.Perm x.postings) (t t' : Option (Pool Rat))
    (hs : SameShown t t') (p : Posting Rat) (hb : p.account = k → p.amount = none → ∃ b, x.blankAmount = .ok b) :
    SameShown (countStep k x t p) (countStep k x' t' p) := by
  have base : ∀ a : Amount Rat, SamePool [a] [a] := fun a => .refl (by simp)
  unfold countStep
  split
  · rename_i hk
    cases ha : p.amount with
    | some a =>
      cases t <;> cases t' <;> simp only [SameShown] at hs ⊢
      · exact base a
      · exact hs.add a
    | none =>
      obtain ⟨b, hb⟩ := hb hk ha
      have hb' := blankAmount_perm h b hb
      cases t <;> cases t' <;> simp only [SameShown, hb, hb'] at hs ⊢
      · exact base _
      · cases b with
        | none => exact hs
        | some b => exact hs.add b
  · exact hs

theorem SameShown.entry (k : Str) {x x' : Entry Rat} (h : x'.postings.Perm x.postings) (hv : blankCount x.postings ≤ 1)
    (hn : NotBoth k x) (hb : ∀ p ∈ x.postings, p.amount = none → ∃ b, x.blankAmount = .ok b)
    (t t' : Option (Pool Rat)) (hs : SameShown t t') :
    SameShown (x.postings.foldl (countStep k x) t) (x'.postings.foldl (countStep k x') t') := by
  rw [count_filter, count_filter k x']
  have hp := h.filter fun p => decide (p.account = k)
  have hq : ∀ p, p ∈ x.postings.filter (fun p => decide (p.account = k)) → p ∈ x.postings ∧ p.account = k := by
    intro p hp; simpa using hp
  by_cases hblank : ∃ p ∈ x.postings.filter (fun p => decide (p.account = k)), p.amount = none
  · -- the blank posting is the only one
    obtain ⟨p, hpm, hpa⟩ := hblank
    obtain ⟨h1, h2⟩ := hq p hpm
    have hone : ∃ q, x.postings.filter (fun p => decide (p.account = k)) = [q] := by
      have hc : (x.postings.filter fun p => decide (p.account = k)).length ≤ 1 := by
        rw [← List.countP_eq_length_filter]
        refine Nat.le_trans ?_ hv
        unfold blankCount
        refine List.countP_mono_left fun q hqm hqk => ?_
        rw [hn p h1 q hqm h2 (by simpa using hqk) hpa]; rfl
      rcases hf : x.postings.filter (fun p => decide (p.account = k)) with _ | ⟨q, _ | ⟨r, rs⟩⟩
      · rw [hf] at hpm; cases hpm
      · exact ⟨q, hf⟩
      · rw [hf] at hc; simp at hc
    obtain ⟨q, hqe⟩ := hone
    rw [hqe] at hp hpm
    rw [List.mem_singleton] at hpm
    subst hpm
    rw [hqe, List.perm_singleton.1 hp]
    exact SameShown.step k h t t' hs p fun _ _ => hb p h1 hpa
  · have ha : ∀ p ∈ x.postings.filter (fun p => decide (p.account = k)), p.account = k ∧ p.amount ≠ none :=
      fun p hp => ⟨(hq p hp).2, fun e => hblank ⟨p, hp, e⟩⟩
    rw [count_amounts k x _ ha, count_amounts k x' _ fun p hp' => ha p (hp.mem_iff.1 hp')]
    by_cases he : x.postings.filter (fun p => decide (p.account = k)) = []
    · rw [he] at hp
      rw [if_pos he, if_pos hp.eq_nil]
      exact hs
    · have he' : x'.postings.filter (fun p => decide (p.account = k)) ≠ [] := by
        intro e
        rw [e] at hp
        exact he hp.symm.eq_nil
      rw [if_neg he, if_neg he']
      refine foldl_add_same _ _ (givenAmounts_perm hp).symm _ _ ?_
      cases t <;> cases t' <;> simp only [SameShown] at hs
      · exact .refl (by simp)
      · exact hs

/-- **C115.** The balance report shows the same for an account that no entry posts to both with an amount and
without. Missing for the full claim: an account that an entry posts to in both ways, where the claim is false
(`C115_blank_line_first`). -/
theorem C115_balance_partial (env : Env) (fuel fuel' : Nat) (w w' v v' : World) (path : Str) (l l' : Ledger Rat)
    (h : Ledger.fromFile env fuel w path = .ok (l, v)) (h' : Ledger.fromFile env fuel' w' path = .ok (l', v'))
    (hs : RearrangedLedger l l') (k : Str) (hk : ∀ x ∈ l.entries, NotBoth k x) :
    ∃ tot tot', l.totals = .ok tot ∧ l'.totals = .ok tot' ∧ SameShown (mapGet tot k) (mapGet tot' k) := by
  have hi := loaded_inv env fuel w v path l h
  obtain ⟨tot, ht⟩ := totals_total l.entries [] hi.blanks
  obtain ⟨tot', ht'⟩ := totals_total l'.entries [] (loaded_inv env fuel' w' v' path l' h').blanks
  refine ⟨tot, tot', ht, ht', ?_⟩
  rw [C51_exact_rule l tot ht k, C51_exact_rule l' tot' ht' k]
  have hblanks := hi.blanks
  have hvalid := hi.valid
  have he := hs.entries
  unfold countAll
  generalize l.entries = es at *
  generalize l'.entries = es' at *
  have : ∀ t t', SameShown t t' → SameShown (es.foldl (fun t x => x.postings.foldl (countStep k x) t) t)
      (es'.foldl (fun t x => x.postings.foldl (countStep k x) t) t') := by
    clear ht ht'
    induction he with
    | nil => exact fun _ _ h => h
    | @cons x x' es es' hx _ ih =>
      intro t t' hst
      rw [List.foldl_cons, List.foldl_cons]
      refine ih (fun y hy => hk y (by simp [hy])) (fun y hy => hblanks y (by simp [hy]))
        (fun y hy => hvalid y (by simp [hy])) _ _ ?_
      exact SameShown.entry k hx.2 ((C15_validate_iff x).1.1 (hvalid x (by simp))).1 (hk x (by simp))
        (hblanks x (by simp)) t t' hst
  exact this none none trivial

/-! ### The register -/

/-- The same row, its amounts in another order of currencies. -/
def SameRow (r r' : RegisterData Rat) : Prop :=
  r' = { r with amounts := r'.amounts } ∧ SamePool r.amounts r'.amounts

theorem flowName_perm {a b : List Str} (h : b.Perm a) : flowName b = flowName a := by
  rcases a with _ | ⟨x, _ | ⟨y, a⟩⟩
  · rw [h.eq_nil]
  · rw [List.perm_singleton.1 h]
  · rcases b with _ | ⟨z, _ | ⟨u, b⟩⟩
    · exact absurd h.length_eq (by simp)
    · exact absurd h.length_eq (by simp)
    · rfl

theorem isZero_perm {r r' : Pool Rat} (h : r'.Perm r) : Pool.isZero r' = Pool.isZero r := by
  unfold Pool.isZero
  cases r with
  | nil => rw [h.eq_nil]
  | cons a r =>
    cases r' with
    | nil => exact absurd h.length_eq (by simp)
    | cons b r' =>
      simp only [List.isEmpty_cons, Bool.false_eq_true, if_false]
      rw [Bool.eq_iff_iff, List.all_eq_true, List.all_eq_true]
      exact ⟨fun g x hx => g x (h.mem_iff.2 hx), fun g x hx => g x (h.mem_iff.1 hx)⟩

theorem valueOf_reposted {x x' : Entry Rat} (h : x'.postings.Perm x.postings) (hb : x.hasBlank = true → ∃ b, x.blankAmount = .ok b)
    (p : Posting Rat) (hp : p ∈ x.postings) : x'.valueOf p = x.valueOf p := by
  unfold Entry.valueOf
  cases ha : p.amount with
  | some a => rfl
  | none =>
    obtain ⟨b, hb⟩ := hb (List.any_eq_true.2 ⟨p, hp, by simp [ha]⟩)
    rw [hb, blankAmount_perm h b hb]

theorem ratLt (m : Rat) (h : Mag.lt (Mag.zero : Rat) m = true) : Mag.lt m (Mag.zero : Rat) = false := by
  simp only [Mag.lt, Mag.zero, decide_eq_true_eq, decide_eq_false_iff_not] at h ⊢
  linarith

theorem registerLoop_reposted {x x' : Entry Rat} (h : x'.postings.Perm x.postings) (am : Option Str)
    (r : List Str × List Str × Pool Rat) (hr : registerLoop x am x.postings [] [] [] = .ok r) :
    ∃ r', registerLoop x' am x'.postings [] [] [] = .ok r' ∧ r'.1.Perm r.1 ∧ r'.2.1.Perm r.2.1 ∧ SamePool r.2.2 r'.2.2 := by
  -- the amount of a blank posting can be inferred
  have hb : ∀ p ∈ x.postings, p.amount = none → ∃ b, x.blankAmount = .ok (some b) := by
    have key : ∀ (ps : List (Posting Rat)) (pos neg : List Str) (pool : Pool Rat) (r : List Str × List Str × Pool Rat),
        registerLoop x am ps pos neg pool = .ok r → ∀ p ∈ ps, p.amount = none → ∃ b, x.blankAmount = .ok (some b) := by
      intro ps
      induction ps with
      | nil => intro _ _ _ _ _ p hp; cases hp
      | cons q ps ih =>
        intro pos neg pool r hr p hp ha
        simp only [registerLoop, bind, Except.bind, pure, Except.pure] at hr
        rcases List.mem_cons.1 hp with rfl | hp
        · simp only [ha] at hr
          cases hbl : x.blankAmount with
          | error f => simp [hbl] at hr
          | ok b => cases b with
            | none => simp [hbl, unwrap] at hr
            | some b => exact ⟨b, rfl⟩
        · split at hr
          · exact ih _ _ _ _ hr p hp ha
          · split at hr
            · cases hr
            · split at hr
              · cases hr
              · exact ih _ _ _ _ hr p hp ha
    exact key _ _ _ _ _ hr
  have hb' : x.hasBlank = true → ∃ b, x.blankAmount = .ok b := by
    intro hh
    obtain ⟨p, hp, ha⟩ := List.any_eq_true.1 hh
    obtain ⟨b, h1⟩ := hb p hp (by simpa using ha)
    exact ⟨_, h1⟩
  obtain ⟨r', hr'⟩ := registerLoop_total x' am x'.postings [] [] [] (by
    intro p hp ha
    obtain ⟨b, h1⟩ := hb p (h.mem_iff.1 hp) ha
    exact ⟨b, blankAmount_perm h _ h1⟩)
  have hv := valueOf_reposted h hb'
  obtain ⟨f1, f2⟩ := registerLoop_flow ratLt x am _ _ _ _ r hr
  obtain ⟨f1', f2'⟩ := registerLoop_flow ratLt x' am _ _ _ _ r' hr'
  have fp := registerLoop_pool x am _ _ _ _ r hr
  have fp' := registerLoop_pool x' am _ _ _ _ r' hr'
  have seen : ∀ (l l' : List Str), l'.Perm l → (l'.foldl pushNew []).Perm (l.foldl pushNew []) := by
    intro l l' hl
    obtain ⟨n1, m1⟩ := firstSeen_aux l [] List.nodup_nil
    obtain ⟨n2, m2⟩ := firstSeen_aux l' [] List.nodup_nil
    refine (List.perm_ext_iff_of_nodup n2 n1).2 fun a => ?_
    rw [m1, m2]
    simp [hl.mem_iff]
  have cong : ∀ f : Rat → Bool, (x'.postings.filter fun p => f (x'.valueOf p).mag).Perm
      (x.postings.filter fun p => f (x.valueOf p).mag) := by
    intro f
    refine (h.filter _).trans (.of_eq ?_)
    exact List.filter_congr fun p hp => by rw [hv p hp]
  refine ⟨r', hr', ?_, ?_, ?_⟩
  · rw [f1, f1']
    exact seen _ _ ((cong fun m => Mag.lt (Mag.zero : Rat) m).map _)
  · rw [f2, f2']
    exact seen _ _ ((cong fun m => Mag.lt m (Mag.zero : Rat)).map _)
  · rw [fp, fp']
    refine foldl_add_same _ _ ?_ [] [] (.refl (by simp))
    refine List.Perm.symm (((h.filter _).map _).trans (.of_eq ?_))
    exact List.map_congr_left fun p hp => hv p (List.mem_of_mem_filter hp)

theorem registerData_reposted (env : Env) {x x' : Entry Rat} (h : Reposted x x') (fmt : Str) (am : Option Str)
    (o : Option (RegisterData Rat)) (ho : x.registerData env fmt am = .ok o) :
    (o = none ∧ x'.registerData env fmt am = .ok none) ∨
      ∃ r r', o = some r ∧ x'.registerData env fmt am = .ok (some r') ∧ SameRow r r' := by
  unfold Entry.registerData at ho ⊢
  simp only [bind, Except.bind, pure, Except.pure] at ho ⊢
  cases hr : registerLoop x am x.postings [] [] [] with
  | error f => simp [hr] at ho
  | ok r =>
    obtain ⟨r', h1, h2, h3, h4⟩ := registerLoop_reposted h.2 am r hr
    have e1 : x'.date = x.date := by rw [h.1]
    have e2 : x'.status = x.status := by rw [h.1]
    have e3 : x'.description = x.description := by rw [h.1]
    have e4 : x'.payee = x.payee := by rw [h.1]
    simp only [hr] at ho
    simp only [h1, isZero_perm h4.2, flowName_perm h2, flowName_perm h3, e1, e2, e3, e4]
    split at ho
    · rename_i hz
      cases ho
      exact .inl ⟨rfl, by rw [if_pos hz]⟩
    · rename_i hz
      simp only [if_neg hz]
      cases hd : unwrap (env.fmtDate x.date fmt) with
      | error f => simp [hd] at ho
      | ok d =>
        simp only [hd] at ho
        cases ho
        exact .inr ⟨_, _, rfl, rfl, rfl, h4⟩

theorem rows_reposted (env : Env) (fmt : Str) (am : Option Str) (es es' : List (Entry Rat))
    (h : List.Forall₂ Reposted es es') (rs : List (RegisterData Rat)) (hr : Register.rows env fmt am es = .ok rs) :
    ∃ rs', Register.rows env fmt am es' = .ok rs' ∧ List.Forall₂ SameRow rs rs' := by
  induction h generalizing rs with
  | nil => cases hr; exact ⟨[], rfl, .nil⟩
  | @cons x x' es es' hx _ ih =>
    simp only [Register.rows, bind, Except.bind, pure, Except.pure] at hr ⊢
    cases ho : x.registerData env fmt am with
    | error f => cases f <;> simp [ho, panicked, fail] at hr
    | ok o =>
      rcases registerData_reposted env hx fmt am o ho with ⟨rfl, h1⟩ | ⟨r, r', rfl, h1, h2⟩
      · simp only [ho] at hr
        simp only [h1]
        exact ih rs hr
      · simp only [ho] at hr
        have he : r'.amounts.isEmpty = r.amounts.isEmpty := by
          have := h2.2.2.length_eq
          rw [Bool.eq_iff_iff, List.isEmpty_iff_length_eq_zero, List.isEmpty_iff_length_eq_zero, this]
        simp only [h1, he]
        split at hr
        · rename_i hc
          simp only [hc, if_true]
          exact ih rs hr
        · rename_i hc
          simp only [hc]
          split at hr
          · cases hr
          · rename_i qs hq
            cases hr
            obtain ⟨qs', g1, g2⟩ := ih qs hq
            exact ⟨r' :: qs', by simp [g1], .cons h2 g2⟩

theorem select_reposted (es es' : List (Entry Rat)) (h : List.Forall₂ Reposted es es') (b e : Option Date)
    (am : Option Str) : List.Forall₂ Reposted (Register.select es b e am) (Register.select es' b e am) := by
  unfold Register.select
  induction h with
  | nil => exact .nil
  | @cons x x' es es' hx _ ih =>
    have e1 : x'.date = x.date := by rw [hx.1]
    have e2 : (x'.postings.any fun p => isFocused am p.account) = x.postings.any fun p => isFocused am p.account := by
      rw [Bool.eq_iff_iff, List.any_eq_true, List.any_eq_true]
      simp [hx.2.mem_iff]
    simp only [List.filter_cons, e1, e2]
    split
    · exact .cons hx ih
    · exact ih

/-- Specification: the accounts in focus move in one currency. -/
def FocusInOne (am : Option Str) (x : Entry Rat) : Prop := ∃ s, ∀ a ∈ x.focusAmounts am, a.sym = s

theorem rows_in_one (env : Env) (fmt : Str) (am : Option Str) (es : List (Entry Rat)) (h : ∀ x ∈ es, FocusInOne am x)
    (rs : List (RegisterData Rat)) (hr : Register.rows env fmt am es = .ok rs) : ∀ r ∈ rs, r.amounts.length ≤ 1 := by
  induction es generalizing rs with
  | nil => cases hr; simp
  | cons x es ih =>
    have ih' := ih fun y hy => h y (by simp [hy])
    simp only [Register.rows, bind, Except.bind, pure, Except.pure] at hr
    cases ho : x.registerData env fmt am with
    | error f => cases f <;> simp [ho, panicked, fail] at hr
    | ok o =>
      cases o with
      | none => simp only [ho] at hr; exact ih' rs hr
      | some r =>
        simp only [ho] at hr
        split at hr
        · exact ih' rs hr
        · split at hr
          · cases hr
          · rename_i qs hq
            cases hr
            intro q hqm
            rcases List.mem_cons.1 hqm with rfl | hqm
            · obtain ⟨s, hs⟩ := h x (by simp)
              have hp : q.amounts = (x.focusAmounts am).foldl Pool.add [] := by
                unfold Entry.registerData at ho
                simp only [bind, Except.bind, pure, Except.pure] at ho
                cases hl : registerLoop x am x.postings [] [] [] with
                | error f => simp [hl] at ho
                | ok t =>
                  simp only [hl] at ho
                  split at ho
                  · cases ho
                  · split at ho
                    · cases ho
                    · cases ho
                      exact registerLoop_pool x am _ _ _ _ t hl
              have hn : (q.amounts.map Amount.sym).Nodup ∧ ∀ y ∈ q.amounts.map Amount.sym, y = s := by
                rw [hp, poolOf_syms]
                obtain ⟨n1, m1⟩ := firstSeen_aux ((x.focusAmounts am).map Amount.sym) [] List.nodup_nil
                refine ⟨n1, fun y hy => ?_⟩
                rcases (m1 y).1 hy with hy | hy
                · cases hy
                · obtain ⟨a, ha, rfl⟩ := List.mem_map.1 hy
                  exact hs a ha
              rcases hh : q.amounts with _ | ⟨a, _ | ⟨b, t⟩⟩
              · simp
              · simp
              · rw [hh] at hn
                have h1 := hn.2 a.sym (by simp)
                have h2 := hn.2 b.sym (by simp)
                have := hn.1
                simp [h1, h2] at this
            · exact ih' qs hq q hqm

/-- **C115.** The register is the very same, if in each entry the accounts in focus move in one currency. Missing for
the full claim: an entry with several, where the lines of that entry may come in another order
(`C115_two_currencies`). -/
theorem C115_register_partial (env : Env) (l l' : Ledger Rat) (h : RearrangedLedger l l') (terminal : Bool)
    (b e : Option Date) (am : Option Str) (hone : ∀ x ∈ l.entries, FocusInOne am x) (ls : List Str)
    (hl : Register.display env terminal l.entries l.dateFormat b e am = .ok ls) :
    Register.display env terminal l'.entries l'.dateFormat b e am = .ok ls := by
  unfold Register.display at hl ⊢
  rw [h.format]
  split at hl
  · cases hl
  · rename_i ht
    rw [if_neg ht]
    simp only [bind, Except.bind, pure, Except.pure] at hl ⊢
    cases hr : Register.rows env l.dateFormat am (Register.select l.entries b e am) with
    | error f => simp [hr] at hl
    | ok rs =>
      simp only [hr] at hl
      obtain ⟨rs', g1, g2⟩ := rows_reposted env l.dateFormat am _ _ (select_reposted _ _ h.entries b e am) rs hr
      have hlen := rows_in_one env l.dateFormat am _ (fun x hx => hone x (List.mem_of_mem_filter hx)) rs hr
      have : rs' = rs := by
        clear hr hl g1
        induction g2 with
        | nil => rfl
        | @cons r r' rs rs' h1 _ ih =>
          rw [ih fun q hq => hlen q (by simp [hq])]
          have hl1 := hlen r (by simp)
          have hp := h1.2.2
          have : r'.amounts = r.amounts := by
            rcases hh : r.amounts with _ | ⟨c, _ | ⟨d, t⟩⟩
            · rw [hh] at hp; exact hp.eq_nil
            · rw [hh] at hp; exact List.perm_singleton.1 hp
            · rw [hh] at hl1; simp at hl1
          rw [h1.1, this]
      rw [g1, this]
      exact hl

/-! ### What the order does change -/

/-- A journal of two accounts and one entry. -/
def exPosted (postings : String) : World :=
  disk [("j", "account x\naccount y\n2024/06/01 * p\n" ++ postings)]

/-- **C115.** What the balance report makes of an account which an entry posts to both with an amount and without
depends on which comes first: as the first line of its account, the posting without an amount counts for
nothing (the report says 10 for `x`, where the amounts of the entry give 3). -/
theorem C115_blank_line_first :
    (∃ p, Ledger.fromFile (stdEnv june15) 9 (exPosted "  x 10\n  x\n  y -3\n") s%"j" = .ok p ∧
      (p.1.totals.map fun t => (mapGet t s%"x").map fun r => r.map fun a => (a.mag : Rat)) = .ok (some [3])) ∧
    (∃ p, Ledger.fromFile (stdEnv june15) 9 (exPosted "  x\n  x 10\n  y -3\n") s%"j" = .ok p ∧
      (p.1.totals.map fun t => (mapGet t s%"x").map fun r => r.map fun a => (a.mag : Rat)) = .ok (some [10])) := by
  decide +kernel

/-- **C115.** In a register the currencies of one entry come in the order in which the entry names them. -/
theorem C115_two_currencies :
    (∃ p, Ledger.fromFile (M := Rat) (stdEnv june15) 9 (exPosted "  x 10 A\n  y -10 A\n  x 5 B\n  y -5 B\n") s%"j" = .ok p ∧
      Register.display (stdEnv june15) true p.1.entries p.1.dateFormat none none (some s%"x") =
        .ok [s%"2024/06/01 * p  y -> x  A 10  A 10", s%"                         B 5   B 5"]) ∧
    (∃ p, Ledger.fromFile (M := Rat) (stdEnv june15) 9 (exPosted "  x 5 B\n  y -5 B\n  x 10 A\n  y -10 A\n") s%"j" = .ok p ∧
      Register.display (stdEnv june15) true p.1.entries p.1.dateFormat none none (some s%"x") =
        .ok [s%"2024/06/01 * p  y -> x   B 5   B 5", s%"                        A 10  A 10"]) := by
  decide +kernel

/-! ### A concrete case -/

theorem exPosted_file (s : String) (p : APath) (t : Str) (h : (exPosted s).file p = some t) :
    t = ("account x\naccount y\n2024/06/01 * p\n" ++ s).toList := by
  simp only [exPosted, disk] at h
  split at h
  · split at h
    · simp only [List.find?] at h
      split at h <;> simp_all
    · cases h
  · cases h

/-- Two disks with the same files, but for the order of the postings. -/
theorem exPosted_same : SameFiles (exPosted "  x 10\n  y -7\n  y\n").file (exPosted "  y\n  x 10\n  y -7\n").file := by
  intro p t hp
  have ht := exPosted_file _ p t hp
  have hp' : (exPosted "  y\n  x 10\n  y -7\n").file p =
      some ("account x\naccount y\n2024/06/01 * p\n" ++ "  y\n  x 10\n  y -7\n").toList := by
    simp only [exPosted, disk] at hp ⊢
    split at hp
    · split at hp
      · rename_i hd
        simp only [hd, if_true, List.find?] at hp ⊢
        split at hp <;> simp_all
      · cases hp
    · cases hp
  subst ht
  refine ⟨_, hp', [[], s%"account x", s%"account y", s%"2024/06/01 * p\n  x 10\n  y -7\n  y"],
    [[], s%"account x", s%"account y", s%"2024/06/01 * p\n  y\n  x 10\n  y -7"],
    ⟨[], [(s%"account x", []), (s%"account y", []), (s%"2024/06/01 * p", [s%"  x 10", s%"  y -7", s%"  y"])],
      by decide +kernel, by decide +kernel, ?_, by decide +kernel⟩,
    ⟨[], [(s%"account x", []), (s%"account y", []), (s%"2024/06/01 * p", [s%"  y", s%"  x 10", s%"  y -7"])],
      by decide +kernel, by decide +kernel, ?_, by decide +kernel⟩,
    .cons (.inl rfl) (.cons (.inl rfl) (.cons (.inl rfl) (.cons (.inr ⟨⟨s%"2024/06/01", _, rfl, by decide⟩,
      ⟨s%"2024/06/01", _, rfl, by decide⟩, s%"2024/06/01 * p", [s%"x 10", s%"y -7", s%"y"], [s%"y", s%"x 10", s%"y -7"],
      by decide +kernel, by decide +kernel, by decide⟩) .nil)))⟩
  all_goals
    intro b hb
    simp only [List.mem_cons, List.not_mem_nil, or_false] at hb
    rcases hb with rfl | rfl | rfl <;> refine ⟨by decide +kernel, _, _, rfl, by decide⟩

/-- The first loads; so the second does, and to the same. -/
example : ∃ p, Ledger.fromFile (stdEnv june15) 9 (exPosted "  x 10\n  y -7\n  y\n") s%"j" = .ok p ∧
    (p.1.entries : List (Entry Rat)).length = 1 ∧ (∀ x ∈ p.1.entries, x.postings.length = 3) := by decide +kernel

end Silverfox
