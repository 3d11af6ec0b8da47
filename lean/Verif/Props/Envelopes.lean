import Verif.Props.Blank
import Verif.Props.Due
import Verif.Model.Account
import Verif.Proofs.Check

/-
C31-C36: what an entry does to an envelope.
-/

namespace Silverfox

set_option linter.unusedSectionVars false

variable {M : Type} [Mag M]

/-! ### Specification -/

/-- The envelope posting `p` names the envelope `e`. -/
def EnvPosting.Names (p : EnvPosting M) (e : Envelope M) : Prop :=
  p.account = e.account ∧ p.envelope = e.name

instance (p : EnvPosting M) (e : Envelope M) : Decidable (p.Names e) := by
  unfold EnvPosting.Names; infer_instance

/-- The movements an entry's envelope postings make in the envelope `e`. -/
def manualMoves (entry : Entry M) (e : Envelope M) : List (Amount M) :=
  (entry.postings.filterMap fun p => match p with
    | .envelope x => if x.account = e.account ∧ x.envelope = e.name then some x.amount else none
    | .classic _ => none)

/-- What an envelope holds in all (exact arithmetic). -/
def Envelope.holds (e : Envelope Rat) : Rat := e.now.mag + e.next.mag

/-- Everything about an envelope but its money and the date of its last movement. -/
def Envelope.SameButMoney (e e' : Envelope M) : Prop :=
  e' = { e with now := e'.now, next := e'.next, lastTx := e'.lastTx }

/-- The three amounts of an envelope are in one currency. -/
def Envelope.OneCurrency (e : Envelope M) : Prop :=
  e.now.sym = e.amount.sym ∧ e.next.sym = e.amount.sym

/-- A movement into the pocket `now`. -/
def Envelope.intoNow (e : Envelope M) (m : M) (date : Date) : Envelope M :=
  { e with now := ⟨Mag.add e.now.mag m, e.now.sym⟩, lastTx := date }

/-- A movement into the pocket `next`. -/
def Envelope.intoNext (e : Envelope M) (m : M) (date : Date) : Envelope M :=
  { e with next := ⟨Mag.add e.next.mag m, e.next.sym⟩, lastTx := date }

/-! ### One movement -/

theorem applyAmount_ok (today : Date) (e e' : Envelope M) (a : Amount M) (date : Date)
    (h : e.applyAmount today a date = .ok e') :
    (Mag.lt a.mag Mag.zero = true ∧ a.sym = e.now.sym ∧ e' = e.intoNow a.mag date) ∨
    (Mag.lt a.mag Mag.zero = false ∧ Mag.lt Mag.zero a.mag = true ∧ a.sym = e.now.sym ∧
      (∃ d, e.freq.lastDue today = .ok (some d) ∧ Date.lt date d = true) ∧
      e' = e.intoNow a.mag date) ∨
    (Mag.lt a.mag Mag.zero = false ∧ Mag.lt Mag.zero a.mag = true ∧ a.sym = e.next.sym ∧
      (∃ o, e.freq.lastDue today = .ok o ∧ ∀ d, o = some d → Date.lt date d = false) ∧
      e' = e.intoNext a.mag date) ∨
    (Mag.lt a.mag Mag.zero = false ∧ Mag.lt Mag.zero a.mag = false ∧
      e' = { e with lastTx := date }) := by
  unfold Envelope.applyAmount at h
  have hadd : ∀ (x y z : Amount M), x.add y = .ok z → y.sym = x.sym ∧ z = ⟨Mag.add x.mag y.mag, x.sym⟩ := by
    intro x y z hz
    unfold Amount.add at hz
    split at hz
    · rename_i hs; cases hz; exact ⟨hs.symm, rfl⟩
    · cases hz
  cases h1 : Mag.lt a.mag (Mag.zero : M) with
  | true =>
    simp only [h1, if_true, bind, Except.bind, pure, Except.pure] at h
    split at h
    · cases h
    · rename_i n hn
      cases h
      obtain ⟨hs, rfl⟩ := hadd _ _ _ hn
      exact Or.inl ⟨rfl, hs, rfl⟩
  | false =>
    cases h2 : Mag.lt (Mag.zero : M) a.mag with
    | false =>
      simp only [h1, h2, Bool.false_eq_true, if_false] at h
      cases h
      exact Or.inr (Or.inr (Or.inr ⟨rfl, rfl, rfl⟩))
    | true =>
      simp only [h1, h2, Bool.false_eq_true, if_false, if_true, bind, Except.bind, pure,
        Except.pure] at h
      split at h
      · cases h
      · rename_i o ho
        split at h
        · rename_i d
          split at h
          · rename_i hd
            split at h
            · cases h
            · rename_i n hn
              cases h
              obtain ⟨hs, rfl⟩ := hadd _ _ _ hn
              exact Or.inr (Or.inl ⟨rfl, rfl, hs, ⟨d, ho, hd⟩, rfl⟩)
          · rename_i hd
            split at h
            · cases h
            · rename_i n hn
              cases h
              obtain ⟨hs, rfl⟩ := hadd _ _ _ hn
              exact Or.inr (Or.inr (Or.inl ⟨rfl, rfl, hs, ⟨_, ho, by
                rintro d' ⟨⟩; simpa using hd⟩, rfl⟩))
        · split at h
          · cases h
          · rename_i n hn
            cases h
            obtain ⟨hs, rfl⟩ := hadd _ _ _ hn
            exact Or.inr (Or.inr (Or.inl ⟨rfl, rfl, hs, ⟨_, ho, by rintro d' ⟨⟩⟩, rfl⟩))

theorem applyAmount_keeps (today : Date) (e e' : Envelope M) (a : Amount M) (date : Date)
    (h : e.applyAmount today a date = .ok e') :
    e.SameButMoney e' ∧ e'.now.sym = e.now.sym ∧ e'.next.sym = e.next.sym ∧ e'.lastTx = date := by
  rcases applyAmount_ok today e e' a date h with ⟨_, _, rfl⟩ | ⟨_, _, _, _, rfl⟩ |
    ⟨_, _, _, _, rfl⟩ | ⟨_, _, rfl⟩ <;>
    simp [Envelope.SameButMoney, Envelope.intoNow, Envelope.intoNext]

theorem applyAmount_holds (today : Date) (e e' : Envelope Rat) (a : Amount Rat) (date : Date)
    (h : e.applyAmount today a date = .ok e') : e'.holds = e.holds + a.mag := by
  rcases applyAmount_ok today e e' a date h with ⟨_, _, rfl⟩ | ⟨_, _, _, _, rfl⟩ |
    ⟨_, _, _, _, rfl⟩ | ⟨h1, h2, rfl⟩
  · simp only [Envelope.holds, Envelope.intoNow, Mag.add]; ring
  · simp only [Envelope.holds, Envelope.intoNow, Mag.add]; ring
  · simp only [Envelope.holds, Envelope.intoNext, Mag.add]; ring
  · have h1' : ¬ a.mag < 0 := by simpa [Mag.lt, Mag.zero] using h1
    have h2' : ¬ 0 < a.mag := by simpa [Mag.lt, Mag.zero] using h2
    have : a.mag = 0 := by linarith
    simp [Envelope.holds, this]

theorem SameButMoney.trans {e e' e'' : Envelope M} (h : e.SameButMoney e')
    (h' : e'.SameButMoney e'') : e.SameButMoney e'' := by
  unfold Envelope.SameButMoney at *
  rw [h', h]

theorem SameButMoney.fields {e e' : Envelope M} (h : e.SameButMoney e') :
    e'.name = e.name ∧ e'.account = e.account ∧ e'.amount = e.amount ∧ e'.kind = e.kind ∧
      e'.auto = e.auto ∧ e'.freq = e.freq ∧ e'.funding = e.funding ∧ e'.starting = e.starting := by
  unfold Envelope.SameButMoney at h
  rw [h]; simp

/-! ### Processing is a sequence of movements -/

/-- Movements made one after the other. -/
def applyAll (today date : Date) : List (Amount M) → Envelope M → Res (Envelope M)
  | [], e => .ok e
  | a :: as, e => do
    let e ← e.applyAmount today a date
    applyAll today date as e

theorem applyAll_keeps (today date : Date) (as : List (Amount M)) (e e' : Envelope M)
    (h : applyAll today date as e = .ok e') :
    e.SameButMoney e' ∧ e'.now.sym = e.now.sym ∧ e'.next.sym = e.next.sym ∧
      (as ≠ [] → e'.lastTx = date) := by
  induction as generalizing e with
  | nil => cases h; simp [Envelope.SameButMoney]
  | cons a as ih =>
    simp only [applyAll, bind, Except.bind] at h
    split at h
    · cases h
    · rename_i e1 h1
      have hk := applyAmount_keeps today e e1 a date h1
      have hi := ih e1 h
      refine ⟨SameButMoney.trans hk.1 hi.1, by rw [hi.2.1, hk.2.1], by rw [hi.2.2.1, hk.2.2.1], ?_⟩
      intro _
      cases as with
      | nil => cases h; exact hk.2.2.2
      | cons b bs => exact hi.2.2.2 (by simp)

theorem applyAll_holds (today date : Date) (as : List (Amount Rat)) (e e' : Envelope Rat)
    (h : applyAll today date as e = .ok e') : e'.holds = e.holds + sumMags as := by
  induction as generalizing e with
  | nil => cases h; simp [sumMags]
  | cons a as ih =>
    simp only [applyAll, bind, Except.bind] at h
    split at h
    · cases h
    · rename_i e1 h1
      rw [ih e1 h, applyAmount_holds today e e1 a date h1]
      simp only [sumMags, List.map_cons, List.sum_cons]; ring

theorem processManual_eq (today date : Date) (ps : List (EnvPosting M)) (e : Envelope M) :
    Envelope.processManual today date ps e =
      applyAll today date ((ps.filter fun p => decide (p.Names e)).map EnvPosting.amount) e := by
  induction ps generalizing e with
  | nil => rfl
  | cons p ps ih =>
    unfold Envelope.processManual
    by_cases hn : p.Names e
    · have hc : p.account = e.account ∧ e.name = p.envelope := ⟨hn.1, hn.2.symm⟩
      simp only [hc, and_self, if_true, List.filter_cons, hn, decide_true, List.map_cons,
        applyAll, bind, Except.bind]
      cases ha : e.applyAmount today p.amount date with
      | error f => rfl
      | ok e1 =>
        have hk := SameButMoney.fields (applyAmount_keeps today e e1 _ date ha).1
        simp only [ih e1, EnvPosting.Names, hk.1, hk.2.1]
    · have hc : ¬ (p.account = e.account ∧ e.name = p.envelope) := fun h => hn ⟨h.1, h.2.symm⟩
      simp only [hc, if_false, List.filter_cons, hn, decide_false, Bool.false_eq_true, ih]

theorem manualMoves_eq (entry : Entry M) (e : Envelope M) :
    manualMoves entry e =
      ((entry.envelopePostings.filter fun p => decide (p.Names e)).map EnvPosting.amount) := by
  unfold manualMoves Entry.envelopePostings
  induction entry.postings with
  | nil => rfl
  | cons p ps ih =>
    cases p with
    | classic c => simpa using ih
    | envelope x =>
      by_cases hn : x.Names e
      · have hn' : x.account = e.account ∧ x.envelope = e.name := hn
        simp [hn, hn', ih]
      · have hn' : ¬ (x.account = e.account ∧ x.envelope = e.name) := hn
        simp [hn, hn', ih]

/-- For an entry with envelope postings, processing applies those that name the envelope. -/
theorem processEntry_manual (today : Date) (e : Envelope M) (entry : Entry M)
    (h : entry.hasEnvelopePosting = true) :
    e.processEntry today entry = applyAll today entry.date (manualMoves entry e) e := by
  unfold Envelope.processEntry
  rw [if_pos h, processManual_eq, manualMoves_eq]

/-! ### C31 -/

/-- C31: an entry with envelope postings leaves every envelope that none of them names exactly as it
was; in particular no automatic movement happens. -/
theorem C31_others_untouched (today : Date) (e : Envelope M) (entry : Entry M)
    (h : entry.hasEnvelopePosting = true)
    (hno : ∀ x, Posting.envelope x ∈ entry.postings → ¬ (x.account = e.account ∧ x.envelope = e.name)) :
    e.processEntry today entry = .ok e := by
  rw [processEntry_manual today e entry h]
  have : manualMoves entry e = [] := by
    unfold manualMoves
    rw [List.filterMap_eq_nil_iff]
    intro p hp
    cases p with
    | classic c => rfl
    | envelope x => simp [hno x hp]
  rw [this]; rfl

/-- C31: the envelope named changes by exactly the sum of the postings naming it (exact arithmetic), and
nothing about it but its money and the date of its last movement changes. -/
theorem C31_named_changes_by_postings (today : Date) (e e' : Envelope Rat) (entry : Entry Rat)
    (h : entry.hasEnvelopePosting = true) (hok : e.processEntry today entry = .ok e') :
    e'.holds = e.holds + sumMags (manualMoves entry e) ∧ e.SameButMoney e' ∧
      (manualMoves entry e ≠ [] → e'.lastTx = entry.date) := by
  rw [processEntry_manual today e entry h] at hok
  have := applyAll_keeps _ _ _ _ _ hok
  exact ⟨applyAll_holds _ _ _ _ _ hok, this.1, this.2.2.2⟩

/-- C31 for a whole account: each envelope becomes what processing it alone makes of it. -/
theorem C31_envelopes_independent (today : Date) (a a' : Account M) (entry : Entry M)
    (h : a.processEntry today entry = .ok a') :
    List.Forall₂ (fun e e' => e.processEntry today entry = .ok e') a.envelopes a'.envelopes := by
  have key : ∀ es es' : List (Envelope M), Account.processEnvelopes today entry es = .ok es' →
      List.Forall₂ (fun e e' => e.processEntry today entry = .ok e') es es' := by
    intro es
    induction es with
    | nil => intro es' h; cases h; exact .nil
    | cons e es ih =>
      intro es' h
      simp only [Account.processEnvelopes, bind, Except.bind, pure, Except.pure] at h
      split at h
      · cases h
      · rename_i e1 h1
        split at h
        · cases h
        · rename_i es1 h2
          cases h
          exact .cons h1 (ih es1 h2)
  simp only [Account.processEntry, bind, Except.bind, pure, Except.pure] at h
  split at h
  · cases h
  · rename_i ex hex
    split at h
    · cases h
    · rename_i go hgo
      split at h
      · cases h
      · cases h
        have app : ∀ {R : Envelope M → Envelope M → Prop} {l l' m m' : List (Envelope M)},
            List.Forall₂ R l l' → List.Forall₂ R m m' → List.Forall₂ R (l ++ m) (l' ++ m') := by
          intro R l l' m m' h1 h2
          induction h1 with
          | nil => exact h2
          | cons h _ ih => exact .cons h ih
        exact app (key _ _ hex) (key _ _ hgo)

/-- An envelope `food` of 300, due on the 15th, with 20 now and 30 saved. -/
def exFood : Envelope Rat :=
  ⟨s%"food", ⟨300, none⟩, .expense, [s%"expenses:food"], .monthly 15, .conservative, none,
    ⟨30, none⟩, ⟨20, none⟩, s%"assets:bank", Date.zero⟩

/-- An entry that moves 7 into `food` and 5 out of another envelope. -/
def exMove : Entry Rat :=
  ⟨⟨2024, 6, 1, by decide⟩, .cleared, s%"x", none, none,
    [.envelope ⟨s%"assets:bank", s%"food", ⟨7, none⟩⟩,
     .envelope ⟨s%"assets:bank", s%"rent", ⟨-5, none⟩⟩]⟩

example : exFood.processEntry june15 exMove = .ok { exFood with
    now := ⟨27, none⟩, lastTx := ⟨2024, 6, 1, by decide⟩ } ∧
    exMove.hasEnvelopePosting = true := by
  refine ⟨by decide +kernel, by decide⟩

/-! ### C33 -/

/-- C33: a withdrawal is taken from what is ready now, whatever the dates. -/
theorem C33_withdrawal_from_now (today : Date) (e : Envelope M) (entry : Entry M) (a : Amount M)
    (h : entry.hasEnvelopePosting = true) (hm : manualMoves entry e = [a])
    (hs : a.sym = e.now.sym) (hneg : Mag.lt a.mag Mag.zero = true) :
    e.processEntry today entry = .ok (e.intoNow a.mag entry.date) := by
  rw [processEntry_manual today e entry h, hm]
  simp [applyAll, Envelope.applyAmount, hneg, Amount.add, hs, bind, Except.bind, pure, Except.pure,
    Envelope.intoNow]

/-- C33: a deposit dated before the last due date is ready now; any other, and every deposit if there is
no last due date, is saved for next. -/
theorem C33_deposit_by_date (today : Date) (e : Envelope M) (entry : Entry M) (a : Amount M)
    (last : Option Date)
    (h : entry.hasEnvelopePosting = true) (hm : manualMoves entry e = [a])
    (hs : a.sym = e.now.sym) (hs' : a.sym = e.next.sym) (hnn : Mag.lt a.mag Mag.zero = false)
    (hpos : Mag.lt Mag.zero a.mag = true) (hl : e.freq.lastDue today = .ok last) :
    e.processEntry today entry = .ok (match last with
      | some d => if Date.lt entry.date d = true then e.intoNow a.mag entry.date
          else e.intoNext a.mag entry.date
      | none => e.intoNext a.mag entry.date) := by
  rw [processEntry_manual today e entry h, hm]
  cases last with
  | none =>
    simp [applyAll, Envelope.applyAmount, hnn, hpos, hl, Amount.add, ← hs', bind, Except.bind, pure,
      Except.pure, Envelope.intoNext]
  | some d =>
    cases hd : Date.lt entry.date d <;>
      simp [applyAll, Envelope.applyAmount, hnn, hpos, hl, hd, Amount.add, ← hs, ← hs', bind, Except.bind,
        pure, Except.pure, Envelope.intoNow, Envelope.intoNext]

/-- On 15 June, deposits into an envelope due on the 15th count for next from the 15th on. -/
example : exFood.freq.lastDue june15 = .ok (some june15) ∧
    exFood.processEntry june15 { exMove with date := june15 } =
      .ok { exFood with next := ⟨37, none⟩, lastTx := june15 } := by decide +kernel

/-! ### C34 -/

/-- C34: an entry without envelope postings changes an envelope only if it has a posting to the
envelope's account and a posting to one of its `for` accounts. -/
theorem C34_moves_only_if_both (today : Date) (e e' : Envelope M) (entry : Entry M)
    (h : entry.hasEnvelopePosting = false) (hok : e.processEntry today entry = .ok e')
    (hne : e' ≠ e) :
    (∃ p ∈ entry.postings, p.account = e.account) ∧
    (∃ p ∈ entry.postings, p.account ≠ e.account ∧ p.account ∈ e.auto) := by
  unfold Envelope.processEntry at hok
  rw [if_neg (by simp [h])] at hok
  unfold Envelope.infer at hok
  simp only at hok
  split at hok
  · cases hok; exact absurd rfl hne
  · rename_i hc
    rw [not_or, Nat.not_lt, Nat.not_lt] at hc
    obtain ⟨h1, h2⟩ := hc
    obtain ⟨p, hp, hpa⟩ := List.countP_pos_iff.1 h1
    obtain ⟨q, hq, hqa⟩ := List.countP_pos_iff.1 h2
    exact ⟨⟨p, hp, by simpa using hpa⟩, q, hq, by simpa using hqa⟩

/-- C34: such an entry is not even looked at: no failure either. -/
theorem C34_else_untouched (today : Date) (e : Envelope M) (entry : Entry M)
    (h : entry.hasEnvelopePosting = false)
    (hno : (∀ p ∈ entry.postings, p.account ≠ e.account) ∨
      (∀ p ∈ entry.postings, p.account ∈ e.auto → p.account = e.account)) :
    e.processEntry today entry = .ok e := by
  unfold Envelope.processEntry
  rw [if_neg (by simp [h])]
  unfold Envelope.infer
  simp only
  rw [if_pos]
  rcases hno with hno | hno
  · left
    rw [Nat.lt_one_iff, List.countP_eq_zero]
    intro p hp
    simpa using hno p hp
  · right
    rw [Nat.lt_one_iff, List.countP_eq_zero]
    intro p hp
    simp only [Bool.and_eq_true, decide_eq_true_eq, List.contains_iff_mem, not_and]
    intro h1 h2
    exact h1 (hno p hp h2)

/-- Groceries for 12 paid from the bank. -/
def exBuy : Entry Rat :=
  ⟨⟨2024, 6, 10, by decide⟩, .cleared, s%"groceries", none, none,
    [.classic ⟨s%"expenses:food", some ⟨12, none⟩, none, none⟩,
     .classic ⟨s%"assets:bank", none, none, none⟩]⟩

example : exFood.processEntry june15 exBuy =
    .ok { exFood with now := ⟨8, none⟩, lastTx := ⟨2024, 6, 10, by decide⟩ } := by decide +kernel

/-! ### C35 -/

/-- The magnitude of a posting, the blank one at the inferred amount. -/
def Posting.worth (blank : Option (Amount M)) (p : Posting M) : Option M :=
  match p.amount with
  | some a => some a.mag
  | none => blank.map Amount.mag

/-- The sum of the postings to accounts that satisfy `f` (exact arithmetic). -/
def sumTo (blank : Option (Amount Rat)) (f : Str → Bool) (ps : List (Posting Rat)) : Rat :=
  (ps.filterMap fun p => if f p.account then p.worth blank else none).sum

/-- What the account of the envelope gained. -/
def selfSum (entry : Entry Rat) (blank : Option (Amount Rat)) (e : Envelope Rat) : Rat :=
  sumTo blank (fun n => n == e.account) entry.postings

/-- What the `for` accounts gained. -/
def autoSum (entry : Entry Rat) (blank : Option (Amount Rat)) (e : Envelope Rat) : Rat :=
  sumTo blank (fun n => n != e.account && e.auto.contains n) entry.postings

theorem sumTo_cons (blank : Option (Amount Rat)) (f : Str → Bool) (p : Posting Rat)
    (ps : List (Posting Rat)) :
    sumTo blank f (p :: ps) = (if f p.account then (p.worth blank).getD 0 else 0) + sumTo blank f ps := by
  unfold sumTo
  rw [List.filterMap_cons]
  by_cases h : f p.account
  · simp only [h, if_true]
    cases p.worth blank <;> simp
  · simp [h]

theorem inferLoop_ok (e : Envelope Rat) (entry : Entry Rat) (blank : Option (Amount Rat))
    (ps : List (Posting Rat)) (hb : (∃ p ∈ ps, p.amount = none) → entry.blankAmount = .ok blank)
    (s0 a0 s1 a1 : Amount Rat) (hs0 : s0.sym = e.amount.sym) (ha0 : a0.sym = e.amount.sym)
    (h : e.inferLoop entry ps s0 a0 = .ok (s1, a1)) :
    s1 = ⟨s0.mag + sumTo blank (fun n => n == e.account) ps, e.amount.sym⟩ ∧
    a1 = ⟨a0.mag + sumTo blank (fun n => n != e.account && e.auto.contains n) ps, e.amount.sym⟩ := by
  induction ps generalizing s0 a0 with
  | nil =>
    cases h
    cases s1; cases a1
    simp_all [sumTo]
  | cons p ps ih =>
    simp only [Envelope.inferLoop, bind, Except.bind] at h
    split at h
    · cases h
    · rename_i a ha
      have ih' := ih (fun ⟨q, hq, hqa⟩ => hb ⟨q, List.mem_cons_of_mem _ hq, hqa⟩)
      -- the amount used, when its symbol is that of the envelope
      have hw : a.sym = e.amount.sym → p.worth blank = some a.mag := by
        intro hsym
        unfold Envelope.inferAmount at ha
        unfold Posting.worth
        cases hpa : p.amount with
        | some x =>
          simp only [hpa, bind, Except.bind, pure, Except.pure] at ha
          split at ha
          · cases ha; rfl
          · rename_i hne
            split at ha
            · cases ha
            · split at ha
              · cases ha; exact absurd hsym hne
              · cases ha
        | none =>
          have hbl := hb ⟨p, by simp, hpa⟩
          simp only [hpa, hbl, bind, Except.bind, pure, Except.pure] at ha
          cases blank with
          | none => simp [unwrap] at ha
          | some x =>
            simp only [unwrap] at ha
            split at ha
            · cases ha; rfl
            · rename_i hne
              split at ha
              · cases ha
              · split at ha
                · cases ha; exact absurd hsym hne
                · cases ha
      have hadd : ∀ x z : Amount Rat, x.sym = e.amount.sym → x.add a = .ok z →
          a.sym = e.amount.sym ∧ z = ⟨x.mag + a.mag, e.amount.sym⟩ := by
        intro x z hx hz
        unfold Amount.add at hz
        split at hz
        · rename_i hs; cases hz; exact ⟨by rw [← hs, hx], by simp [hx, Mag.add]⟩
        · cases hz
      by_cases h1 : p.account = e.account
      · simp only [h1, if_true] at h
        split at h
        · cases h
        · rename_i z hz
          obtain ⟨hsym, rfl⟩ := hadd _ _ hs0 hz
          obtain ⟨e1, e2⟩ := ih' _ _ (by rfl) ha0 h
          rw [e1, e2, sumTo_cons, sumTo_cons]
          simp [h1, hw hsym, add_assoc]
      · simp only [h1, if_false] at h
        by_cases h2 : e.auto.contains p.account = true
        · simp only [h2, if_true] at h
          split at h
          · cases h
          · rename_i z hz
            obtain ⟨hsym, rfl⟩ := hadd _ _ ha0 hz
            obtain ⟨e1, e2⟩ := ih' _ _ hs0 (by rfl) h
            rw [e1, e2, sumTo_cons, sumTo_cons]
            have h2' : p.account ∈ e.auto := by simpa using h2
            simp [h1, h2', hw hsym, add_assoc]
        · simp only [h2] at h
          obtain ⟨e1, e2⟩ := ih' _ _ hs0 ha0 h
          rw [e1, e2, sumTo_cons, sumTo_cons]
          have h2' : p.account ∉ e.auto := by simpa using h2
          simp [h1, h2']

/-- What the code computes (exact arithmetic): the smaller of what the `for` accounts gained and the
absolute value of what the account gained, negated if the account lost. -/
def autoMove (entry : Entry Rat) (blank : Option (Amount Rat)) (e : Envelope Rat) : Rat :=
  let m := min (autoSum entry blank e) |selfSum entry blank e|
  if selfSum entry blank e < 0 then -m else m

/-- Does the entry concern both the account and a `for` account? -/
def touchesBoth (entry : Entry M) (e : Envelope M) : Bool :=
  (entry.postings.any fun p => p.account == e.account) &&
  (entry.postings.any fun p => p.account != e.account && e.auto.contains p.account)

theorem infer_ok (today : Date) (e e' : Envelope Rat) (entry : Entry Rat)
    (blank : Option (Amount Rat)) (hb : (∃ p ∈ entry.postings, p.amount = none) → entry.blankAmount = .ok blank)
    (h : e.infer today entry = .ok e') :
    (touchesBoth entry e = false ∧ e' = e) ∨
    (touchesBoth entry e = true ∧ autoMove entry blank e = 0 ∧ e' = e) ∨
    (touchesBoth entry e = true ∧ autoMove entry blank e ≠ 0 ∧
      e.applyAmount today ⟨autoMove entry blank e, e.amount.sym⟩ entry.date = .ok e') := by
  unfold Envelope.infer at h
  simp only at h
  have htb : touchesBoth entry e = true ↔
      ¬ ((entry.postings.countP fun p => decide (p.account = e.account)) < 1 ∨
        (entry.postings.countP fun p => decide (p.account ≠ e.account) && e.auto.contains p.account) < 1) := by
    unfold touchesBoth
    rw [not_or, Nat.not_lt, Nat.not_lt, Nat.succ_le_iff, Nat.succ_le_iff, List.countP_pos_iff,
      List.countP_pos_iff, Bool.and_eq_true, List.any_eq_true, List.any_eq_true]
    simp
  split at h
  · rename_i hc
    cases h
    left
    refine ⟨?_, rfl⟩
    rw [← Bool.not_eq_true, htb]
    exact fun hn => hn hc
  · rename_i hc
    right
    have ht := htb.2 hc
    simp only [bind, Except.bind] at h
    split at h
    · cases h
    · rename_i r hr
      obtain ⟨s1, a1⟩ := r
      obtain ⟨rfl, rfl⟩ := inferLoop_ok e entry blank entry.postings hb _ _ _ _ (by rfl) (by rfl) hr
      have hm : (Mag.min (autoSum entry blank e) (Mag.abs (selfSum entry blank e)) : Rat)
          = min (autoSum entry blank e) |selfSum entry blank e| := by
        have habs : (Mag.abs (selfSum entry blank e) : Rat) = |selfSum entry blank e| := by
          simp only [Mag.abs]
          split
          · rename_i hlt; rw [abs_of_neg hlt]
          · rename_i hge; rw [abs_of_nonneg (not_lt.1 hge)]
        rw [habs]
        simp only [Mag.min]
        split
        · rename_i hlt; rw [min_eq_right (le_of_lt hlt)]
        · rename_i hge; rw [min_eq_left (not_lt.1 hge)]
      have e1 : (Mag.zero : Rat) + sumTo blank (fun n => n == e.account) entry.postings
          = selfSum entry blank e := by simp [Mag.zero, selfSum]
      have e2 : (Mag.zero : Rat) +
          sumTo blank (fun n => n != e.account && e.auto.contains n) entry.postings
          = autoSum entry blank e := by simp [Mag.zero, autoSum]
      simp only [e1, e2, hm] at h
      by_cases hz : min (autoSum entry blank e) |selfSum entry blank e| = 0
      · left
        refine ⟨ht, by simp [autoMove, hz], ?_⟩
        simp [hz, Mag.eq, Mag.zero, pure, Except.pure] at h
        exact h.symm
      · right
        refine ⟨ht, ?_, ?_⟩
        · simp only [autoMove]; split
          · simpa using hz
          · exact hz
        · have : (Mag.eq (min (autoSum entry blank e) |selfSum entry blank e|) Mag.zero : Bool) = false := by
            simp [Mag.eq, Mag.zero, hz]
          rw [this] at h
          simp only [Bool.not_false, if_true] at h
          simp only [autoMove]
          rw [← h]
          congr 2
          simp only [Mag.lt, Mag.zero, Mag.neg, decide_eq_true_eq]

/-- C35, where it holds: if the `for` accounts together gained (a purchase), the money moved is the
smaller of what they gained and what the account lost or gained, with the sign of the account's
change. Missing for the full claim: if the `for` accounts lost money (a refund), see
`C35_refund_takes_money`. -/
theorem C35_spending_partial (today : Date) (e e' : Envelope Rat) (entry : Entry Rat)
    (blank : Option (Amount Rat))
    (h : entry.hasEnvelopePosting = false)
    (hb : (∃ p ∈ entry.postings, p.amount = none) → entry.blankAmount = .ok blank)
    (hboth : touchesBoth entry e = true)
    (hgain : 0 ≤ autoSum entry blank e)
    (hok : e.processEntry today entry = .ok e') :
    e'.holds = e.holds +
      (if selfSum entry blank e < 0 then -1 else 1) *
        min |autoSum entry blank e| |selfSum entry blank e| := by
  unfold Envelope.processEntry at hok
  rw [if_neg (by simp [h])] at hok
  have hmv : autoMove entry blank e = (if selfSum entry blank e < 0 then -1 else 1) *
        min |autoSum entry blank e| |selfSum entry blank e| := by
    simp only [autoMove, abs_of_nonneg hgain]
    split <;> simp
  rcases infer_ok today e e' entry blank hb hok with ⟨h1, _⟩ | ⟨_, h2, rfl⟩ | ⟨_, _, h3⟩
  · rw [h1] at hboth; cases hboth
  · rw [← hmv, h2]; simp
  · rw [applyAmount_holds _ _ _ _ _ h3, ← hmv]

/-- C35, where it fails: a refund of 10 to the bank, taken from the `for` account, takes another 10 out
of the envelope instead of giving them back. -/
theorem C35_refund_takes_money :
    ∃ entry : Entry Rat, Entry.parse (stdEnv june15)
      s%"2024/6/10 ~ refund\n  assets:bank  10\n  expenses:food  -10" s%"%Y/%m/%d" '.'
      [s%"assets:bank", s%"expenses:food"] = .ok entry ∧
    ∃ e', exFood.processEntry june15 entry = .ok e' ∧ e'.holds = exFood.holds - 10 :=
  by decide +kernel

example : touchesBoth exBuy exFood = true ∧
    autoSum exBuy (some ⟨-12, none⟩) exFood = 12 ∧ selfSum exBuy (some ⟨-12, none⟩) exFood = -12 ∧
    exBuy.blankAmount = .ok (some ⟨-12, none⟩) := by decide +kernel

/-! ### C32 -/

/-- Specification: the movement an entry makes in an envelope. -/
def movement (entry : Entry Rat) (e : Envelope Rat) : Rat :=
  if entry.hasEnvelopePosting then sumMags (manualMoves entry e)
  else if touchesBoth entry e then
    autoMove entry (match entry.blankAmount with | .ok b => b | .error _ => none) e
  else 0

/-- A history of entries processed by one envelope. -/
def runHistory (today : Date) : List (Entry M) → Envelope M → Res (Envelope M)
  | [], e => .ok e
  | x :: xs, e => do
    let e ← e.processEntry today x
    runHistory today xs e

/-- Processing an entry keeps everything but the money, and the currencies. -/
theorem processEntry_keeps (today : Date) (e e' : Envelope M) (entry : Entry M)
    (h : e.processEntry today entry = .ok e') :
    e.SameButMoney e' ∧ e'.now.sym = e.now.sym ∧ e'.next.sym = e.next.sym := by
  have hrefl : e.SameButMoney e := by simp [Envelope.SameButMoney]
  cases hb : entry.hasEnvelopePosting with
  | true =>
    rw [processEntry_manual today e entry hb] at h
    have := applyAll_keeps _ _ _ _ _ h
    exact ⟨this.1, this.2.1, this.2.2.1⟩
  | false =>
    unfold Envelope.processEntry at h
    rw [if_neg (by simp [hb])] at h
    unfold Envelope.infer at h
    simp only at h
    split at h
    · cases h; exact ⟨hrefl, rfl, rfl⟩
    · simp only [bind, Except.bind] at h
      split at h
      · cases h
      · split at h
        · have := applyAmount_keeps _ _ _ _ _ h
          exact ⟨this.1, this.2.1, this.2.2.1⟩
        · cases h; exact ⟨hrefl, rfl, rfl⟩

theorem infer_untouched (today : Date) (e : Envelope M) (entry : Entry M)
    (h : touchesBoth entry e = false) : e.infer today entry = .ok e := by
  unfold Envelope.infer
  simp only
  rw [if_pos]
  unfold touchesBoth at h
  rw [Bool.and_eq_false_iff, List.any_eq_false, List.any_eq_false] at h
  rcases h with h | h
  · left
    rw [Nat.lt_one_iff, List.countP_eq_zero]
    intro p hp
    simpa using h p hp
  · right
    rw [Nat.lt_one_iff, List.countP_eq_zero]
    intro p hp
    simpa using h p hp

theorem infer_touched (today : Date) (e : Envelope M) (entry : Entry M)
    (h : touchesBoth entry e = true) :
    e.infer today entry = (do
      let z : Amount M := ⟨Mag.zero, e.amount.sym⟩
      let (self, auto) ← e.inferLoop entry entry.postings z z
      let m := Mag.min auto.mag (Mag.abs self.mag)
      if !Mag.eq m (Mag.zero : M) then
        let m := if Mag.lt self.mag (Mag.zero : M) then Mag.neg m else m
        e.applyAmount today ⟨m, e.amount.sym⟩ entry.date
      else pure e) := by
  unfold touchesBoth at h
  rw [Bool.and_eq_true, List.any_eq_true, List.any_eq_true] at h
  obtain ⟨⟨p, hp, hpa⟩, q, hq, hqa⟩ := h
  unfold Envelope.infer
  simp only
  rw [if_neg]
  rw [not_or, Nat.not_lt, Nat.not_lt, Nat.succ_le_iff, Nat.succ_le_iff, List.countP_pos_iff,
    List.countP_pos_iff]
  exact ⟨⟨p, hp, by simpa using hpa⟩, q, hq, by simpa using hqa⟩

/-- If the blank amount cannot be computed, the sums cannot either. -/
theorem inferLoop_blank_error (e : Envelope M) (entry : Entry M) (f : Fail)
    (hbl : entry.blankAmount = .error f) (ps : List (Posting M)) (s a : Amount M)
    (hex : ∃ p ∈ ps, p.amount = none) : ∃ f, e.inferLoop entry ps s a = .error f := by
  induction ps generalizing s a with
  | nil => obtain ⟨p, hp, _⟩ := hex; cases hp
  | cons p ps ih =>
    simp only [Envelope.inferLoop, bind, Except.bind]
    cases hpa : p.amount with
    | none =>
      refine ⟨f, ?_⟩
      simp [Envelope.inferAmount, hpa, hbl, bind, Except.bind]
    | some x =>
      have hex' : ∃ p ∈ ps, p.amount = none := by
        obtain ⟨q, hq, hqa⟩ := hex
        rcases List.mem_cons.1 hq with rfl | hq
        · rw [hpa] at hqa; cases hqa
        · exact ⟨q, hq, hqa⟩
      split
      · exact ⟨_, rfl⟩
      · split
        · split
          · exact ⟨_, rfl⟩
          · exact ih _ _ hex'
        · split
          · split
            · exact ⟨_, rfl⟩
            · exact ih _ _ hex'
          · exact ih _ _ hex'

theorem processEntry_holds (today : Date) (e e' : Envelope Rat) (entry : Entry Rat)
    (h : e.processEntry today entry = .ok e') : e'.holds = e.holds + movement entry e := by
  cases hb : entry.hasEnvelopePosting with
  | true =>
    simp only [movement, hb, if_true]
    exact (C31_named_changes_by_postings today e e' entry hb h).1
  | false =>
    unfold Envelope.processEntry at h
    rw [if_neg (by simp [hb])] at h
    simp only [movement, hb, Bool.false_eq_true, if_false]
    cases ht : touchesBoth entry e with
    | false =>
      rw [infer_untouched today e entry ht] at h
      cases h; simp
    | true =>
      simp only [if_true]
      have fin : ∀ b : Option (Amount Rat),
          ((∃ p ∈ entry.postings, p.amount = none) → entry.blankAmount = .ok b) →
          e'.holds = e.holds + autoMove entry b e := by
        intro b hbb
        rcases infer_ok today e e' entry b hbb h with ⟨h1, _⟩ | ⟨_, h2, rfl⟩ | ⟨_, _, h3⟩
        · rw [h1] at ht; cases ht
        · rw [h2]; simp
        · exact applyAmount_holds _ _ _ _ _ h3
      cases hbl : entry.blankAmount with
      | ok b => exact fin b fun _ => hbl
      | error f =>
        refine fin none fun hex => ?_
        obtain ⟨f', hf'⟩ := inferLoop_blank_error e entry f hbl entry.postings
          ⟨Mag.zero, e.amount.sym⟩ ⟨Mag.zero, e.amount.sym⟩ hex
        rw [infer_touched today e entry ht] at h
        simp [hf', bind, Except.bind] at h

theorem movement_congr (y : Entry Rat) (e e1 : Envelope Rat) (h1 : e1.name = e.name)
    (h2 : e1.account = e.account) (h3 : e1.auto = e.auto) : movement y e1 = movement y e := by
  cases e; cases e1
  simp only at h1 h2 h3
  subst h1 h2 h3
  rfl

/-- C32: after any history of entries, what an envelope holds is what it held before plus the sum of the
movements (exact arithmetic). What the movement of an entry is, is said by `movement`. -/
theorem C32_no_money_lost (today : Date) (xs : List (Entry Rat)) (e e' : Envelope Rat)
    (h : runHistory today xs e = .ok e') :
    e'.holds = e.holds + (xs.map fun x => movement x e).sum := by
  induction xs generalizing e with
  | nil => cases h; simp
  | cons x xs ih =>
    simp only [runHistory, bind, Except.bind] at h
    split at h
    · cases h
    · rename_i e1 h1
      have hk := SameButMoney.fields (processEntry_keeps today e e1 x h1).1
      have hmove : ∀ y : Entry Rat, movement y e1 = movement y e := by
        exact fun y => movement_congr y e e1 hk.1 hk.2.1 hk.2.2.2.2.1
      rw [ih e1 h, processEntry_holds today e e1 x h1]
      simp only [hmove, List.map_cons, List.sum_cons]
      ring

/-- C32 in particular: an envelope declared anew holds nothing, so it holds the sum of the movements. -/
theorem C32_new_envelope (env : Env) (today : Date) (chunk acc fmt : Str) (dec : Char)
    (xs : List (Entry Rat)) (e e' : Envelope Rat)
    (hp : Envelope.parse env chunk acc dec fmt = .ok e) (h : runHistory today xs e = .ok e') :
    e'.holds = (xs.map fun x => movement x e).sum := by
  have h0 : e.now.mag = 0 ∧ e.next.mag = 0 := by
    unfold Envelope.parse at hp
    split at hp
    · cases hp
    · simp only [bind, Except.bind] at hp
      split at hp
      · cases hp
      · rename_i e0 he0
        have h00 : e0.now.mag = 0 ∧ e0.next.mag = 0 := by
          unfold Envelope.fromHeader at he0
          split at he0
          · simp only [bind, Except.bind, pure, Except.pure] at he0
            split at he0
            · cases he0
            · split at he0
              · cases he0
              · split at he0
                · cases he0
                · cases he0; exact ⟨rfl, rfl⟩
          · cases he0
        have key : ∀ (ls : List Str) (a b : Envelope Rat), Envelope.addBody dec ls a = .ok b →
            b.now.mag = a.now.mag ∧ b.next.mag = a.next.mag := by
          intro ls
          induction ls with
          | nil => intro a b h; cases h; exact ⟨rfl, rfl⟩
          | cons l ls ih =>
            intro a b h
            simp only [Envelope.addBody, bind, Except.bind] at h
            split at h
            · cases h
            · rename_i c hc
              have hcb := ih c b h
              have : c.now.mag = a.now.mag ∧ c.next.mag = a.next.mag := by
                unfold Envelope.addBodyLine at hc
                simp only at hc
                split at hc
                · cases hc
                · split at hc
                  · cases hc
                  · split at hc
                    · cases hc; exact ⟨rfl, rfl⟩
                    · split at hc
                      · unfold Envelope.addAccount at hc
                        split at hc
                        · cases hc; exact ⟨rfl, rfl⟩
                        · cases hc
                      · split at hc
                        · simp only [bind, Except.bind, pure, Except.pure] at hc
                          split at hc
                          · cases hc
                          · cases hc; exact ⟨rfl, rfl⟩
                        · split at hc
                          · simp only [bind, Except.bind, pure, Except.pure] at hc
                            split at hc
                            · cases hc
                            · cases hc; exact ⟨rfl, rfl⟩
                          · cases hc
              rw [hcb.1, hcb.2, this.1, this.2]; exact ⟨rfl, rfl⟩
        obtain ⟨h1, h2⟩ := key _ _ _ hp
        rw [h1, h2]; exact h00
  rw [C32_no_money_lost today xs e e' h]
  simp [Envelope.holds, h0.1, h0.2]

example : ∃ e', runHistory june15 [exMove, exBuy] exFood = .ok e' ∧ e'.holds = 45 ∧
    movement exMove exFood = 7 ∧ movement exBuy exFood = -12 :=
  by decide +kernel

/-! ### C36 -/

/-- The schedule of the envelope is one of those whose last due date can be computed on every day
(see C28), with dates well within the calendar. -/
def Envelope.SafeSchedule (e : Envelope M) : Prop := e.freq.Safe ∧ e.freq.Inner

theorem applyAmount_total (today date : Date) (e : Envelope M) (a : Amount M) (ht : today.Inner)
    (hc : e.OneCurrency) (hs : e.SafeSchedule) (ha : a.sym = e.amount.sym) :
    ∃ e', e.applyAmount today a date = .ok e' := by
  obtain ⟨last, hl⟩ := C28_last_due_never_crashes_partial today e.freq ht hs.2 hs.1
  obtain ⟨h1, h2⟩ := hc
  unfold Envelope.applyAmount
  split
  · simp [Amount.add, ha, h1, bind, Except.bind, pure, Except.pure]
  · split
    · cases last with
      | none => simp [hl, Amount.add, ha, h2, bind, Except.bind, pure, Except.pure]
      | some d =>
        cases hd : Date.lt date d <;>
          simp [hl, hd, Amount.add, ha, h1, h2, bind, Except.bind, pure, Except.pure]
    · exact ⟨_, rfl⟩

/-- C36, where it holds, for entries with envelope postings: if those naming the envelope are in its
currency, they are processed without abort or error. -/
theorem C36_manual_no_crash_partial (today : Date) (e : Envelope M) (entry : Entry M)
    (ht : today.Inner) (hc : e.OneCurrency) (hs : e.SafeSchedule)
    (h : entry.hasEnvelopePosting = true)
    (hsym : ∀ a ∈ manualMoves entry e, a.sym = e.amount.sym) :
    ∃ e', e.processEntry today entry = .ok e' := by
  rw [processEntry_manual today e entry h]
  generalize manualMoves entry e = as at hsym
  induction as generalizing e with
  | nil => exact ⟨e, rfl⟩
  | cons a as ih =>
    obtain ⟨e1, h1⟩ := applyAmount_total today entry.date e a ht hc hs (hsym a (by simp))
    have hk := applyAmount_keeps _ _ _ _ _ h1
    have hf := SameButMoney.fields hk.1
    have hc1 : e1.OneCurrency := by
      unfold Envelope.OneCurrency at hc ⊢
      rw [hk.2.1, hk.2.2.1, hf.2.2.1]; exact hc
    have hs1 : e1.SafeSchedule := by
      unfold Envelope.SafeSchedule at hs ⊢
      rw [hf.2.2.2.2.2.1]; exact hs
    obtain ⟨e2, h2⟩ := ih e1 hc1 hs1 (fun b hb => by rw [hf.2.2.1]; exact hsym b (by simp [hb]))
    refine ⟨e2, ?_⟩
    simp only [applyAll, bind, Except.bind, h1]
    exact h2

/-- C36, where it holds, for other entries: if every posting to the account or to a `for` account is in
the envelope's currency, the entry is processed or refused with an error. -/
theorem C36_auto_no_crash_partial (today : Date) (e : Envelope M) (entry : Entry M)
    (ht : today.Inner) (hc : e.OneCurrency) (hs : e.SafeSchedule)
    (h : entry.hasEnvelopePosting = false)
    (hgiven : givenAmounts entry.postings ≠ [])
    (hsym : ∀ p ∈ entry.postings, (p.account = e.account ∨ p.account ∈ e.auto) →
      (∀ a, p.amount = some a → a.sym = e.amount.sym) ∧
      (p.amount = none → ∀ b, entry.blankAmount = .ok (some b) → b.sym = e.amount.sym)) :
    (∃ e', e.processEntry today entry = .ok e') ∨ ∃ k, e.processEntry today entry = .error (.err k) := by
  unfold Envelope.processEntry
  rw [if_neg (by simp [h])]
  cases htb : touchesBoth entry e with
  | false => exact Or.inl ⟨e, infer_untouched today e entry htb⟩
  | true =>
    rw [infer_touched today e entry htb]
    have key : ∀ (ps : List (Posting M)), (∀ p ∈ ps, p ∈ entry.postings) →
        ∀ s a : Amount M, s.sym = e.amount.sym → a.sym = e.amount.sym →
        (∃ r, e.inferLoop entry ps s a = .ok r) ∨ ∃ k, e.inferLoop entry ps s a = .error (.err k) := by
      intro ps
      induction ps with
      | nil => intro _ s a _ _; exact Or.inl ⟨_, rfl⟩
      | cons p ps ih =>
        intro hmem s a hs0 ha0
        have ih' := ih fun q hq => hmem q (List.mem_cons_of_mem _ hq)
        have hp := hmem p (by simp)
        -- the amount of the posting
        have ham : (∃ x, e.inferAmount entry p = .ok x ∧
              ((p.account = e.account ∨ p.account ∈ e.auto) → x.sym = e.amount.sym)) ∨
            ∃ k, e.inferAmount entry p = .error (.err k) := by
          have fin : ∀ x : Amount M,
              ((p.account = e.account ∨ p.account ∈ e.auto) → x.sym = e.amount.sym) →
              (∃ y, (if x.sym = e.amount.sym then pure x
                else if e.amount.sym.isSome then fail .processing
                else match p.nativeValue with
                  | some m => pure { x with mag := m }
                  | none => fail .processing : Res (Amount M)) = .ok y ∧
                ((p.account = e.account ∨ p.account ∈ e.auto) → y.sym = e.amount.sym)) ∨
              ∃ k, (if x.sym = e.amount.sym then pure x
                else if e.amount.sym.isSome then fail .processing
                else match p.nativeValue with
                  | some m => pure { x with mag := m }
                  | none => fail .processing : Res (Amount M)) = .error (.err k) := by
            intro x hx
            split
            · exact Or.inl ⟨x, rfl, hx⟩
            · split
              · exact Or.inr ⟨_, rfl⟩
              · split
                · exact Or.inl ⟨_, rfl, hx⟩
                · exact Or.inr ⟨_, rfl⟩
          unfold Envelope.inferAmount
          cases hpa : p.amount with
          | some x =>
            simp only [bind, Except.bind, pure, Except.pure]
            exact fin x fun hr => (hsym p hp hr).1 x hpa
          | none =>
            simp only [bind, Except.bind]
            rcases C17_blank_amount_no_crash_partial entry (Or.inr hgiven) with ⟨b, hb⟩ | ⟨k, hk⟩
            · cases b with
              | none =>
                exfalso
                have hbl : entry.hasBlank = true := List.any_eq_true.2 ⟨p, hp, by simp [hpa]⟩
                unfold Entry.blankAmount at hb
                simp only [hbl, Bool.not_true, Bool.false_eq_true, if_false, bind, Except.bind, pure,
                  Except.pure] at hb
                split at hb
                · split at hb <;> cases hb
                · split at hb
                  · cases hb
                  · split at hb
                    · cases hb
                    · split at hb <;> cases hb
              | some x =>
                simp only [hb, unwrap]
                exact fin x fun hr => (hsym p hp hr).2 hpa x hb
            · right; exact ⟨k, by simp [hk]⟩
        simp only [Envelope.inferLoop, bind, Except.bind]
        rcases ham with ⟨x, hx, hxs⟩ | ⟨k, hk⟩
        · rw [hx]
          simp only
          by_cases h1 : p.account = e.account
          · have := hxs (Or.inl h1)
            simp only [h1, if_true, Amount.add, hs0, this]
            exact ih' _ _ rfl ha0
          · by_cases h2 : p.account ∈ e.auto
            · have := hxs (Or.inr h2)
              have h2' : e.auto.contains p.account = true := by simpa using h2
              simp only [h1, if_false, h2', if_true, Amount.add, ha0, this]
              exact ih' _ _ hs0 rfl
            · have h2' : e.auto.contains p.account = false := by simpa using h2
              simp only [h1, if_false, h2']
              exact ih' _ _ hs0 ha0
        · right; exact ⟨k, by simp [hk]⟩
    rcases key entry.postings (fun _ hp => hp) ⟨Mag.zero, e.amount.sym⟩ ⟨Mag.zero, e.amount.sym⟩ rfl rfl with
      ⟨r, hr⟩ | ⟨k, hk⟩
    · left
      simp only [hr, bind, Except.bind]
      split
      · exact applyAmount_total today entry.date e _ ht hc hs rfl
      · exact ⟨e, rfl⟩
    · right
      exact ⟨k, by simp [hk, bind, Except.bind]⟩

example : exFood.OneCurrency ∧ exFood.SafeSchedule ∧ manualMoves exMove exFood = [⟨7, none⟩] := by
  refine ⟨by simp [Envelope.OneCurrency, exFood], ?_, by decide +kernel⟩
  simp [Envelope.SafeSchedule, exFood, Frequency.Safe, Frequency.Inner]

/-- C36, where it fails: an envelope posting in another currency is accepted by the parser and aborts
the program. -/
theorem C36_foreign_envelope_posting_crashes :
    ∃ entry : Entry Rat, Entry.parse (stdEnv june15)
      s%"2024/6/10 ~ x
  envelope assets:bank food 5 USD" s%"%Y/%m/%d" '.' [s%"assets:bank"] = .ok entry ∧
      exFood.processEntry june15 entry = .error .panic :=
  by decide +kernel

/-- C36, where it fails: so does paying for an expense from the envelope's account with foreign money of
known native price. -/
theorem C36_priced_posting_crashes :
    ∃ entry : Entry Rat, Entry.parse (stdEnv june15)
      s%"2024/6/10 ~ x
  assets:bank -5 EUR @ 2
  expenses:food 10" s%"%Y/%m/%d" '.'
      [s%"assets:bank", s%"expenses:food"] = .ok entry ∧
      exFood.processEntry june15 entry = .error .panic :=
  by decide +kernel

end Silverfox
