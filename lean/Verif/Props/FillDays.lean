import Verif.Props.Filling
import Verif.Model.Ledger

/-
Filling repeatedly: C42 (twice a day) and C40 (every day until the due date).
-/

namespace Silverfox

set_option linter.unusedSectionVars false
variable {M : Type} [Mag M]

/-! ### C42 -/

theorem fillingAmount_mono (today : Date) (e : Envelope Rat) (av av' a a' : Amount Rat)
    (h : e.fillingAmount today av = .ok a) (h' : e.fillingAmount today av' = .ok a')
    (hle : av'.mag ≤ av.mag) : a'.mag ≤ a.mag := by
  obtain ⟨_, _, h1 | ⟨hn, _, due, hd, h1⟩⟩ := fillingAmount_ok today e av a h
  · rw [h1.2, C37_skipped_gets_nothing today e av' a' h1.1 h']
  · obtain ⟨_, _, h2 | ⟨_, _, due', hd', h2⟩⟩ := fillingAmount_ok today e av' a' h'
    · exact absurd h2.1 hn
    · rw [hd] at hd'; cases hd'
      rw [h1, h2, fillMag_rat, fillMag_rat]
      exact max_le_max (max_le_max (min_le_min (min_le_min (le_refl _) hle) (le_refl _)) (le_refl _))
        (le_refl _)

theorem fillLoop_zip (today : Date) (es : List (Envelope Rat)) (avail : Pool Rat)
    (ps : List (EnvPosting Rat)) (h : Account.fillLoop today es avail = .ok ps) :
    ps.length = es.length ∧ ∀ ep ∈ es.zip ps, ep.2.account = ep.1.account ∧
      ep.2.envelope = ep.1.name ∧ ep.2.amount.sym = ep.1.amount.sym ∧ 0 ≤ ep.2.amount.mag := by
  induction es generalizing avail ps with
  | nil => cases h; simp
  | cons e es ih =>
    obtain ⟨p, ps', rfl, hp, hps⟩ := fillLoop_cons today e es avail ps h
    obtain ⟨h1, h2⟩ := ih _ _ hps
    obtain ⟨h3, h4, h5⟩ := fillingPosting_ok _ _ _ _ hp
    refine ⟨by simp [h1], fun ep hep => ?_⟩
    rw [List.zip_cons_cons, List.mem_cons] at hep
    rcases hep with rfl | hep
    · exact ⟨h3, h4, C37_fill_currency _ _ _ _ h5, C37_exact_fill_never_negative _ _ _ _ h5⟩
    · exact h2 ep hep

theorem zip_forall₂ {α β γ : Type} {R : α → γ → Prop} {K : α × β → γ → Prop} (l : List α)
    (ps : List β) (l' : List γ) (h : List.Forall₂ R l l') (hl : ps.length = l.length)
    (hk : ∀ ep ∈ l.zip ps, ∀ c, R ep.1 c → K ep c) : List.Forall₂ K (l.zip ps) l' := by
  induction h generalizing ps with
  | nil => simp
  | cons hr _ ih =>
    cases ps with
    | nil => simp at hl
    | cons p ps =>
      rw [List.zip_cons_cons]
      refine .cons (hk _ (by simp) _ hr) (ih ps (by simpa using hl) ?_)
      intro ep hep c hc
      exact hk ep (by simp [hep]) c hc

/-- An envelope after a fill: it was touched today, or it got nothing and is as before. -/
def Settled (today : Date) (ep : Envelope Rat × EnvPosting Rat) (e' : Envelope Rat) : Prop :=
  (e'.lastTx = today ∨ (e' = ep.1 ∧ ep.2.amount.mag = 0)) ∧
  ep.1.holds + ep.2.amount.mag ≤ e'.holds ∧ e'.amount.sym = ep.1.amount.sym ∧
  ep.2.amount.sym = ep.1.amount.sym

theorem second_loop (today : Date) (es : List (Envelope Rat)) (ps : List (EnvPosting Rat))
    (es' : List (Envelope Rat)) (avail avail' : Pool Rat) (ps' : List (EnvPosting Rat))
    (hst : List.Forall₂ (Settled today) (es.zip ps) es')
    (h : Account.fillLoop today es avail = .ok ps) (h' : Account.fillLoop today es' avail' = .ok ps')
    (hav : ∀ s, avail'.bal s ≤ avail.bal s - fillsIn s ps) : ∀ p ∈ ps', p.amount.mag = 0 := by
  induction es generalizing ps es' avail avail' ps' with
  | nil =>
    rw [List.zip_nil_left] at hst
    cases hst
    cases h'
    simp
  | cons e es ih =>
    obtain ⟨p, ps1, rfl, hp, hps⟩ := fillLoop_cons today e es avail ps h
    rw [List.zip_cons_cons] at hst
    cases hst with
    | cons hs hst =>
      rename_i e' es1
      obtain ⟨q, ps2, rfl, hq, hqs⟩ := fillLoop_cons today e' es1 avail' ps' h'
      obtain ⟨_, _, hf⟩ := fillingPosting_ok _ _ _ _ hp
      obtain ⟨_, _, hf'⟩ := fillingPosting_ok _ _ _ _ hq
      have hnn := fillLoop_nonneg _ _ _ _ h
      have hq0 : q.amount.mag = 0 := by
        rcases hs.1 with hl | ⟨heq, hz⟩
        · rw [C37_skipped_gets_nothing today e' _ _ (Or.inr (Or.inr hl)) hf']; rfl
        · simp only at heq hz
          subst heq
          have hle := fillingAmount_mono today e' _ _ _ _ hf hf' (by
            have h1 := hav e'.amount.sym
            have h2 := fillsIn_nonneg e'.amount.sym (p :: ps1) hnn
            show avail'.bal _ ≤ avail.bal _
            linarith)
          have hge := C37_exact_fill_never_negative _ _ _ _ hf'
          linarith
      intro x hx
      rcases List.mem_cons.1 hx with rfl | hx
      · exact hq0
      · refine ih ps1 es1 (Pool.subAssign avail p.amount) (Pool.subAssign avail' q.amount) ps2 hst hps
          hqs ?_ x hx
        intro s
        have h1 := hav s
        rw [fillsIn_cons] at h1
        rw [Pool.bal_subAssign, Pool.bal_subAssign]
        have h2 : q.amount.inSym s = 0 := by unfold Amount.inSym; rw [hq0]; split <;> rfl
        rw [h2]; linarith

/-- The part of an envelope's money that is in currency `s`. -/
def Envelope.holdsIn (s : Option Str) (e : Envelope Rat) : Rat := if e.amount.sym = s then e.holds else 0

theorem available_holdsIn (a : Account Rat) (s : Option Str) (h : ∀ e ∈ a.envelopes, e.OneCurrency) :
    a.available.bal s = a.real.bal s - (a.envelopes.map (Envelope.holdsIn s)).sum := by
  have := C44_available_holds a s h
  show (a.available.only s).mag = (a.real.only s).mag - _
  rw [this]
  congr 1
  induction a.envelopes with
  | nil => rfl
  | cons e es ih =>
    by_cases hs : e.amount.sym = s
    · simp [hs, Envelope.holdsIn, ih]
    · simp [hs, Envelope.holdsIn, ih]

theorem settled_sum (today : Date) (s : Option Str) (es : List (Envelope Rat))
    (ps : List (EnvPosting Rat)) (es' : List (Envelope Rat)) (hl : ps.length = es.length)
    (hst : List.Forall₂ (Settled today) (es.zip ps) es') :
    (es.map (Envelope.holdsIn s)).sum + fillsIn s ps ≤ (es'.map (Envelope.holdsIn s)).sum := by
  induction es generalizing ps es' with
  | nil =>
    rw [List.zip_nil_left] at hst
    cases hst
    have : ps = [] := List.length_eq_zero_iff.1 hl
    subst this
    simp [fillsIn]
  | cons e es ih =>
    cases ps with
    | nil => simp at hl
    | cons p ps =>
      rw [List.zip_cons_cons] at hst
      cases hst with
      | cons hs hst =>
        rename_i e' es1
        have h1 := ih ps es1 (by simpa using hl) hst
        rw [fillsIn_cons, List.map_cons, List.sum_cons, List.map_cons, List.sum_cons]
        obtain ⟨_, h2, h3, h4⟩ := hs
        simp only at h2 h3 h4
        have : e.holdsIn s + p.amount.inSym s ≤ e'.holdsIn s := by
          unfold Envelope.holdsIn Amount.inSym
          rw [h3, h4]
          split
          · exact h2
          · simp
        linarith

theorem sumMags_ge (as : List (Amount Rat)) (hn : ∀ a ∈ as, 0 ≤ a.mag) :
    0 ≤ sumMags as ∧ ∀ a ∈ as, a.mag ≤ sumMags as := by
  unfold sumMags
  induction as with
  | nil => simp
  | cons b as ih =>
    obtain ⟨h1, h2⟩ := ih (fun a ha => hn a (by simp [ha]))
    have hb := hn b (by simp)
    rw [List.map_cons, List.sum_cons]
    refine ⟨by linarith, fun a ha => ?_⟩
    rcases List.mem_cons.1 ha with rfl | ha
    · linarith
    · have := h2 a ha; linarith

/-- C42: let `x` be an entry dated today of envelope postings, whose postings to the account's envelopes
are the fill postings of the account that are not zero. After it has been processed, filling again
moves nothing. -/
theorem C42_second_fill_moves_nothing (today : Date) (a a' : Account Rat) (hw : a.WF)
    (ps ps' : List (EnvPosting Rat)) (x : Entry Rat)
    (h1 : a.fillingPostings today = .ok ps)
    (hdate : x.date = today) (henv : x.hasEnvelopePosting = true)
    (hall : ∀ p ∈ x.postings, p.isEnvelope = true)
    (hx : ∀ p : EnvPosting Rat, p.account = a.name →
      (Posting.envelope p ∈ x.postings ↔ p ∈ ps ∧ p.amount.mag ≠ 0))
    (h2 : a.processEntry today x = .ok a') (h3 : a'.fillingPostings today = .ok ps') :
    ∀ p ∈ ps', p.amount.mag = 0 := by
  obtain ⟨hlen, hzip⟩ := fillLoop_zip today _ _ _ h1
  have hw' := processEntry_wf today x a a' h2 hw
  have hf2 : List.Forall₂ (fun e e' => e.processEntry today x = .ok e')
      a.envelopes.reverse a'.envelopes.reverse :=
    List.forall₂_reverse_iff.2 (C31_envelopes_independent today a a' x h2)
  have hst : List.Forall₂ (Settled today) (a.envelopes.reverse.zip ps) a'.envelopes.reverse := by
    refine zip_forall₂ _ _ _ hf2 hlen ?_
    intro ep hep e' hp
    obtain ⟨z1, z2, z3, z4⟩ := hzip ep hep
    have he : ep.1 ∈ a.envelopes := by simpa using (List.of_mem_zip hep).1
    have hps : ep.2 ∈ ps := (List.of_mem_zip hep).2
    obtain ⟨c1, c2, c3⟩ := C31_named_changes_by_postings today ep.1 e' x henv hp
    have hmem : ∀ m, m ∈ manualMoves x ep.1 ↔ ∃ p : EnvPosting Rat, Posting.envelope p ∈ x.postings ∧
        p.account = ep.1.account ∧ p.envelope = ep.1.name ∧ p.amount = m := by
      intro m
      unfold manualMoves
      simp only [List.mem_filterMap]
      constructor
      · rintro ⟨p, hp, hm⟩
        cases p with
        | classic c => simp at hm
        | envelope p =>
          simp only [Option.ite_none_right_eq_some, Option.some.injEq] at hm
          exact ⟨p, hp, hm.1.1, hm.1.2, hm.2⟩
      · rintro ⟨p, hp, h1, h2, h3⟩
        exact ⟨_, hp, by simp [h1, h2, h3]⟩
    have hown := hw.owner ep.1 he
    have hnn : ∀ m ∈ manualMoves x ep.1, 0 ≤ m.mag := by
      intro m hm
      obtain ⟨p, hp, hpa, _, rfl⟩ := (hmem m).1 hm
      exact fillLoop_nonneg _ _ _ _ h1 p ((hx p (by rw [hpa, hown])).1 hp).1
    obtain ⟨s1, s2⟩ := sumMags_ge _ hnn
    refine ⟨?_, ?_, (by rw [(SameButMoney.fields c2).2.2.1]), z3⟩
    · by_cases hm : manualMoves x ep.1 = []
      · right
        refine ⟨?_, ?_⟩
        · rw [processEntry_manual today ep.1 x henv, hm] at hp
          cases hp; rfl
        · by_contra hne
          have : ep.2.amount ∈ manualMoves x ep.1 :=
            (hmem _).2 ⟨ep.2, (hx ep.2 (by rw [z1, hown])).2 ⟨hps, hne⟩, z1, z2, rfl⟩
          rw [hm] at this; cases this
      · left; rw [c3 hm, hdate]
    · rw [c1]
      by_cases hne : ep.2.amount.mag = 0
      · rw [hne]; linarith
      · have : ep.2.amount ∈ manualMoves x ep.1 :=
          (hmem _).2 ⟨ep.2, (hx ep.2 (by rw [z1, hown])).2 ⟨hps, hne⟩, z1, z2, rfl⟩
        have := s2 _ this
        linarith
  refine second_loop today _ _ _ a.available a'.available _ hst h1 h3 fun s => ?_
  rw [available_holdsIn a s hw.currency, available_holdsIn a' s hw'.currency,
    C45_envelope_postings_no_effect today x a a' hall h2]
  have := settled_sum today s _ _ _ hlen hst
  simp only [List.map_reverse, List.sum_reverse] at this
  linarith

/-- A case of the hypotheses: `exBank` on the 15th of June. -/
example : ∃ ps, exBank.fillingPostings june15 = .ok ps ∧
    ∃ a', exBank.processEntry june15 (Ledger.fillEntry june15 ps) = .ok a' ∧
    ∃ ps', a'.fillingPostings june15 = .ok ps' ∧ ps.map (fun p => p.amount.mag) = [30, 9] ∧
      ps'.map (fun p => p.amount.mag) = [0, 0] := by decide +kernel

/-- C42 fails in doubles: of 0.9, an envelope that holds 0.2 takes the remaining 0.7. But then 0.2 + 0.7
is 0.8999999999999999, and filling again on the same day moves 1.1e-16 into another envelope. -/
theorem C42_float_second_fill_moves :
    ∃ a : Account F64, Account.parse (stdEnv june15)
      s%"account bank\n  expense x due every 1st\n    amount 50\n    funding aggressive\n  goal y due every 1st\n    amount 50\n    funding aggressive"
        '.' s%"%Y/%m/%d" = .ok a ∧
    ∃ x : Entry F64, Entry.parse (stdEnv june15)
      s%"2024/6/10 ~ salary\n  bank 0.9\n  income -0.9" s%"%Y/%m/%d" '.' [s%"bank", s%"income"] = .ok x ∧
    ∃ y : Entry F64, Entry.parse (stdEnv june15)
      s%"2024/6/10 ~ save\n  envelope bank y 0.2" s%"%Y/%m/%d" '.' [s%"bank", s%"income"] = .ok y ∧
    ∃ a1, runAccount june15 [x, y] a = .ok a1 ∧
    ∃ ps, a1.fillingPostings june15 = .ok ps ∧
    ∃ a2, a1.processEntry june15 (Ledger.fillEntry june15
        (ps.filter fun p => !Mag.eq p.amount.mag (Mag.zero : F64))) = .ok a2 ∧
    ∃ ps', a2.fillingPostings june15 = .ok ps' ∧
      (ps'.any fun p => F64.lt F64.zero p.amount.mag) = true := by
  decide +kernel

/-! ### C40 -/

/-- Specification: a program that is run once on each of the given days: it loads the journal (the
history `h` of the envelope `e0` as declared), computes the envelope's fill, and appends the fill entry
to the journal, if it is not zero. `avail` is what is available on each day. -/
def saveDaily (e0 : Envelope M) (avail : Date → Amount M) :
    List Date → List (Entry M) → Res (List (Entry M))
  | [], h => .ok h
  | t :: ts, h => do
    let e ← runHistory t h e0
    let a ← e.fillingAmount t (avail t)
    saveDaily e0 avail ts
      (if Mag.eq a.mag (Mag.zero : M) then h
       else h ++ [Ledger.fillEntry t [⟨e0.account, e0.name, a⟩]])

/-- Specification: consecutive days, the first `n` days before `due`. -/
def Countdown (due : Date) : Nat → List Date → Prop
  | _, [] => True
  | 0, _ :: _ => False
  | n + 1, t :: ts => due.dayNum = t.dayNum + (n + 1) ∧ Countdown due n ts

theorem runHistory_append (today : Date) (xs ys : List (Entry M)) (e : Envelope M) :
    runHistory today (xs ++ ys) e = (do
      let e ← runHistory today xs e
      runHistory today ys e) := by
  induction xs generalizing e with
  | nil => rfl
  | cons x xs ih =>
    simp only [List.cons_append, runHistory, bind, Except.bind]
    cases e.processEntry today x with
    | error f => rfl
    | ok e1 => simp only [ih]; rfl

theorem runHistory_keeps (today : Date) (xs : List (Entry M)) (e e' : Envelope M)
    (h : runHistory today xs e = .ok e') : e.SameButMoney e' ∧ e'.now.sym = e.now.sym ∧
      e'.next.sym = e.next.sym := by
  induction xs generalizing e with
  | nil => cases h; simp [Envelope.SameButMoney]
  | cons x xs ih =>
    simp only [runHistory, bind, Except.bind] at h
    split at h
    · cases h
    · rename_i e1 h1
      have hk := processEntry_keeps _ _ _ _ h1
      have hk' := ih e1 h
      exact ⟨SameButMoney.trans hk.1 hk'.1, by rw [hk'.2.1, hk.2.1], by rw [hk'.2.2, hk.2.2]⟩

theorem SameButMoney.nextDue {e e' : Envelope M} (h : e.SameButMoney e') (t : Date) :
    e'.nextDue t = e.nextDue t := by
  have hf := SameButMoney.fields h
  unfold Envelope.nextDue
  rw [hf.2.2.2.2.2.1, hf.2.2.2.2.2.2.2]

/-- Loading depends on the day only through the last due date. -/
theorem processEntry_today (t t' : Date) (x : Entry M) (e : Envelope M)
    (h : e.freq.lastDue t = e.freq.lastDue t') : e.processEntry t x = e.processEntry t' x := by
  have happ : ∀ (e : Envelope M) (a : Amount M) (d : Date), e.freq.lastDue t = e.freq.lastDue t' →
      e.applyAmount t a d = e.applyAmount t' a d := by
    intro e a d h
    unfold Envelope.applyAmount
    rw [h]
  cases hb : x.hasEnvelopePosting with
  | true =>
    rw [processEntry_manual t e x hb, processEntry_manual t' e x hb]
    generalize manualMoves x e = as
    induction as generalizing e with
    | nil => rfl
    | cons a as ih =>
      simp only [applyAll, bind, Except.bind]
      rw [happ e a x.date h]
      cases h1 : e.applyAmount t' a x.date with
      | error f => rfl
      | ok e1 =>
        refine ih e1 ?_
        rw [(SameButMoney.fields (applyAmount_keeps _ _ _ _ _ h1).1).2.2.2.2.2.1]
        exact h
  | false =>
    unfold Envelope.processEntry
    rw [hb]
    simp only [Bool.false_eq_true, if_false]
    unfold Envelope.infer
    simp only [happ e _ _ h]

theorem runHistory_today (t t' : Date) (xs : List (Entry M)) (e : Envelope M)
    (h : e.freq.lastDue t = e.freq.lastDue t') : runHistory t xs e = runHistory t' xs e := by
  induction xs generalizing e with
  | nil => rfl
  | cons x xs ih =>
    simp only [runHistory, bind, Except.bind]
    rw [processEntry_today t t' x e h]
    cases h1 : e.processEntry t' x with
    | error f => rfl
    | ok e1 =>
      refine ih e1 ?_
      rw [(SameButMoney.fields (processEntry_keeps _ _ _ _ h1).1).2.2.2.2.2.1]
      exact h

/-- C40: let an envelope with conservative funding lack `n * q`, `n` days before its due date, and let it
be filled on the first `k ≤ n` of these days, the money being available. Then each day moves exactly
`q`, so that after `k` days it has saved `k * q` more (before the due date it lacks something, on the
last day before it nothing). -/
theorem C40_equal_instalments (e0 e : Envelope Rat) (avail : Date → Amount Rat) (due : Date)
    (last : Option Date) (n : Nat) (q : Rat) (ts : List Date) (h : List (Entry Rat))
    (hfund : e0.funding = .conservative) (hcur : e0.OneCurrency)
    (hts : Countdown due n ts)
    (hnext : ∀ t ∈ ts, e0.nextDue t = .ok (some due))
    (hlast : ∀ t ∈ ts, e0.freq.lastDue t = .ok last)
    (hsince : ∀ l, last = some l → ∀ t ∈ ts, Date.le l t = true)
    (hload : ∀ t ∈ ts, runHistory t h e0 = .ok e)
    (htouch : ∀ t ∈ ts, e.lastTx ≠ t)
    (hpos : 0 ≤ e.holds) (hq : 0 < q) (hlack : e.amount.mag - e.next.mag = n * q)
    (hav : ∀ t ∈ ts, (avail t).sym = e0.amount.sym ∧ q ≤ (avail t).mag) :
    saveDaily e0 avail ts h = .ok (h ++ ts.map fun t =>
        Ledger.fillEntry t [⟨e0.account, e0.name, ⟨q, e0.amount.sym⟩⟩]) ∧
    ∀ t, e0.freq.lastDue t = .ok last → runHistory t h e0 = .ok e → ∃ e',
      runHistory t (h ++ ts.map fun t =>
        Ledger.fillEntry t [⟨e0.account, e0.name, ⟨q, e0.amount.sym⟩⟩]) e0 = .ok e' ∧
      e'.now = e.now ∧ e'.next = ⟨e.next.mag + ts.length * q, e.next.sym⟩ := by
  induction ts generalizing h e n with
  | nil =>
    refine ⟨by simp [saveDaily], fun t _ ht => ⟨e, by simpa using ht, rfl, ?_⟩⟩
    simp
  | cons t ts ih =>
    cases n with
    | zero => exact absurd hts (by simp [Countdown])
    | succ n =>
    obtain ⟨hcd, hts'⟩ := hts
    have hk := runHistory_keeps _ _ _ _ (hload t (by simp))
    have hf := SameButMoney.fields hk.1
    -- the fill of the first day
    have hfill : e.fillingAmount t (avail t) = .ok ⟨q, e0.amount.sym⟩ := by
      have hc : e.OneCurrency := by
        unfold Envelope.OneCurrency at hcur ⊢
        rw [hk.2.1, hk.2.2, hf.2.2.1]; exact hcur
      have hnd : e.nextDue t = .ok (some due) := by
        rw [SameButMoney.nextDue hk.1]; exact hnext t (by simp)
      obtain ⟨a, ha⟩ := fillingAmount_total t e (avail t) hc
        (by rw [hf.2.2.1]; exact (hav t (by simp)).1) ⟨_, hnd⟩
      rw [ha]
      obtain ⟨_, hs, hsk | ⟨_, _, due', hd', hm⟩⟩ := fillingAmount_ok t e (avail t) a ha
      · exfalso
        rcases hsk.1 with h | h | h
        · rw [hf.2.2.2.2.2.2.1, hfund] at h; cases h
        · rw [hnd] at h; cases h
        · exact htouch t (by simp) h
      · rw [hnd] at hd'; cases hd'
        have hday : (Mag.ofInt (Date.daysSince due t) : Rat) = ((n + 1 : Nat) : Rat) := by
          show ((Date.daysSince due t : Int) : Rat) = _
          rw [Date.daysSince_eq, hcd]
          have : t.dayNum + ((n : Int) + 1) - t.dayNum = ((n + 1 : Nat) : Int) := by push_cast; omega
          rw [this]; norm_cast
        have hr : (Mag.add e.amount.mag (Mag.neg e.next.mag) : Rat) = ((n + 1 : Nat) : Rat) * q := by
          show e.amount.mag + -e.next.mag = _
          rw [← hlack]; ring
        have hn0 : (0 : Rat) < ((n + 1 : Nat) : Rat) := by exact_mod_cast Nat.succ_pos n
        have hn1 : (1 : Rat) ≤ ((n + 1 : Nat) : Rat) := by exact_mod_cast Nat.succ_le_succ (Nat.zero_le n)
        have hi : e.instalment t due = q := by
          unfold Envelope.instalment
          rw [hf.2.2.2.2.2.2.1, hfund, hr, hday]
          show ((n + 1 : Nat) : Rat) * q / ((n + 1 : Nat) : Rat) = q
          field_simp
        have ht : e.totalMag = e.holds := rfl
        rw [hi, hr, ht, fillMag_rat] at hm
        have h1 : min q (avail t).mag = q := min_eq_left (hav t (by simp)).2
        have h2 : min q (((n + 1 : Nat) : Rat) * q) = q := by
          apply min_eq_left
          nlinarith
        rw [h1, h2, max_eq_left (by linarith : -e.holds ≤ q), max_eq_left (le_of_lt hq)] at hm
        cases a
        simp only at hs hm
        rw [hs, hm, hf.2.2.1]
    have hstep : saveDaily e0 avail (t :: ts) h
        = saveDaily e0 avail ts (h ++ [Ledger.fillEntry t [⟨e0.account, e0.name, ⟨q, e0.amount.sym⟩⟩]]) := by
      simp only [saveDaily, bind, Except.bind, hload t (by simp), hfill]
      rw [if_neg]
      show ¬ decide (q = 0) = true
      simpa using ne_of_gt hq
    -- the entry goes into `next`
    have hproc : ∀ t', e0.freq.lastDue t' = .ok last →
        e.processEntry t' (Ledger.fillEntry t [⟨e0.account, e0.name, ⟨q, e0.amount.sym⟩⟩])
          = .ok (e.intoNext q t) := by
      intro t' hl
      have hb : (Ledger.fillEntry t [(⟨e0.account, e0.name, ⟨q, e0.amount.sym⟩⟩ : EnvPosting Rat)]).hasEnvelopePosting
          = true := rfl
      have hm : manualMoves (Ledger.fillEntry t [⟨e0.account, e0.name, ⟨q, e0.amount.sym⟩⟩]) e
          = [⟨q, e0.amount.sym⟩] := by
        simp [manualMoves, Ledger.fillEntry, Entry.new, hf.1, hf.2.1]
      have hneg : Mag.lt q (Mag.zero : Rat) = false := by
        show decide (q < 0) = false
        simpa using le_of_lt hq
      have hp : Mag.lt (Mag.zero : Rat) q = true := by
        show decide (0 < q) = true
        simpa using hq
      have := C33_deposit_by_date t' e (Ledger.fillEntry t [⟨e0.account, e0.name, ⟨q, e0.amount.sym⟩⟩])
        ⟨q, e0.amount.sym⟩ last hb hm (by rw [hk.2.1]; exact hcur.1.symm)
        (by rw [hk.2.2]; exact hcur.2.symm) hneg hp (by rw [hf.2.2.2.2.2.1]; exact hl)
      rw [this]
      cases last with
      | none => rfl
      | some l =>
        have := hsince l rfl t (by simp)
        have hlt : Date.lt t l = false := by simpa [Date.le] using this
        simp only [Ledger.fillEntry, Entry.new, hlt]
        rfl
    have hrun : ∀ t', e0.freq.lastDue t' = .ok last → runHistory t' h e0 = .ok e →
        runHistory t' (h ++ [Ledger.fillEntry t [⟨e0.account, e0.name, ⟨q, e0.amount.sym⟩⟩]]) e0
          = .ok (e.intoNext q t) := by
      intro t' hl hr
      rw [runHistory_append, hr]
      simp only [bind, Except.bind, runHistory, hproc t' hl]
    have hcd' : ∀ (m : Nat) (us : List Date), Countdown due m us → ∀ u ∈ us,
        due.dayNum ≤ u.dayNum + m := by
      intro m us
      induction us generalizing m with
      | nil => intro _ u hu; cases hu
      | cons v us ihu =>
        intro hc u hu
        cases m with
        | zero => exact absurd hc (by simp [Countdown])
        | succ m =>
          obtain ⟨h1, h2⟩ := hc
          rcases List.mem_cons.1 hu with rfl | hu
          · push_cast; omega
          · have := ihu m h2 u hu; push_cast; omega
    obtain ⟨i1, i2⟩ := ih (e.intoNext q t) n
      (h ++ [Ledger.fillEntry t [⟨e0.account, e0.name, ⟨q, e0.amount.sym⟩⟩]]) hts'
      (fun u hu => hnext u (by simp [hu])) (fun u hu => hlast u (by simp [hu]))
      (fun l hl u hu => hsince l hl u (by simp [hu]))
      (fun u hu => hrun u (hlast u (by simp [hu])) (hload u (by simp [hu])))
      (fun u hu => by
        show t ≠ u
        rintro rfl
        have := hcd' n ts hts' t hu
        omega)
      (by
        show 0 ≤ e.now.mag + (e.next.mag + q)
        have : 0 ≤ e.now.mag + e.next.mag := hpos
        linarith)
      (by
        show e.amount.mag - (e.next.mag + q) = n * q
        push_cast at hlack
        linarith)
      (fun u hu => hav u (by simp [hu]))
    refine ⟨?_, ?_⟩
    · rw [hstep, i1]; simp
    · intro t' hl hr
      obtain ⟨e', h1, h2, h3⟩ := i2 t' hl (hrun t' hl hr)
      refine ⟨e', ?_, h2, ?_⟩
      · rw [← h1]; simp
      · rw [h3]
        show (⟨e.next.mag + q + ts.length * q, e.next.sym⟩ : Amount Rat) = _
        simp only [List.length_cons, Amount.mk.injEq, and_true]
        push_cast; ring

theorem countdown_mem (due : Date) (m : Nat) (us : List Date) (hc : Countdown due m us) :
    us.length ≤ m ∧ ∀ u ∈ us, due.dayNum ≤ u.dayNum + m ∧ u.dayNum < due.dayNum := by
  induction us generalizing m with
  | nil => simp
  | cons v us ihu =>
    cases m with
    | zero => exact absurd hc (by simp [Countdown])
    | succ m =>
      obtain ⟨h1, h2⟩ := hc
      obtain ⟨h3, h4⟩ := ihu m h2
      refine ⟨by simp only [List.length_cons]; omega, fun u hu => ?_⟩
      rcases List.mem_cons.1 hu with rfl | hu
      · push_cast; omega
      · have := h4 u hu; push_cast; omega

/-- The schedules C40 is stated for: every week, or every month on a day that all months have. -/
def Frequency.Regular : Frequency → Prop
  | .weekly _ => True
  | .monthly day => 1 ≤ day ∧ day ≤ 28
  | _ => False

theorem regular_between (f : Frequency) (hf : f.Regular) (d0 due t : Date) (h0 : d0.Inner)
    (hdue : due.Inner) (hnd : f.nextDue d0 = .ok (some due)) (h1 : d0.dayNum ≤ t.dayNum)
    (h2 : t.dayNum < due.dayNum) :
    f.nextDue t = .ok (some due) ∧ f.lastDue t = f.lastDue d0 ∧
      ∃ l, f.lastDue d0 = .ok (some l) ∧ Date.le l t = true := by
  have ht : t.Inner := by
    have a1 := (Date.le_iff_dayNum d0 t).2 h1
    have a2 := (Date.lt_iff_dayNum t due).2 h2
    rw [Date.lt_iff] at a2
    have a3 : ¬ Date.lt t d0 = true := by simpa [Date.le] using a1
    rw [Date.lt_iff] at a3
    unfold Date.Inner at *
    omega
  have key : ∀ P : Date → Prop,
      (∀ t : Date, t.Inner → ∃ d, f.nextDue t = .ok (some d) ∧ FirstAfter t P d) →
      f.nextDue t = .ok (some due) := by
    intro P hP
    obtain ⟨d, hd, hda⟩ := hP d0 h0
    rw [hnd] at hd; cases hd
    obtain ⟨d', hd', hda'⟩ := hP t ht
    rw [hd', firstAfter_unique hda' (d' := due)]
    rw [fst_iff_dayNum] at hda ⊢
    exact ⟨h2, hda.2.1, fun x hx hpx => hda.2.2 x (by omega) hpx⟩
  have hn : f.nextDue t = .ok (some due) := by
    cases f with
    | weekly w => exact key _ (fun t ht => C22_weekly_next t w ht)
    | monthly day => exact key _ (fun t ht => C23_monthly_next t day ht)
    | _ => exact absurd hf (by simp [Frequency.Regular])
  have hl : f.lastDue t = f.lastDue d0 := by unfold Frequency.lastDue; rw [hn, hnd]
  refine ⟨hn, hl, ?_⟩
  rw [← hl]
  obtain ⟨b1, _, b3, _⟩ := C29_last_next_bracket_today_partial t ht
  cases f with
  | weekly w => obtain ⟨l, _, h1, _, h2, _⟩ := b1 w; exact ⟨l, h1, h2⟩
  | monthly day => obtain ⟨l, _, h1, _, h2, _⟩ := b3 day hf.1 hf.2; exact ⟨l, h1, h2⟩
  | _ => exact absurd hf (by simp [Frequency.Regular])

/-- C40 for weekly and monthly envelopes, loaded anew each day from the journal: filled on the first
`k` days from `d0` on, the envelope has saved `k` equal parts of what it lacked, and it has reached its
target exactly if `k` is the number of days from `d0` to the due date. -/
theorem C40_just_in_time (e0 e : Envelope Rat) (avail : Date → Amount Rat) (d0 due : Date)
    (n : Nat) (ts : List Date) (h : List (Entry Rat))
    (hfund : e0.funding = .conservative) (hcur : e0.OneCurrency)
    (hreg : e0.freq.Regular) (hstart : e0.starting = none)
    (hi0 : d0.Inner) (hi1 : due.Inner)
    (hdue : e0.nextDue d0 = .ok (some due)) (hn : Date.daysSince due d0 = n)
    (hts : Countdown due n ts)
    (hload : runHistory d0 h e0 = .ok e) (htouch : Date.lt e.lastTx d0 = true)
    (hpos : 0 ≤ e.holds) (hlack : e.next.mag < e.amount.mag)
    (hav : ∀ t, (avail t).sym = e0.amount.sym ∧ (e.amount.mag - e.next.mag) / n ≤ (avail t).mag) :
    ∃ h' e', saveDaily e0 avail ts h = .ok h' ∧ runHistory d0 h' e0 = .ok e' ∧
      e'.now = e.now ∧
      e'.next.mag = e.next.mag + ts.length * ((e.amount.mag - e.next.mag) / n) ∧
      (e'.next.mag = e.amount.mag ↔ ts.length = n) := by
  have hfn : e0.freq.nextDue d0 = .ok (some due) := by
    unfold Envelope.nextDue at hdue; rw [hstart] at hdue; exact hdue
  have hlt : d0.dayNum < due.dayNum := by
    cases hfr : e0.freq with
    | weekly w =>
      obtain ⟨d, hd, hda⟩ := C22_weekly_next d0 w hi0
      rw [hfr, hd] at hfn; cases hfn
      exact (fst_iff_dayNum.1 hda).1
    | monthly day =>
      obtain ⟨d, hd, hda⟩ := C23_monthly_next d0 day hi0
      rw [hfr, hd] at hfn; cases hfn
      exact (fst_iff_dayNum.1 hda).1
    | _ => rw [hfr] at hreg; exact absurd hreg (by simp [Frequency.Regular])
  rw [Date.daysSince_eq] at hn
  have hn0 : 0 < n := by omega
  have hnr : (0 : Rat) < (n : Rat) := by exact_mod_cast hn0
  obtain ⟨hlen, hmem⟩ := countdown_mem due n ts hts
  have hbet : ∀ t ∈ ts, _ := fun t ht => regular_between e0.freq hreg d0 due t hi0 hi1 hfn
    (by have := hmem t ht; omega) (hmem t ht).2
  obtain ⟨_, _, l, hl, _⟩ := regular_between e0.freq hreg d0 due d0 hi0 hi1 hfn (le_refl _) hlt
  have hqpos : 0 < (e.amount.mag - e.next.mag) / n := div_pos (by linarith) hnr
  obtain ⟨h1, h2⟩ := C40_equal_instalments e0 e avail due (some l) n
    ((e.amount.mag - e.next.mag) / n) ts h hfund hcur hts
    (fun t ht => by
      unfold Envelope.nextDue; rw [hstart]; exact (hbet t ht).1)
    (fun t ht => by rw [(hbet t ht).2.1]; exact hl)
    (fun l' hl' t ht => by
      cases hl'
      obtain ⟨l2, hl2, hle⟩ := (hbet t ht).2.2
      rw [hl] at hl2; cases hl2; exact hle)
    (fun t ht => by
      rw [runHistory_today t d0 h e0 (hbet t ht).2.1]; exact hload)
    (fun t ht heq => by
      rw [Date.lt_iff_dayNum] at htouch
      have := (hmem t ht).1
      rw [← heq] at this
      omega)
    hpos hqpos (by field_simp) (fun t _ => hav t)
  obtain ⟨e', h3, h4, h5⟩ := h2 d0 hl hload
  refine ⟨_, e', h1, h3, h4, by rw [h5], ?_⟩
  rw [h5]
  simp only
  constructor
  · intro heq
    have h6 : ((ts.length : Rat) - n) * ((e.amount.mag - e.next.mag) / n) = 0 := by
      have : (n : Rat) * ((e.amount.mag - e.next.mag) / n) = e.amount.mag - e.next.mag := by field_simp
      rw [sub_mul, this]; linarith
    rcases mul_eq_zero.1 h6 with h7 | h7
    · have : (ts.length : Rat) = (n : Rat) := by linarith
      exact_mod_cast this
    · linarith
  · intro heq
    rw [heq]
    have : (n : Rat) * ((e.amount.mag - e.next.mag) / n) = e.amount.mag - e.next.mag := by field_simp
    rw [this]; ring

/-- Five days from the 10th to the 15th of June: an envelope that lacks 270 of its 300 gets five times
54. -/
example : Countdown june15 5 ([10, 11, 12, 13, 14].map fun d => (Date.ofYmd? 2024 6 d).getD june15) ∧
    exFood.nextDue ⟨2024, 6, 10, by decide⟩ = .ok (some june15) ∧
    ∃ h, saveDaily exFood (fun _ => ⟨100, none⟩)
      ([10, 11, 12, 13, 14].map fun d => (Date.ofYmd? 2024 6 d).getD june15) [] = .ok h ∧
    (h.map fun x => manualMoves x exFood) = List.replicate 5 [⟨54, none⟩] ∧
    ∃ e, runHistory ⟨2024, 6, 14, by decide⟩ h exFood = .ok e ∧ e.next = ⟨300, none⟩ := by
  refine ⟨⟨by decide, by decide, by decide, by decide, by decide, trivial⟩, ?_⟩
  decide +kernel

end Silverfox
