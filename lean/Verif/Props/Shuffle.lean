import Verif.Props.Days

/-
C99: the order in which entries stand in a journal.
-/

namespace Silverfox

set_option linter.unusedSectionVars false

/-! ### Specification -/

/-- Specification: the same envelope with the same money. -/
structure AlikeEnvelope (e e' : Envelope Rat) : Prop where
  same : e.SameButMoney e'
  now : e'.now = e.now
  next : e'.next = e.next

/-- Specification: the same account with the same envelopes and the same real value in each currency. -/
structure AlikeAccount (a a' : Account Rat) : Prop where
  name : a'.name = a.name
  real : ∀ s, (a'.real.only s).mag = (a.real.only s).mag
  expenses : List.Forall₂ AlikeEnvelope a.expenses a'.expenses
  goals : List.Forall₂ AlikeEnvelope a.goals a'.goals

/-- Specification: the same ledger, but for the place of its file, the order of entries of one day, and
the days on which envelopes were last touched. -/
structure AlikeLedger (l l' : Ledger Rat) : Prop where
  entries : l'.entries.Perm l.entries
  sorted : l'.entries.Pairwise fun x y => Date.lt y.date x.date = false
  format : l'.dateFormat = l.dateFormat
  currency : l'.currency = l.currency
  decimal : l'.decimal = l.decimal
  accounts : List.Forall₂ (fun p p' => p'.1 = p.1 ∧ AlikeAccount p.2 p'.2) l.accounts l'.accounts

/-- Specification: an item that is an entry: it does not begin with the name of a directive. -/
def IsEntryItem (c : Str) : Prop :=
  ∃ kw more, splitWs c = kw :: more ∧ kw ∉ [s%"account", s%"currency", s%"date_format", s%"include"]

/-! ### One envelope -/

/-- The same envelope with `δ` more in its two pockets. -/
structure EnvShift (δ : Rat × Rat) (e e' : Envelope Rat) : Prop where
  same : e.SameButMoney e'
  one : e.OneCurrency
  one' : e'.OneCurrency
  now : e'.now.mag = e.now.mag + δ.1
  next : e'.next.mag = e.next.mag + δ.2

theorem SameButMoney.symm' {e e' : Envelope Rat} (h : e.SameButMoney e') : e'.SameButMoney e := by
  unfold Envelope.SameButMoney at *
  rw [h]

theorem SameButMoney.trans' {e e' e'' : Envelope Rat} (h : e.SameButMoney e') (h' : e'.SameButMoney e'') :
    e.SameButMoney e'' := by
  unfold Envelope.SameButMoney at *
  rw [h', h]

theorem EnvShift.symm {δ : Rat × Rat} {e e' : Envelope Rat} (h : EnvShift δ e e') :
    EnvShift (-δ.1, -δ.2) e' e :=
  ⟨SameButMoney.symm' h.same, h.one', h.one, by rw [h.now]; ring, by rw [h.next]; ring⟩

theorem EnvShift.between {e e' : Envelope Rat} (h : e.SameButMoney e') (h1 : e.OneCurrency)
    (h2 : e'.OneCurrency) : EnvShift (e'.now.mag - e.now.mag, e'.next.mag - e.next.mag) e e' :=
  ⟨h, h1, h2, by ring, by ring⟩

theorem EnvShift.alike {e e' : Envelope Rat} (h : EnvShift (0, 0) e e') : AlikeEnvelope e e' := by
  have hf := SameButMoney.fields h.same
  obtain ⟨s1, s2⟩ := h.one
  obtain ⟨s3, s4⟩ := h.one'
  refine ⟨h.same, ?_, ?_⟩
  · have := h.now
    cases h1 : e.now; cases h2 : e'.now
    simp_all
  · have := h.next
    cases h1 : e.next; cases h2 : e'.next
    simp_all

theorem applyAmount_shift {δ : Rat × Rat} (d : Date) (e e' e1 : Envelope Rat) (a : Amount Rat) (date : Date)
    (hs : EnvShift δ e e') (h : e.applyAmount d a date = .ok e1) :
    ∃ e1', e'.applyAmount d a date = .ok e1' ∧ EnvShift δ e1 e1' := by
  have hf := SameButMoney.fields hs.same
  have k := applyAmount_keeps d e e1 a date h
  have kf := SameButMoney.fields k.1
  have hone1 : e1.OneCurrency := by
    have hone := hs.one
    unfold Envelope.OneCurrency at hone ⊢; rw [k.2.1, k.2.2.1, kf.2.2.1]; exact hone
  have fin : ∀ e1', e'.applyAmount d a date = .ok e1' →
      e1'.now.mag = e1.now.mag + δ.1 → e1'.next.mag = e1.next.mag + δ.2 →
      ∃ e1', e'.applyAmount d a date = .ok e1' ∧ EnvShift δ e1 e1' := by
    intro e1' h' h1 h2
    have k' := applyAmount_keeps d e' e1' a date h'
    have kf' := SameButMoney.fields k'.1
    refine ⟨e1', h', ⟨?_, hone1, ?_, h1, h2⟩⟩
    · exact SameButMoney.trans' (SameButMoney.symm' k.1) (SameButMoney.trans' hs.same k'.1)
    · have hone' := hs.one'
      unfold Envelope.OneCurrency at hone' ⊢; rw [k'.2.1, k'.2.2.1, kf'.2.2.1]; exact hone'
  have hn : a.sym = e.now.sym → e'.now.sym = a.sym := by
    intro h; rw [hs.one'.1, h, hs.one.1, hf.2.2.1]
  have hx : a.sym = e.next.sym → e'.next.sym = a.sym := by
    intro h; rw [hs.one'.2, h, hs.one.2, hf.2.2.1]
  have hfr : e'.freq = e.freq := hf.2.2.2.2.2.1
  rcases applyAmount_ok d e e1 a date h with ⟨h1, h2, rfl⟩ | ⟨h1, h2, h3, ⟨l, hl, hdl⟩, rfl⟩ |
    ⟨h1, h2, h3, ⟨o, hl, hdl⟩, rfl⟩ | ⟨h1, h2, rfl⟩
  · refine fin (e'.intoNow a.mag date) ?_ ?_ hs.next
    · unfold Envelope.applyAmount
      simp [h1, Amount.add, hn h2, bind, Except.bind, pure, Except.pure, Envelope.intoNow]
    · simp only [Envelope.intoNow, Mag.add, hs.now]; ring
  · refine fin (e'.intoNow a.mag date) ?_ ?_ hs.next
    · unfold Envelope.applyAmount
      simp [h1, h2, hfr, hl, hdl, Amount.add, hn h3, bind, Except.bind, pure, Except.pure, Envelope.intoNow]
    · simp only [Envelope.intoNow, Mag.add, hs.now]; ring
  · refine fin (e'.intoNext a.mag date) ?_ hs.now ?_
    · unfold Envelope.applyAmount
      cases o with
      | none => simp [h1, h2, hfr, hl, Amount.add, hx h3, bind, Except.bind, pure, Except.pure, Envelope.intoNext]
      | some d' =>
        simp [h1, h2, hfr, hl, hdl d' rfl, Amount.add, hx h3, bind, Except.bind, pure, Except.pure, Envelope.intoNext]
    · simp only [Envelope.intoNext, Mag.add, hs.next]; ring
  · refine fin { e' with lastTx := date } ?_ hs.now hs.next
    unfold Envelope.applyAmount
    simp [h1, h2]

theorem processManual_shift {δ : Rat × Rat} (d date : Date) (ps : List (EnvPosting Rat))
    (e e' e1 : Envelope Rat) (hs : EnvShift δ e e') (h : Envelope.processManual d date ps e = .ok e1) :
    ∃ e1', Envelope.processManual d date ps e' = .ok e1' ∧ EnvShift δ e1 e1' := by
  induction ps generalizing e e' with
  | nil => cases h; exact ⟨e', rfl, hs⟩
  | cons p ps ih =>
    have hf := SameButMoney.fields hs.same
    unfold Envelope.processManual at h ⊢
    rw [hf.1, hf.2.1]
    split at h
    · rename_i hc
      simp only [bind, Except.bind] at h
      split at h
      · cases h
      · rename_i e2 he2
        obtain ⟨e2', h2, h3⟩ := applyAmount_shift d e e' e2 p.amount date hs he2
        obtain ⟨e1', h4, h5⟩ := ih e2 e2' h3 h
        exact ⟨e1', by simp only [if_pos hc, bind, Except.bind, h2]; exact h4, h5⟩
    · rename_i hc
      rw [if_neg hc]
      exact ih e e' hs h

theorem infer_shift {δ : Rat × Rat} (d : Date) (entry : Entry Rat) (e e' e1 : Envelope Rat)
    (hs : EnvShift δ e e') (h : Envelope.infer d e entry = .ok e1) :
    ∃ e1', Envelope.infer d e' entry = .ok e1' ∧ EnvShift δ e1 e1' := by
  have hf := SameButMoney.fields hs.same
  unfold Envelope.infer at h ⊢
  simp only [hf.2.1, hf.2.2.1, hf.2.2.2.2.1, inferLoop_congr e e' hf.2.1 hf.2.2.1 hf.2.2.2.2.1] at h ⊢
  split at h
  · rename_i hc; rw [if_pos hc]; cases h; exact ⟨e', rfl, hs⟩
  · rename_i hc
    rw [if_neg hc]
    simp only [bind, Except.bind, pure, Except.pure] at h ⊢
    split at h
    · cases h
    · rename_i p hp
      split at h
      · rename_i hz
        simp only [hz, if_true]
        exact applyAmount_shift d e e' e1 _ _ hs h
      · rename_i hz
        cases h
        exact ⟨e', by simp only [hz]; rfl, hs⟩

theorem envProcess_shift {δ : Rat × Rat} (d : Date) (entry : Entry Rat) (e e' e1 : Envelope Rat)
    (hs : EnvShift δ e e') (h : Envelope.processEntry d e entry = .ok e1) :
    ∃ e1', Envelope.processEntry d e' entry = .ok e1' ∧ EnvShift δ e1 e1' := by
  unfold Envelope.processEntry at h ⊢
  split at h
  · rename_i hc; rw [if_pos hc]; exact processManual_shift d _ _ e e' e1 hs h
  · rename_i hc; rw [if_neg hc]; exact infer_shift d entry e e' e1 hs h

/-- Processing keeps everything but money. -/
theorem envProcess_keeps (d : Date) (entry : Entry Rat) (e e1 : Envelope Rat) (ho : e.OneCurrency)
    (h : Envelope.processEntry d e entry = .ok e1) : e.SameButMoney e1 ∧ e1.OneCurrency := by
  have one : ∀ (e e1 : Envelope Rat) a date, e.OneCurrency → e.applyAmount d a date = .ok e1 →
      e.SameButMoney e1 ∧ e1.OneCurrency := by
    intro e e1 a date ho h
    have k := applyAmount_keeps d e e1 a date h
    have kf := SameButMoney.fields k.1
    refine ⟨k.1, ?_⟩
    unfold Envelope.OneCurrency at ho ⊢; rw [k.2.1, k.2.2.1, kf.2.2.1]; exact ho
  unfold Envelope.processEntry at h
  split at h
  · generalize entry.envelopePostings = ps at h
    induction ps generalizing e with
    | nil => cases h; exact ⟨rfl, ho⟩
    | cons p ps ih =>
      unfold Envelope.processManual at h
      split at h
      · simp only [bind, Except.bind] at h
        split at h
        · cases h
        · rename_i e2 he2
          obtain ⟨k1, k2⟩ := one _ _ _ _ ho he2
          obtain ⟨k3, k4⟩ := ih e2 k2 h
          exact ⟨SameButMoney.trans' k1 k3, k4⟩
      · exact ih e ho h
  · unfold Envelope.infer at h
    simp only at h
    split at h
    · cases h; exact ⟨rfl, ho⟩
    · simp only [bind, Except.bind, pure, Except.pure] at h
      split at h
      · cases h
      · split at h
        · exact one _ _ _ _ ho h
        · cases h; exact ⟨rfl, ho⟩

/-- Two entries in the other order do the same to an envelope. -/
theorem envProcess_swap (d : Date) (x y : Entry Rat) (e e1 e2 : Envelope Rat) (ho : e.OneCurrency)
    (h1 : Envelope.processEntry d e x = .ok e1) (h2 : Envelope.processEntry d e1 y = .ok e2) :
    ∃ e1' e2', Envelope.processEntry d e y = .ok e1' ∧ Envelope.processEntry d e1' x = .ok e2' ∧
      EnvShift (0, 0) e2 e2' := by
  obtain ⟨k1, o1⟩ := envProcess_keeps d x e e1 ho h1
  have s1 := EnvShift.between k1 ho o1
  obtain ⟨e1', g1, t1⟩ := envProcess_shift d y e1 e e2 s1.symm h2
  obtain ⟨k1', o1'⟩ := envProcess_keeps d y e e1' ho g1
  have s1' := EnvShift.between k1' ho o1'
  obtain ⟨e2', g2, t2⟩ := envProcess_shift d x e e1' e1 s1' h1
  refine ⟨e1', e2', g1, g2, ?_⟩
  refine ⟨?_, t1.one, t2.one', ?_, ?_⟩
  · exact SameButMoney.trans' t1.same (SameButMoney.trans' (SameButMoney.symm' k1')
      (SameButMoney.trans' k1 t2.same))
  · have a1 := t1.now; have a2 := t2.now
    simp only at a1 a2 ⊢
    linarith
  · have a1 := t1.next; have a2 := t2.next
    simp only at a1 a2 ⊢
    linarith

/-! ### Several envelopes, accounts, ledgers -/

theorem EnvShift.refl0 {e : Envelope Rat} (h : e.OneCurrency) : EnvShift (0, 0) e e :=
  ⟨rfl, h, h, by ring, by ring⟩

theorem EnvShift.trans0 {a b c : Envelope Rat} (h : EnvShift (0, 0) a b) (h' : EnvShift (0, 0) b c) :
    EnvShift (0, 0) a c :=
  ⟨SameButMoney.trans' h.same h'.same, h.one, h'.one', by have := h.now; have := h'.now; simp_all,
    by have := h.next; have := h'.next; simp_all⟩

theorem processEnvelopes_like (d : Date) (entry : Entry Rat) (es es' : List (Envelope Rat))
    (hs : List.Forall₂ (EnvShift (0, 0)) es es') (es1 : List (Envelope Rat))
    (h : Account.processEnvelopes d entry es = .ok es1) :
    ∃ es1', Account.processEnvelopes d entry es' = .ok es1' ∧ List.Forall₂ (EnvShift (0, 0)) es1 es1' := by
  induction hs generalizing es1 with
  | nil => cases h; exact ⟨[], rfl, .nil⟩
  | cons hx _ ih =>
    simp only [Account.processEnvelopes, bind, Except.bind, pure, Except.pure] at h ⊢
    split at h
    · cases h
    · rename_i e1 he1
      split at h
      · cases h
      · rename_i es2 hes2
        cases h
        obtain ⟨e1', h1, h2⟩ := envProcess_shift d entry _ _ e1 hx he1
        obtain ⟨es2', h3, h4⟩ := ih es2 hes2
        exact ⟨e1' :: es2', by simp only [h1, h3], .cons h2 h4⟩

theorem processEnvelopes_swap (d : Date) (x y : Entry Rat) (es es1 es2 : List (Envelope Rat))
    (ho : ∀ e ∈ es, e.OneCurrency) (h1 : Account.processEnvelopes d x es = .ok es1)
    (h2 : Account.processEnvelopes d y es1 = .ok es2) :
    ∃ es1' es2', Account.processEnvelopes d y es = .ok es1' ∧ Account.processEnvelopes d x es1' = .ok es2' ∧
      List.Forall₂ (EnvShift (0, 0)) es2 es2' := by
  induction es generalizing es1 es2 with
  | nil => cases h1; cases h2; exact ⟨[], [], rfl, rfl, .nil⟩
  | cons e es ih =>
    simp only [Account.processEnvelopes, bind, Except.bind, pure, Except.pure] at h1
    split at h1
    · cases h1
    · rename_i e1 he1
      split at h1
      · cases h1
      · rename_i r1 hr1
        cases h1
        simp only [Account.processEnvelopes, bind, Except.bind, pure, Except.pure] at h2
        split at h2
        · cases h2
        · rename_i e2 he2
          split at h2
          · cases h2
          · rename_i r2 hr2
            cases h2
            obtain ⟨e1', e2', g1, g2, g3⟩ := envProcess_swap d x y e e1 e2 (ho e (by simp)) he1 he2
            obtain ⟨r1', r2', k1, k2, k3⟩ := ih r1 r2 (fun e' he' => ho e' (by simp [he'])) hr1 hr2
            refine ⟨e1' :: r1', e2' :: r2', ?_, ?_, .cons g3 k3⟩
            · simp only [Account.processEnvelopes, bind, Except.bind, pure, Except.pure, g1, k1]
            · simp only [Account.processEnvelopes, bind, Except.bind, pure, Except.pure, g2, k2]

/-- What happens to real money does not depend on the money there is. -/
theorem processReal_shift (name : Str) (x : Entry Rat) (ps : List (Posting Rat)) (r r' r1 : Pool Rat)
    (h : Account.processReal name x ps r = .ok r1) :
    ∃ r1', Account.processReal name x ps r' = .ok r1' ∧
      ∀ s, Pool.bal r1' s - Pool.bal r' s = Pool.bal r1 s - Pool.bal r s := by
  induction ps generalizing r r' with
  | nil => cases h; exact ⟨r', rfl, fun s => by ring⟩
  | cons p ps ih =>
    unfold Account.processReal at h ⊢
    split at h
    · rename_i hc
      rw [if_pos hc]
      cases ha : p.amount with
      | some a =>
        simp only [ha] at h ⊢
        obtain ⟨r1', g1, g2⟩ := ih _ (Pool.add r' a) h
        refine ⟨r1', g1, fun s => ?_⟩
        have := g2 s
        rw [Pool.bal_add, Pool.bal_add] at this
        linarith
      | none =>
        simp only [ha, bind, Except.bind] at h ⊢
        cases hb : x.blankAmount with
        | error f => simp [hb] at h
        | ok b =>
          simp only [hb] at h ⊢
          cases b with
          | none => exact ih _ _ h
          | some a =>
            obtain ⟨r1', g1, g2⟩ := ih _ (Pool.add r' a) h
            refine ⟨r1', g1, fun s => ?_⟩
            have := g2 s
            rw [Pool.bal_add, Pool.bal_add] at this
            linarith
    · rename_i hc
      rw [if_neg hc]
      exact ih _ _ h

structure AcctLike (a a' : Account Rat) : Prop where
  name : a'.name = a.name
  real : ∀ s, Pool.bal a'.real s = Pool.bal a.real s
  expenses : List.Forall₂ (EnvShift (0, 0)) a.expenses a'.expenses
  goals : List.Forall₂ (EnvShift (0, 0)) a.goals a'.goals

theorem processAccount_ok (d : Date) (x : Entry Rat) (a a1 : Account Rat) :
    a.processEntry d x = .ok a1 ↔ ∃ ex go re, Account.processEnvelopes d x a.expenses = .ok ex ∧
      Account.processEnvelopes d x a.goals = .ok go ∧ Account.processReal a.name x x.postings a.real = .ok re ∧
      a1 = { a with expenses := ex, goals := go, real := re } := by
  unfold Account.processEntry
  simp only [bind, Except.bind, pure, Except.pure]
  cases h1 : Account.processEnvelopes d x a.expenses with
  | error f => simp
  | ok ex =>
    cases h2 : Account.processEnvelopes d x a.goals with
    | error f => simp
    | ok go =>
      cases h3 : Account.processReal a.name x x.postings a.real with
      | error f => simp
      | ok re => simp [eq_comm]

theorem acctProcess_like (d : Date) (x : Entry Rat) (a a' a1 : Account Rat) (hs : AcctLike a a')
    (h : a.processEntry d x = .ok a1) : ∃ a1', a'.processEntry d x = .ok a1' ∧ AcctLike a1 a1' := by
  obtain ⟨ex, go, re, h1, h2, h3, rfl⟩ := (processAccount_ok d x a a1).1 h
  obtain ⟨ex', g1, k1⟩ := processEnvelopes_like d x _ _ hs.expenses ex h1
  obtain ⟨go', g2, k2⟩ := processEnvelopes_like d x _ _ hs.goals go h2
  obtain ⟨re', g3, k3⟩ := processReal_shift a.name x x.postings a.real a'.real re h3
  refine ⟨_, (processAccount_ok d x a' _).2 ⟨ex', go', re', g1, g2, by rw [hs.name]; exact g3, rfl⟩,
    ⟨hs.name, fun s => ?_, k1, k2⟩⟩
  have := k3 s
  have := hs.real s
  simp only
  linarith

theorem acctProcess_swap (d : Date) (x y : Entry Rat) (a a1 a2 : Account Rat)
    (ho : ∀ e ∈ a.envelopes, e.OneCurrency) (h1 : a.processEntry d x = .ok a1)
    (h2 : a1.processEntry d y = .ok a2) :
    ∃ a1' a2', a.processEntry d y = .ok a1' ∧ a1'.processEntry d x = .ok a2' ∧ AcctLike a2 a2' := by
  obtain ⟨ex, go, re, p1, p2, p3, rfl⟩ := (processAccount_ok d x a a1).1 h1
  obtain ⟨ex2, go2, re2, q1, q2, q3, rfl⟩ := (processAccount_ok d y _ a2).1 h2
  obtain ⟨ex1', ex2', g1, g2, g3⟩ := processEnvelopes_swap d x y _ _ _
    (fun e he => ho e (List.mem_append_left _ he)) p1 q1
  obtain ⟨go1', go2', k1, k2, k3⟩ := processEnvelopes_swap d x y _ _ _
    (fun e he => ho e (List.mem_append_right _ he)) p2 q2
  obtain ⟨re1', r1, r2⟩ := processReal_shift a.name y y.postings re a.real re2 q3
  obtain ⟨re2', s1, s2⟩ := processReal_shift a.name x x.postings a.real re1' re p3
  refine ⟨_, _, (processAccount_ok d y a _).2 ⟨ex1', go1', re1', g1, k1, r1, rfl⟩,
    (processAccount_ok d x _ _).2 ⟨ex2', go2', re2', g2, k2, s1, rfl⟩, ⟨rfl, fun s => ?_, g3, k3⟩⟩
  have := r2 s
  have := s2 s
  simp only
  linarith

theorem AcctLike.refl {a : Account Rat} (h : ∀ e ∈ a.envelopes, e.OneCurrency) : AcctLike a a :=
  ⟨rfl, fun _ => rfl, forall₂_self _ fun e he => EnvShift.refl0 (h e (List.mem_append_left _ he)),
    forall₂_self _ fun e he => EnvShift.refl0 (h e (List.mem_append_right _ he))⟩

theorem forall₂_chain {α : Type} {R : α → α → Prop} (hR : ∀ a b c, R a b → R b c → R a c) {xs ys zs : List α}
    (h : List.Forall₂ R xs ys) (h' : List.Forall₂ R ys zs) : List.Forall₂ R xs zs := by
  induction h generalizing zs with
  | nil => cases h'; exact .nil
  | cons h1 _ ih => cases h' with | cons h2 h3 => exact .cons (hR _ _ _ h1 h2) (ih h3)

theorem AcctLike.trans {a b c : Account Rat} (h : AcctLike a b) (h' : AcctLike b c) : AcctLike a c :=
  ⟨h'.name.trans h.name, fun s => (h'.real s).trans (h.real s),
    forall₂_chain (R := EnvShift (0, 0)) (fun _ _ _ h1 h2 => EnvShift.trans0 h1 h2) h.expenses h'.expenses,
    forall₂_chain (R := EnvShift (0, 0)) (fun _ _ _ h1 h2 => EnvShift.trans0 h1 h2) h.goals h'.goals⟩

abbrev MapLike : Str × Account Rat → Str × Account Rat → Prop := fun p p' => p'.1 = p.1 ∧ AcctLike p.2 p'.2

theorem processAll_like (d : Date) (x : Entry Rat) (as as' : List (Str × Account Rat))
    (hs : List.Forall₂ MapLike as as') (as1 : List (Str × Account Rat))
    (h : Ledger.processAll d x as = .ok as1) :
    ∃ as1', Ledger.processAll d x as' = .ok as1' ∧ List.Forall₂ MapLike as1 as1' := by
  induction hs generalizing as1 with
  | nil => cases h; exact ⟨[], rfl, .nil⟩
  | @cons p p' ps ps' hx _ ih =>
    obtain ⟨k, a⟩ := p
    obtain ⟨k', a'⟩ := p'
    obtain ⟨hk, ha⟩ := hx
    simp only at hk ha
    simp only [Ledger.processAll, bind, Except.bind, pure, Except.pure] at h ⊢
    split at h
    · cases h
    · rename_i a1 ha1
      split at h
      · cases h
      · rename_i as2 has2
        cases h
        obtain ⟨a1', h1, h2⟩ := acctProcess_like d x _ _ a1 ha ha1
        obtain ⟨as2', h3, h4⟩ := ih as2 has2
        exact ⟨(k', a1') :: as2', by simp only [h1, h3], .cons ⟨hk, h2⟩ h4⟩

theorem processAll_swap (d : Date) (x y : Entry Rat) (as as1 as2 : List (Str × Account Rat))
    (ho : ∀ p ∈ as, ∀ e ∈ p.2.envelopes, e.OneCurrency) (h1 : Ledger.processAll d x as = .ok as1)
    (h2 : Ledger.processAll d y as1 = .ok as2) :
    ∃ as1' as2', Ledger.processAll d y as = .ok as1' ∧ Ledger.processAll d x as1' = .ok as2' ∧
      List.Forall₂ MapLike as2 as2' := by
  induction as generalizing as1 as2 with
  | nil => cases h1; cases h2; exact ⟨[], [], rfl, rfl, .nil⟩
  | cons p as ih =>
    obtain ⟨k, a⟩ := p
    simp only [Ledger.processAll, bind, Except.bind, pure, Except.pure] at h1
    split at h1
    · cases h1
    · rename_i a1 ha1
      split at h1
      · cases h1
      · rename_i r1 hr1
        cases h1
        simp only [Ledger.processAll, bind, Except.bind, pure, Except.pure] at h2
        split at h2
        · cases h2
        · rename_i a2 ha2
          split at h2
          · cases h2
          · rename_i r2 hr2
            cases h2
            obtain ⟨a1', a2', g1, g2, g3⟩ := acctProcess_swap d x y a a1 a2 (ho (k, a) (by simp)) ha1 ha2
            obtain ⟨r1', r2', k1, k2, k3⟩ := ih r1 r2 (fun q hq => ho q (by simp [hq])) hr1 hr2
            refine ⟨(k, a1') :: r1', (k, a2') :: r2', ?_, ?_, .cons ⟨rfl, g3⟩ k3⟩
            · simp only [Ledger.processAll, bind, Except.bind, pure, Except.pure, g1, k1]
            · simp only [Ledger.processAll, bind, Except.bind, pure, Except.pure, g2, k2]

structure LedLike (l l' : Ledger Rat) : Prop where
  entries : l'.entries.Perm l.entries
  format : l'.dateFormat = l.dateFormat
  currency : l'.currency = l.currency
  decimal : l'.decimal = l.decimal
  accounts : List.Forall₂ MapLike l.accounts l'.accounts

theorem forall₂_left_mem {α : Type} {R : α → α → Prop} {xs ys : List α} (h : List.Forall₂ R xs ys) (x : α)
    (hx : x ∈ xs) : ∃ y ∈ ys, R x y := by
  induction h with
  | nil => cases hx
  | cons h1 _ ih =>
    rcases List.mem_cons.1 hx with rfl | hx
    · exact ⟨_, by simp, h1⟩
    · obtain ⟨y, hy, hr⟩ := ih hx
      exact ⟨y, by simp [hy], hr⟩

theorem AcctLike.one {a a' : Account Rat} (h : AcctLike a a') : ∀ e ∈ a.envelopes, e.OneCurrency := by
  intro e he
  rcases List.mem_append.1 he with he | he
  · obtain ⟨e', _, hr⟩ := forall₂_left_mem h.expenses e he; exact hr.one
  · obtain ⟨e', _, hr⟩ := forall₂_left_mem h.goals e he; exact hr.one

theorem LedLike.one {l l' : Ledger Rat} (h : LedLike l l') :
    ∀ p ∈ l.accounts, ∀ e ∈ p.2.envelopes, e.OneCurrency := by
  intro p hp
  obtain ⟨p', _, hr⟩ := forall₂_left_mem h.accounts p hp
  exact hr.2.one

theorem LedLike.refl {l : Ledger Rat} (h : ∀ p ∈ l.accounts, ∀ e ∈ p.2.envelopes, e.OneCurrency) : LedLike l l :=
  ⟨.refl _, rfl, rfl, rfl, forall₂_self _ fun p hp => ⟨rfl, AcctLike.refl (h p hp)⟩⟩

theorem LedLike.trans {a b c : Ledger Rat} (h : LedLike a b) (h' : LedLike b c) : LedLike a c :=
  ⟨h'.entries.trans h.entries, h'.format.trans h.format, h'.currency.trans h.currency,
    h'.decimal.trans h.decimal, forall₂_chain (R := MapLike)
      (fun _ _ _ h1 h2 => ⟨h2.1.trans h1.1, h1.2.trans h2.2⟩) h.accounts h'.accounts⟩

theorem addEntry_iff {M : Type} [Mag M] (env : Env) (hord : FairOrder env.ord) (l l1 : Ledger M) (x : Entry M) :
    l.addEntry env x = .ok l1 ↔ ∃ accs, Ledger.processAll env.today x l.accounts = .ok accs ∧
      l1 = { l with accounts := accs
                    entries := stableSort (fun a b => Date.lt a.date b.date) (l.entries ++ [x]) } := by
  constructor
  · intro h
    obtain ⟨accs, h1, h2, _⟩ := addEntry_ok _ _ _ _ h
    exact ⟨accs, h1, h2⟩
  · rintro ⟨accs, h1, rfl⟩
    have h4 : ∃ r, Ledger.processAll env.today x (env.ord l.accounts) = .ok r := by
      have h5 := (processAll_exists env.today x l.accounts).1 ⟨_, h1⟩
      rw [processAll_exists]
      intro p hp
      exact h5 p ((hord _ l.accounts).mem_iff.1 hp)
    obtain ⟨r, hr⟩ := h4
    unfold Ledger.addEntry
    rw [hr]
    show (Ledger.processAll env.today x l.accounts >>= _) = _
    rw [h1]
    rfl

theorem addEntry_like (env : Env) (hord : FairOrder env.ord) (x : Entry Rat) (l l' l1 : Ledger Rat)
    (hs : LedLike l l') (h : l.addEntry env x = .ok l1) :
    ∃ l1', l'.addEntry env x = .ok l1' ∧ LedLike l1 l1' := by
  obtain ⟨accs, h1, rfl⟩ := (addEntry_iff env hord l l1 x).1 h
  obtain ⟨accs', h2, h3⟩ := processAll_like env.today x _ _ hs.accounts accs h1
  refine ⟨_, (addEntry_iff env hord l' _ x).2 ⟨accs', h2, rfl⟩, ⟨?_, hs.format, hs.currency, hs.decimal, h3⟩⟩
  exact (stableSort_perm _ _).trans ((hs.entries.append_right [x]).trans (stableSort_perm _ _).symm)

theorem addEntry_swap (env : Env) (hord : FairOrder env.ord) (x y : Entry Rat) (l l1 l2 : Ledger Rat)
    (ho : ∀ p ∈ l.accounts, ∀ e ∈ p.2.envelopes, e.OneCurrency)
    (h1 : l.addEntry env x = .ok l1) (h2 : l1.addEntry env y = .ok l2) :
    ∃ l1' l2', l.addEntry env y = .ok l1' ∧ l1'.addEntry env x = .ok l2' ∧ LedLike l2 l2' := by
  obtain ⟨as1, p1, rfl⟩ := (addEntry_iff env hord l l1 x).1 h1
  obtain ⟨as2, p2, rfl⟩ := (addEntry_iff env hord _ l2 y).1 h2
  obtain ⟨as1', as2', q1, q2, q3⟩ := processAll_swap env.today x y _ _ _ ho p1 p2
  refine ⟨_, _, (addEntry_iff env hord l _ y).2 ⟨as1', q1, rfl⟩,
    (addEntry_iff env hord _ _ x).2 ⟨as2', q2, rfl⟩, ⟨?_, rfl, rfl, rfl, q3⟩⟩
  refine (stableSort_perm _ _).trans (List.Perm.trans ?_ (stableSort_perm _ _).symm)
  refine ((stableSort_perm _ _).append_right [x]).trans (List.Perm.trans ?_ ((stableSort_perm _ _).append_right [y]).symm)
  simp only [List.append_assoc]
  exact (List.Perm.swap _ _ _).append_left _

theorem mapLike_names (as as' : List (Str × Account Rat)) (hs : List.Forall₂ MapLike as as') :
    as'.map Prod.fst = as.map Prod.fst := by
  induction hs with
  | nil => rfl
  | cons hx _ ih => simp [hx.1, ih]

theorem mapInsert_like (as as' : List (Str × Account Rat)) (hs : List.Forall₂ MapLike as as')
    (k : Str) (a : Account Rat) (ha : AcctLike a a) :
    List.Forall₂ MapLike (mapInsert as k a) (mapInsert as' k a) := by
  induction hs with
  | nil => exact .cons ⟨rfl, ha⟩ .nil
  | @cons p p' ps ps' hx hxs ih =>
    obtain ⟨q, b⟩ := p
    obtain ⟨q', b'⟩ := p'
    obtain ⟨hk, hb⟩ := hx
    simp only at hk hb
    subst hk
    simp only [mapInsert]
    split
    · exact .cons ⟨rfl, ha⟩ hxs
    · exact .cons ⟨rfl, hb⟩ ih

/-! ### Items -/

theorem reading_like (env : Env) (hord : FairOrder env.ord) (c : Str) (l l' l1 : Ledger Rat)
    (hs : LedLike l l') (h : Reading env c l l1) : ∃ l1', Reading env c l' l1' ∧ LedLike l1 l1' := by
  cases h with
  | account a h1 h2 =>
    have hw := parsed_account_wf _ _ _ _ _ h2
    refine ⟨_, .account a h1 (by rw [hs.decimal, hs.format]; exact h2), ?_⟩
    exact ⟨hs.entries, hs.format, hs.currency, hs.decimal,
      mapInsert_like _ _ hs.accounts _ a (AcctLike.refl hw.currency)⟩
  | currency v more h1 =>
    exact ⟨_, .currency v more h1, ⟨hs.entries, hs.format, rfl, hs.decimal, hs.accounts⟩⟩
  | dateFormat v more h1 =>
    exact ⟨_, .dateFormat v more h1, ⟨hs.entries, rfl, hs.currency, hs.decimal, hs.accounts⟩⟩
  | entry kw x _ h1 h2 h3 h4 =>
    obtain ⟨l1', h5, h6⟩ := addEntry_like env hord x l l' l1 hs h4
    refine ⟨l1', .entry kw x _ h1 h2 ?_ h5, h6⟩
    have hn : l'.accountNames = l.accountNames := mapLike_names _ _ hs.accounts
    rw [hs.format, hs.decimal, hn]
    exact h3

theorem denotes_like (env : Env) (hord : FairOrder env.ord) (file : APath → Option Str)
    (st st1 : Ledger Rat × APath) (task : Task) (h : Denotes env file st task st1)
    (l' : Ledger Rat) (hs : LedLike st.1 l') :
    ∃ l1', Denotes env file (l', st.2) task (l1', st1.2) ∧ LedLike st1.1 l1' := by
  induction h generalizing l' with
  | file l cwd path t cs st h1 h2 h3 _ ih =>
    obtain ⟨l1', h4, h5⟩ := ih l' hs
    exact ⟨l1', .file l' cwd path t cs _ h1 h2 h3 h4, h5⟩
  | done st => exact ⟨l', .done _, hs⟩
  | nothing st st' c cs h1 _ ih =>
    obtain ⟨l1', h4, h5⟩ := ih l' hs
    exact ⟨l1', .nothing _ _ c cs h1 h4, h5⟩
  | item l l2 cwd st' c cs h1 _ ih =>
    obtain ⟨l2', h2, h3⟩ := reading_like env hord c l l' l2 hs h1
    obtain ⟨l1', h4, h5⟩ := ih l2' h3
    exact ⟨l1', .item l' l2' cwd _ c cs h2 h4, h5⟩
  | incl st st1 st' c v more cs h1 _ _ ih1 ih2 =>
    obtain ⟨l2', h2, h3⟩ := ih1 l' hs
    obtain ⟨l1', h4, h5⟩ := ih2 l2' h3
    exact ⟨l1', .incl _ _ _ c v more cs h1 h2 h4, h5⟩

theorem denotes_append {M : Type} [Mag M] (env : Env) (file : APath → Option Str) (pre rest : List Str)
    (st st1 : Ledger M × APath) :
    Denotes env file st (.items (pre ++ rest)) st1 ↔
      ∃ st2, Denotes env file st (.items pre) st2 ∧ Denotes env file st2 (.items rest) st1 := by
  induction pre generalizing st with
  | nil =>
    constructor
    · exact fun h => ⟨st, .done _, h⟩
    · rintro ⟨st2, h1, h2⟩
      cases h1
      exact h2
  | cons c pre ih =>
    constructor
    · intro h
      cases h with
      | nothing _ _ _ _ h1 h2 =>
        obtain ⟨st2, g1, g2⟩ := (ih _).1 h2
        exact ⟨st2, .nothing _ _ c pre h1 g1, g2⟩
      | item l l' cwd _ _ _ h1 h2 =>
        obtain ⟨st2, g1, g2⟩ := (ih _).1 h2
        exact ⟨st2, .item l l' cwd _ c pre h1 g1, g2⟩
      | incl _ st3 _ _ v more _ h1 h2 h3 =>
        obtain ⟨st2, g1, g2⟩ := (ih _).1 h3
        exact ⟨st2, .incl _ _ _ c v more pre h1 h2 g1, g2⟩
    · rintro ⟨st2, h, h'⟩
      cases h with
      | nothing _ _ _ _ h1 h2 => exact .nothing _ _ c _ h1 ((ih _).2 ⟨st2, h2, h'⟩)
      | item l l' cwd _ _ _ h1 h2 => exact .item l l' cwd _ c _ h1 ((ih _).2 ⟨st2, h2, h'⟩)
      | incl _ st3 _ _ v more _ h1 h2 h3 => exact .incl _ _ _ c v more _ h1 h2 ((ih _).2 ⟨st2, h3, h'⟩)

/-- An entry item is read as an entry. -/
theorem denotes_entry {M : Type} [Mag M] (env : Env) (file : APath → Option Str) (c : Str) (cs : List Str) (hc : IsEntryItem c)
    (l : Ledger M) (cwd : APath) (st1 : Ledger M × APath)
    (h : Denotes env file (l, cwd) (.items (c :: cs)) st1) :
    ∃ x l', Entry.parse env c l.dateFormat l.decimal l.accountNames = .ok x ∧ l.addEntry env x = .ok l' ∧
      Denotes env file (l', cwd) (.items cs) st1 := by
  obtain ⟨kw, more, hk, hn⟩ := hc
  cases h with
  | nothing _ _ _ _ h1 h2 => rw [h1] at hk; cases hk
  | item l l' cwd _ _ _ h1 h2 =>
    cases h1 with
    | account a g1 g2 => rw [hk] at g1; cases g1; exact absurd (by decide) hn
    | currency v m g1 => rw [hk] at g1; cases g1; exact absurd (by decide) hn
    | dateFormat v m g1 => rw [hk] at g1; cases g1; exact absurd (by decide) hn
    | entry kw x _ g1 g2 g3 g4 => exact ⟨x, l', g3, g4, h2⟩
  | incl _ st3 _ _ v m _ h1 h2 h3 => rw [hk] at h1; cases h1; exact absurd (by decide) hn

theorem entry_reading {M : Type} [Mag M] (env : Env) (c : Str) (hc : IsEntryItem c) (l l' : Ledger M) (x : Entry M)
    (h1 : Entry.parse env c l.dateFormat l.decimal l.accountNames = .ok x) (h2 : l.addEntry env x = .ok l') :
    Reading env c l l' := by
  obtain ⟨kw, more, hk, hn⟩ := hc
  exact .entry kw x l' (by rw [hk]; rfl) hn h1 h2

theorem processAll_names {M : Type} [Mag M] (d : Date) (x : Entry M) (as as1 : List (Str × Account M))
    (h : Ledger.processAll d x as = .ok as1) : as1.map Prod.fst = as.map Prod.fst := by
  induction as generalizing as1 with
  | nil => cases h; rfl
  | cons p as ih =>
    obtain ⟨k, a⟩ := p
    simp only [Ledger.processAll, bind, Except.bind, pure, Except.pure] at h
    split at h
    · cases h
    · split at h
      · cases h
      · rename_i r hr
        cases h
        simp [ih r hr]

theorem addEntry_names {M : Type} [Mag M] (env : Env) (l l' : Ledger M) (x : Entry M) (h : l.addEntry env x = .ok l') :
    l'.accountNames = l.accountNames ∧ l'.dateFormat = l.dateFormat ∧ l'.decimal = l.decimal := by
  obtain ⟨accs, h1, rfl, _⟩ := addEntry_ok _ _ _ _ h
  exact ⟨processAll_names _ _ _ _ h1, rfl, rfl⟩

/-- Entries read in another order. -/
theorem denotes_perm (env : Env) (hord : FairOrder env.ord) (file : APath → Option Str) (es es' : List Str)
    (hp : es.Perm es') (he : ∀ c ∈ es, IsEntryItem c) (l l' : Ledger Rat) (cwd : APath) (hs : LedLike l l')
    (st1 : Ledger Rat × APath) (h : Denotes env file (l, cwd) (.items es) st1) :
    ∃ l1', Denotes env file (l', cwd) (.items es') (l1', st1.2) ∧ LedLike st1.1 l1' := by
  induction hp generalizing l l' st1 with
  | nil => exact denotes_like env hord file _ _ _ h l' hs
  | cons c _ ih =>
    obtain ⟨x, l2, h1, h2, h3⟩ := denotes_entry env file c _ (he c (by simp)) l cwd st1 h
    obtain ⟨l2', h4, h5⟩ := reading_like env hord c l l' l2 hs (entry_reading env c (he c (by simp)) l l2 x h1 h2)
    obtain ⟨l1', h6, h7⟩ := ih (fun c' hc' => he c' (by simp [hc'])) l2 l2' h5 st1 h3
    exact ⟨l1', .item _ _ _ _ c _ h4 h6, h7⟩
  | swap c1 c2 cs =>
    have e1 : IsEntryItem c1 := he c1 (by simp)
    have e2 : IsEntryItem c2 := he c2 (by simp)
    obtain ⟨l0, h, hs'⟩ : ∃ st1', Denotes env file (l', cwd) (.items (c2 :: c1 :: cs)) (st1', st1.2) ∧
        LedLike st1.1 st1' := denotes_like env hord file _ _ _ h l' hs
    obtain ⟨x, l2, h1, h2, h3⟩ := denotes_entry env file c2 _ e2 l' cwd _ h
    obtain ⟨y, l3, h4, h5, h6⟩ := denotes_entry env file c1 _ e1 l2 cwd _ h3
    obtain ⟨n1, n2, n3⟩ := addEntry_names env l' l2 x h2
    rw [n1, n2, n3] at h4
    have ho : ∀ p ∈ l'.accounts, ∀ e ∈ p.2.envelopes, e.OneCurrency := by
      intro p' hp'
      have : List.Forall₂ (fun a b => MapLike b a) l'.accounts l.accounts := hs.accounts.flip
      obtain ⟨p, _, hr⟩ := forall₂_left_mem this p' hp'
      intro e he
      rcases List.mem_append.1 he with he | he
      · obtain ⟨e', _, hr⟩ := forall₂_left_mem (R := fun a b => EnvShift (0, 0) b a) hr.2.expenses.flip e he; exact hr.one'
      · obtain ⟨e', _, hr⟩ := forall₂_left_mem (R := fun a b => EnvShift (0, 0) b a) hr.2.goals.flip e he; exact hr.one'
    obtain ⟨l2', l3', g1, g2, g3⟩ := addEntry_swap env hord x y l' l2 l3 ho h2 h5
    obtain ⟨m1, m2, m3⟩ := addEntry_names env l' l2' y g1
    obtain ⟨l1', k1, k2⟩ := denotes_like env hord file _ _ _ h6 l3' g3
    refine ⟨l1', .item _ _ _ _ c1 _ (entry_reading env c1 e1 l' l2' y h4 g1)
      (.item _ _ _ _ c2 _ (entry_reading env c2 e2 l2' l3' x (by rw [m1, m2, m3]; exact h1) g2) k1), ?_⟩
    exact hs'.trans k2
  | @trans as bs cs hab _ ih1 ih2 =>
    obtain ⟨l1, h1, h2⟩ := ih1 he l l (LedLike.refl hs.one) st1 h
    obtain ⟨l2, h3, h4⟩ := ih2 (fun c hc => he c (hab.mem_iff.2 hc)) l l' hs _ h1
    exact ⟨l2, h3, h2.trans h4⟩

theorem LedLike.alike {l l' : Ledger Rat} (h : LedLike l l')
    (hs : l'.entries.Pairwise fun x y => Date.lt y.date x.date = false) : AlikeLedger l l' :=
  ⟨h.entries, hs, h.format, h.currency, h.decimal, forall₂_imp (fun _ _ hp => ⟨hp.1, hp.2.name, hp.2.real,
    forall₂_imp (fun _ _ he => he.alike) hp.2.expenses, forall₂_imp (fun _ _ he => he.alike) hp.2.goals⟩) h.accounts⟩

/-- C99. Let two files in one directory have the same items, but for the order of some entries that
follow one another. If one of them loads, so does the other one, with the same entries, each account with
the same real value in every currency, and each envelope with the same money in each pocket. (Exact
arithmetic.) -/
theorem C99_order_of_entries (env : Env) (hord : FairOrder env.ord) (w : World) (path path' t t' : Str)
    (pre es es' post : List Str)
    (hn' : endsInName path' = true)
    (hdir : (resolve w.cwd path').dropLast = (resolve w.cwd path).dropLast)
    (ht : w.file (resolve w.cwd path) = some t) (ht' : w.file (resolve w.cwd path') = some t')
    (hi : Itemised (lines t) (pre ++ es ++ post)) (hi' : Itemised (lines t') (pre ++ es' ++ post))
    (he : ∀ c ∈ es, IsEntryItem c) (hp : es.Perm es')
    (l : Ledger Rat) (cwd : APath)
    (h : ∃ fuel, Ledger.fromFile env fuel w path = .ok (l, { w with cwd := cwd })) :
    ∃ l', (∃ fuel, Ledger.fromFile env fuel w path' = .ok (l', { w with cwd := cwd })) ∧ AlikeLedger l l' := by
  rw [C88_loading_reads_the_items] at h
  suffices hd : ∃ l', Denotes env w.file (Ledger.new path', w.cwd) (.file path') (l', cwd) ∧ LedLike l l' by
    obtain ⟨l', h1, h2⟩ := hd
    have h1' := (C88_loading_reads_the_items env w path' l' cwd).2 h1
    obtain ⟨fuel, hf⟩ := h1'
    obtain ⟨is, -, ho⟩ := C47_loaded env fuel w _ path' l' hf
    exact ⟨l', ⟨fuel, hf⟩, h2.alike ho.sorted⟩
  cases h with
  | file _ _ _ t0 cs _ h1 h2 h3 h4 =>
    rw [ht] at h2
    cases h2
    obtain ⟨items, _, hu⟩ := C88_items_of_a_text (lines t)
    rw [hu cs h3, ← hu _ hi, List.append_assoc, denotes_append] at h4
    obtain ⟨st2, h5, h6⟩ := h4
    obtain ⟨l2', h7, h8⟩ := denotes_like env hord w.file _ _ _ h5 (Ledger.new path')
      ⟨.refl _, rfl, rfl, rfl, .nil⟩
    rw [denotes_append] at h6
    obtain ⟨st3, h9, h10⟩ := h6
    obtain ⟨l3', k1, k2⟩ := denotes_perm env hord w.file es es' hp he st2.1 l2' st2.2 h8 st3 h9
    obtain ⟨l', k3, k4⟩ := denotes_like env hord w.file _ _ _ h10 l3' k2
    refine ⟨l', .file _ _ path' t' _ _ hn' ht' hi' ?_, k4⟩
    rw [List.append_assoc, denotes_append]
    refine ⟨(l2', st2.2), by rw [hdir]; exact h7, ?_⟩
    rw [denotes_append]
    exact ⟨(l3', st3.2), k1, k3⟩

/-- C99: if no two entries are of one day, the entries are the same in the same order, and so the
balance report and the register are the same. -/
theorem C99_reports_partial (env : Env) (l l' : Ledger Rat) (h : AlikeLedger l l')
    (hs : l.entries.Pairwise fun x y => Date.lt y.date x.date = false)
    (hd : (l.entries.map Entry.date).Nodup) :
    l'.entries = l.entries ∧ l'.displayBalance env = l.displayBalance env ∧
      ∀ terminal b e am, Register.display env terminal l'.entries l'.dateFormat b e am =
        Register.display env terminal l.entries l.dateFormat b e am := by
  have he : l'.entries = l.entries := by
    have one : ∀ es : List (Entry Rat), (es.map Entry.date).Nodup → ∀ d : Date,
        (es.filter fun e => e.date = d).length ≤ 1 := by
      intro es
      induction es with
      | nil => intro _ d; simp
      | cons x es ih =>
        intro hn d
        rw [List.map_cons, List.nodup_cons] at hn
        by_cases hx : x.date = d
        · have : (es.filter fun e => e.date = d) = [] := by
            rw [List.filter_eq_nil_iff]
            intro y hy hyd
            simp only [decide_eq_true_eq] at hyd
            exact hn.1 (List.mem_map.2 ⟨y, hy, by rw [hyd, hx]⟩)
          rw [List.filter_cons_of_pos (by simpa using hx), this]; simp
        · rw [List.filter_cons_of_neg (by simpa using hx)]
          exact ih hn.2 d
    refine C47_order_is_determined l.entries _ _ ⟨h.sorted, h.entries, fun d => ?_⟩ ⟨hs, .refl _, fun d => rfl⟩
    have hp : (l'.entries.filter fun e => e.date = d).Perm (l.entries.filter fun e => e.date = d) :=
      h.entries.filter _
    have hl := one l.entries hd d
    generalize (l.entries.filter fun e => e.date = d) = ys at hp hl
    generalize (l'.entries.filter fun e => e.date = d) = xs at hp
    rcases ys with _ | ⟨y, _ | ⟨z, zs⟩⟩
    · exact hp.eq_nil
    · exact List.perm_singleton.1 hp
    · simp at hl
  refine ⟨he, ?_, ?_⟩
  · unfold Ledger.displayBalance Ledger.totals
    rw [he]
  · intro terminal b e am
    rw [he, h.format]

/-- C99: what the envelope report shows for an envelope is the same. -/
theorem C99_envelope_lines (today : Date) (e e' : Envelope Rat) (h : AlikeEnvelope e e') :
    e'.display today = e.display today := by
  have h1 := h.same
  unfold Envelope.SameButMoney at h1
  rw [h1, h.now, h.next]
  rfl

/-- What is put into the envelopes of the account `a` on the fifteenth of June. -/
def fillsOfA (text : String) : Res (List (EnvPosting Rat)) := do
  let l ← loadText Rat text
  let a ← unwrap (mapGet l.accounts s%"a")
  a.fillingPostings june15

/-- C99 is false of filling: an envelope that was touched today is not filled, but what counts as the
last movement is the one that is written last in the journal. -/
theorem C99_order_matters_for_filling :
    fillsOfA "account a\n  expense x due every 1st\n    amount 50\n    funding aggressive\naccount b
2024/06/01 * pay\n a 100\n b -100\n2024/06/10 * p\n envelope a x 5\n2024/06/15 * q\n envelope a x 2\n"
      = .ok [⟨s%"a", s%"x", ⟨0, none⟩⟩] ∧
    fillsOfA "account a\n  expense x due every 1st\n    amount 50\n    funding aggressive\naccount b
2024/06/01 * pay\n a 100\n b -100\n2024/06/15 * q\n envelope a x 2\n2024/06/10 * p\n envelope a x 5\n"
      = .ok [⟨s%"a", s%"x", ⟨43, none⟩⟩] := by decide +kernel

/-- C99 is false of entries of one day: the balance report depends on which of them comes first. -/
theorem C99_order_within_a_day :
    (∃ l, loadText Rat "account a\naccount b\n2024/06/01 * p\n a 10\n b\n2024/06/01 * q\n b 5\n a -5\n" = .ok l ∧
      (∃ tot, l.totals = .ok tot ∧ mapGet tot s%"b" = some [⟨5, none⟩])) ∧
    (∃ l, loadText Rat "account a\naccount b\n2024/06/01 * q\n b 5\n a -5\n2024/06/01 * p\n a 10\n b\n" = .ok l ∧
      (∃ tot, l.totals = .ok tot ∧ mapGet tot s%"b" = some [⟨-5, none⟩])) := by decide +kernel

/-- Two journals that differ in the order of two entries. -/
def exShuffle : World := disk [
  ("j", "account a\naccount b\n2024/06/01 * p\n  a 10\n  b\n2024/06/03 * q\n  b 5\n  a -5\n"),
  ("k", "account a\naccount b\n2024/06/03 * q\n  b 5\n  a -5\n2024/06/01 * p\n  a 10\n  b\n")]

example : ∃ t t', exShuffle.file (resolve exShuffle.cwd s%"j") = some t ∧
    exShuffle.file (resolve exShuffle.cwd s%"k") = some t' ∧
    Itemised (lines t) ([[], s%"account a", s%"account b"] ++
      [s%"2024/06/01 * p\n  a 10\n  b", s%"2024/06/03 * q\n  b 5\n  a -5"] ++ []) ∧
    Itemised (lines t') ([[], s%"account a", s%"account b"] ++
      [s%"2024/06/03 * q\n  b 5\n  a -5", s%"2024/06/01 * p\n  a 10\n  b"] ++ []) ∧
    IsEntryItem s%"2024/06/01 * p\n  a 10\n  b" ∧ IsEntryItem s%"2024/06/03 * q\n  b 5\n  a -5" := by
  refine ⟨_, _, rfl, rfl, ⟨[], [(s%"account a", []), (s%"account b", []),
      (s%"2024/06/01 * p", [s%"  a 10", s%"  b"]), (s%"2024/06/03 * q", [s%"  b 5", s%"  a -5"])],
      by decide +kernel, by decide +kernel, ?_, by decide +kernel⟩,
    ⟨[], [(s%"account a", []), (s%"account b", []),
      (s%"2024/06/03 * q", [s%"  b 5", s%"  a -5"]), (s%"2024/06/01 * p", [s%"  a 10", s%"  b"])],
      by decide +kernel, by decide +kernel, ?_, by decide +kernel⟩,
    ⟨s%"2024/06/01", _, rfl, by decide⟩, ⟨s%"2024/06/03", _, rfl, by decide⟩⟩
  all_goals
    intro b hb
    simp only [List.mem_cons, List.not_mem_nil, or_false] at hb
    rcases hb with rfl | rfl | rfl | rfl <;> refine ⟨by decide +kernel, _, _, rfl, by decide⟩

/-- Both load. -/
example : (∃ p, Ledger.fromFile (stdEnv june15) 9 exShuffle s%"j" = .ok p ∧ (p.1.entries : List (Entry Rat)).length = 2) ∧
    (∃ p, Ledger.fromFile (stdEnv june15) 9 exShuffle s%"k" = .ok p ∧ (p.1.entries : List (Entry Rat)).length = 2) := by
  decide +kernel

end Silverfox
