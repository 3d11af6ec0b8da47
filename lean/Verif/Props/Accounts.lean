import Verif.Props.Envelopes
import Verif.Props.Pool
import Mathlib.Data.List.Forall2

/-
Accounts: C44, C45, C46, and what every account met by the program satisfies.
-/

namespace Silverfox

set_option linter.unusedSectionVars false
variable {M : Type} [Mag M]

/-- The balance of a currency in a pool. -/
def Pool.bal (p : Pool Rat) (s : Option Str) : Rat := (p.only s).mag

theorem Pool.bal_eq (p : Pool Rat) (s : Option Str) :
    p.bal s = ((p.line s).map Amount.mag).getD 0 := by
  unfold Pool.bal Pool.only Pool.line
  cases p.find? (fun a => a.sym == s) <;> rfl

/-- The part of an amount that is in currency `s`. -/
def Amount.inSym (a : Amount Rat) (s : Option Str) : Rat := if a.sym = s then a.mag else 0

theorem Pool.bal_add (p : Pool Rat) (a : Amount Rat) (s : Option Str) :
    (Pool.add p a).bal s = p.bal s + a.inSym s := by
  rw [Pool.bal_eq, Pool.line_add, specAdd_rat, ← Pool.bal_eq]; rfl

theorem Pool.bal_sub (p : Pool Rat) (a : Amount Rat) (s : Option Str) :
    (Pool.sub p a).bal s = p.bal s - a.inSym s := by
  unfold Pool.sub
  rw [Pool.bal_add]
  unfold Amount.inSym
  by_cases h : a.sym = s
  · simp only [Amount.neg, h, if_true, Mag.neg]; ring
  · simp [Amount.neg, h]

theorem Pool.bal_subAssign (p : Pool Rat) (a : Amount Rat) (s : Option Str) :
    (Pool.subAssign p a).bal s = p.bal s - a.inSym s := by
  rw [Pool.bal_eq, Pool.line_subAssign, PoolOp.spec_rat, ← Pool.bal_eq]
  unfold Amount.inSym
  show p.bal s + (if a.sym = s then -a.mag else 0) = _
  split <;> ring

/-! ### C44 -/

/-- C44: per currency, what is available is the real value minus all that the envelopes hold in it,
now and for next. -/
theorem C44_available (a : Account Rat) (s : Option Str) :
    (a.available.only s).mag = (a.real.only s).mag
      - ((a.expenses ++ a.goals).map fun e =>
          (if e.now.sym = s then e.now.mag else 0) + (if e.next.sym = s then e.next.mag else 0)).sum := by
  show a.available.bal s = a.real.bal s - _
  unfold Account.available Account.envelopes
  generalize a.real = p
  induction a.expenses ++ a.goals generalizing p with
  | nil => simp
  | cons e es ih =>
    rw [List.foldl_cons, ih, Pool.bal_sub, Pool.bal_sub, List.map_cons, List.sum_cons]
    unfold Amount.inSym
    ring

/-- C44, for envelopes whose amounts share a currency. -/
theorem C44_available_holds (a : Account Rat) (s : Option Str)
    (h : ∀ e ∈ a.envelopes, e.OneCurrency) :
    (a.available.only s).mag = (a.real.only s).mag
      - ((a.envelopes.filter fun e => e.amount.sym = s).map Envelope.holds).sum := by
  rw [C44_available]
  congr 1
  show ((a.envelopes.map _).sum = _)
  revert h
  induction a.envelopes with
  | nil => intro _; rfl
  | cons e es ih =>
    intro h
    obtain ⟨h1, h2⟩ := h e (by simp)
    rw [List.map_cons, List.sum_cons, ih (fun e he => h e (by simp [he])), h1, h2]
    by_cases hs : e.amount.sym = s
    · simp [hs, Envelope.holds]
    · simp [hs]

/-- An envelope `trip` of target $80 that holds $10. -/
def exTrip : Envelope Rat :=
  ⟨s%"trip", ⟨80, some ['$']⟩, .goal, [], .monthly 15, .aggressive, none,
    ⟨6, some ['$']⟩, ⟨4, some ['$']⟩, s%"assets:bank", Date.zero⟩

/-- An account with 100 and $40, and two envelopes that hold 50 and $10. -/
def exBank : Account Rat :=
  ⟨s%"assets:bank", [exFood], [exTrip], [⟨100, none⟩, ⟨40, some ['$']⟩]⟩

example : exBank.available = [⟨50, none⟩, ⟨30, some ['$']⟩] := by decide +kernel

/-! ### C45 -/

/-- Specification: the amount of an ordinary posting, or the inferred amount of a blank one. -/
def Entry.worthOf (x : Entry M) (p : Classic M) : Option (Amount M) :=
  match p.amount with
  | some a => some a
  | none => match x.blankAmount with
    | .ok b => b
    | .error _ => none

/-- Specification: what the ordinary postings of an entry bring to an account. -/
def Entry.movesOf (x : Entry M) (name : Str) : List (Amount M) :=
  x.postings.filterMap fun p => match p with
    | .classic c => if c.account = name then x.worthOf c else none
    | .envelope _ => none

/-- Specification: the account after a history of entries. -/
def runAccount (today : Date) : List (Entry M) → Account M → Res (Account M)
  | [], a => .ok a
  | x :: xs, a => do
    let a ← a.processEntry today x
    runAccount today xs a

theorem processReal_ok (name : Str) (x : Entry M) (ps : List (Posting M)) (r r' : Pool M)
    (h : Account.processReal name x ps r = .ok r') :
    r' = (ps.filterMap fun p => match p with
      | .classic c => if c.account = name then x.worthOf c else none
      | .envelope _ => none).foldl Pool.add r := by
  induction ps generalizing r with
  | nil => cases h; rfl
  | cons p ps ih =>
    simp only [Account.processReal] at h
    cases p with
    | envelope e =>
      simp [Posting.isEnvelope] at h
      simpa using ih r h
    | classic c =>
      by_cases hc : c.account = name
      · simp only [Posting.account, hc, Posting.isEnvelope, and_self, if_true, Posting.amount] at h
        cases ha : c.amount with
        | some a =>
          simp only [ha] at h
          simpa [hc, Entry.worthOf, ha] using ih _ h
        | none =>
          simp only [ha, bind, Except.bind] at h
          cases hb : x.blankAmount with
          | error f => simp [hb] at h
          | ok b =>
            simp only [hb] at h
            cases b with
            | some b => simpa [hc, Entry.worthOf, ha, hb] using ih _ h
            | none => simpa [hc, Entry.worthOf, ha, hb] using ih _ h
      · simp only [Posting.account, hc, false_and, if_false] at h
        simpa [hc] using ih r h

theorem processEntry_real (today : Date) (x : Entry M) (a a' : Account M)
    (h : a.processEntry today x = .ok a') :
    a'.name = a.name ∧ a'.real = (x.movesOf a.name).foldl Pool.add a.real := by
  unfold Account.processEntry at h
  simp only [bind, Except.bind, pure, Except.pure] at h
  split at h
  · cases h
  · split at h
    · cases h
    · split at h
      · cases h
      · rename_i r hr
        cases h
        exact ⟨rfl, processReal_ok _ _ _ _ _ hr⟩

/-- C45, in any arithmetic: the real value of an account is what results from adding its ordinary
postings, in order, and nothing else. -/
theorem C45_real_is_ordinary_postings (today : Date) (xs : List (Entry M)) (a a' : Account M)
    (h : runAccount today xs a = .ok a') :
    a'.real = (xs.flatMap fun x => x.movesOf a.name).foldl Pool.add a.real := by
  induction xs generalizing a with
  | nil => cases h; rfl
  | cons x xs ih =>
    simp only [runAccount, bind, Except.bind] at h
    split at h
    · cases h
    · rename_i a1 h1
      obtain ⟨hn, hr⟩ := processEntry_real today x a a1 h1
      rw [ih a1 h, hr, hn]
      simp [List.foldl_append]

/-- C45, exact arithmetic: per currency, the real value grows by the sum of the ordinary postings. -/
theorem C45_exact_sum (today : Date) (xs : List (Entry Rat)) (a a' : Account Rat)
    (h : runAccount today xs a = .ok a') (s : Option Str) :
    (a'.real.only s).mag = (a.real.only s).mag
      + ((xs.flatMap fun x => x.movesOf a.name).map fun m => if m.sym = s then m.mag else 0).sum := by
  rw [C45_real_is_ordinary_postings today xs a a' h]
  generalize (xs.flatMap fun x => x.movesOf a.name) = ms
  generalize a.real = r
  show Pool.bal _ s = Pool.bal r s + _
  induction ms generalizing r with
  | nil => simp
  | cons m ms ih =>
    rw [List.foldl_cons, ih, Pool.bal_add, List.map_cons, List.sum_cons]
    unfold Amount.inSym
    ring

/-- C45: an entry of envelope postings leaves the real value alone. -/
theorem C45_envelope_postings_no_effect (today : Date) (x : Entry M) (a a' : Account M)
    (hx : ∀ p ∈ x.postings, p.isEnvelope = true) (h : a.processEntry today x = .ok a') :
    a'.real = a.real := by
  rw [(processEntry_real today x a a' h).2]
  have : x.movesOf a.name = [] := by
    unfold Entry.movesOf
    rw [List.filterMap_eq_nil_iff]
    intro p hp
    have := hx p hp
    cases p with
    | envelope e => rfl
    | classic c => simp [Posting.isEnvelope] at this
  rw [this]; rfl

/-- A purchase paid from the account with a blank posting, and a movement between envelopes. -/
example : ∃ a', runAccount june15 [exBuy, exMove] exBank = .ok a' ∧
    a'.real = [⟨88, none⟩, ⟨40, some ['$']⟩] := by decide +kernel

/-! ### What every envelope and account met by the program satisfies -/

/-- An envelope just declared: nothing in it, all amounts in one currency. -/
def Envelope.Fresh (e : Envelope M) : Prop :=
  e.OneCurrency ∧ e.now.mag = Mag.zero ∧ e.next.mag = Mag.zero ∧ e.lastTx = Date.zero

theorem addBodyLine_fresh (e e' : Envelope M) (dec : Char) (l : Str)
    (h : e.addBodyLine dec l = .ok e') (hf : e.Fresh) : e'.Fresh := by
  unfold Envelope.addBodyLine at h
  simp only at h
  split at h
  · cases h
  · split at h
    · cases h
    · split at h
      · cases h; exact hf
      · split at h
        · unfold Envelope.addAccount at h
          split at h
          · cases h; exact hf
          · cases h
        · split at h
          · simp only [bind, Except.bind, pure, Except.pure] at h
            split at h
            · cases h
            · cases h
              exact ⟨⟨rfl, rfl⟩, hf.2⟩
          · split at h
            · simp only [bind, Except.bind, pure, Except.pure] at h
              split at h
              · cases h
              · cases h; exact hf
            · cases h

theorem fromHeader_fresh (env : Env) (l fmt acc : Str) (e : Envelope M)
    (h : Envelope.fromHeader env l fmt acc = .ok e) : e.Fresh ∧ e.account = acc := by
  unfold Envelope.fromHeader at h
  split at h
  · simp only [bind, Except.bind, pure, Except.pure] at h
    split at h
    · cases h
    · split at h
      · cases h
      · split at h
        · cases h
        · cases h; exact ⟨⟨⟨rfl, rfl⟩, rfl, rfl, rfl⟩, rfl⟩
  · cases h

theorem parsed_envelope_fresh (env : Env) (chunk acc : Str) (dec : Char) (fmt : Str)
    (e : Envelope M) (h : Envelope.parse env chunk acc dec fmt = .ok e) :
    e.Fresh ∧ e.account = acc := by
  unfold Envelope.parse at h
  split at h
  · cases h
  · simp only [bind, Except.bind] at h
    split at h
    · cases h
    · rename_i e0 he0
      obtain ⟨h1, h2⟩ := fromHeader_fresh _ _ _ _ _ he0
      have hk := Envelope.addBody_keeps _ _ _ _ h
      refine ⟨?_, by rw [hk.2.2.2.1, h2]⟩
      have key : ∀ (ls : List Str) (a b : Envelope M), Envelope.addBody dec ls a = .ok b →
          a.Fresh → b.Fresh := by
        intro ls
        induction ls with
        | nil => intro a b h hf; cases h; exact hf
        | cons l ls ih =>
          intro a b h hf
          simp only [Envelope.addBody, bind, Except.bind] at h
          split at h
          · cases h
          · rename_i c hc
            exact ih c b h (addBodyLine_fresh _ _ _ _ hc hf)
      exact key _ _ _ h h1

/-- What holds of every account the program meets. -/
structure Account.WF (a : Account M) : Prop where
  owner : ∀ e ∈ a.envelopes, e.account = a.name
  currency : ∀ e ∈ a.envelopes, e.OneCurrency
  coherent : ∀ e ∈ a.envelopes, e.Coherent
  expenses : ∀ e ∈ a.expenses, e.kind = .expense
  goals : ∀ e ∈ a.goals, e.kind = .goal
  expenseNames : (a.expenses.map Envelope.name).Nodup
  goalNames : (a.goals.map Envelope.name).Nodup

theorem addEnvelope_wf (a a' : Account M) (e : Envelope M) (h : a.addEnvelope e = .ok a')
    (hw : a.WF) (h1 : e.account = a.name) (h2 : e.OneCurrency) (h3 : e.Coherent) : a'.WF := by
  unfold Account.addEnvelope at h
  split at h
  · rename_i hk
    split at h
    · cases h
    · rename_i hn
      cases h
      refine ⟨?_, ?_, ?_, ?_, hw.goals, ?_, hw.goalNames⟩
      · intro x hx
        simp only [Account.envelopes, List.append_assoc, List.mem_append, List.mem_singleton] at hx
        rcases hx with hx | rfl | hx
        · exact hw.owner x (by simp [Account.envelopes, hx])
        · exact h1
        · exact hw.owner x (by simp [Account.envelopes, hx])
      · intro x hx
        simp only [Account.envelopes, List.append_assoc, List.mem_append, List.mem_singleton] at hx
        rcases hx with hx | rfl | hx
        · exact hw.currency x (by simp [Account.envelopes, hx])
        · exact h2
        · exact hw.currency x (by simp [Account.envelopes, hx])
      · intro x hx
        simp only [Account.envelopes, List.append_assoc, List.mem_append, List.mem_singleton] at hx
        rcases hx with hx | rfl | hx
        · exact hw.coherent x (by simp [Account.envelopes, hx])
        · exact h3
        · exact hw.coherent x (by simp [Account.envelopes, hx])
      · intro x hx
        simp only [List.mem_append, List.mem_singleton] at hx
        rcases hx with hx | rfl
        · exact hw.expenses x hx
        · exact hk
      · simp only [List.map_append, List.map_cons, List.map_nil]
        refine List.nodup_append.2 ⟨hw.expenseNames, by simp, ?_⟩
        intro n hn' m hm
        simp only [List.mem_singleton] at hm
        subst hm
        rintro rfl
        simp only [List.mem_map] at hn'
        obtain ⟨x, hx, hxn⟩ := hn'
        exact hn (List.any_eq_true.2 ⟨x, hx, by simp [hxn]⟩)
  · rename_i hk
    split at h
    · cases h
    · rename_i hn
      cases h
      refine ⟨?_, ?_, ?_, hw.expenses, ?_, hw.expenseNames, ?_⟩
      · intro x hx
        simp only [Account.envelopes, List.mem_append, List.mem_singleton] at hx
        rcases hx with hx | hx | rfl
        · exact hw.owner x (by simp [Account.envelopes, hx])
        · exact hw.owner x (by simp [Account.envelopes, hx])
        · exact h1
      · intro x hx
        simp only [Account.envelopes, List.mem_append, List.mem_singleton] at hx
        rcases hx with hx | hx | rfl
        · exact hw.currency x (by simp [Account.envelopes, hx])
        · exact hw.currency x (by simp [Account.envelopes, hx])
        · exact h2
      · intro x hx
        simp only [Account.envelopes, List.mem_append, List.mem_singleton] at hx
        rcases hx with hx | hx | rfl
        · exact hw.coherent x (by simp [Account.envelopes, hx])
        · exact hw.coherent x (by simp [Account.envelopes, hx])
        · exact h3
      · intro x hx
        simp only [List.mem_append, List.mem_singleton] at hx
        rcases hx with hx | rfl
        · exact hw.goals x hx
        · exact hk
      · simp only [List.map_append, List.map_cons, List.map_nil]
        refine List.nodup_append.2 ⟨hw.goalNames, by simp, ?_⟩
        intro n hn' m hm
        simp only [List.mem_singleton] at hm
        subst hm
        rintro rfl
        simp only [List.mem_map] at hn'
        obtain ⟨x, hx, hxn⟩ := hn'
        exact hn (List.any_eq_true.2 ⟨x, hx, by simp [hxn]⟩)

theorem addEnvelope_keeps (a a' : Account M) (e : Envelope M) (h : a.addEnvelope e = .ok a') :
    a'.name = a.name ∧ a'.real = a.real ∧
      (∀ x, x ∈ a'.envelopes ↔ x ∈ a.envelopes ∨ x = e) := by
  unfold Account.addEnvelope at h
  split at h <;> split at h
  · cases h
  · cases h
    refine ⟨rfl, rfl, fun x => ?_⟩
    simp only [Account.envelopes, List.mem_append, List.mem_singleton]
    grind
  · cases h
  · cases h
    refine ⟨rfl, rfl, fun x => ?_⟩
    simp only [Account.envelopes, List.mem_append, List.mem_singleton]
    grind

/-- Anything that is true of an account without envelopes and kept when a parsed envelope is added
is true of a parsed account. -/
theorem Account.parse_induction (P : Account M → Prop) (env : Env) (dec : Char) (fmt : Str)
    (h0 : ∀ line n, Account.parseHeader line = .ok n → P ⟨n, [], [], []⟩)
    (hstep : ∀ (a a' : Account M) (c : Str) (e : Envelope M),
      Envelope.parse env c a.name dec fmt = .ok e → a.addEnvelope e = .ok a' → P a → P a')
    (chunk : Str) (a : Account M) (h : Account.parse env chunk dec fmt = .ok a) : P a := by
  have hflush : ∀ (a a' : Account M) (c : Str), a.flush env c dec fmt = .ok a' → P a → P a' := by
    intro a a' c h hp
    unfold Account.flush at h
    split at h
    · cases h; exact hp
    · simp only [bind, Except.bind] at h
      split at h
      · cases h
      · rename_i e he
        exact hstep a a' c e he h hp
  have hlines : ∀ (ls : List Str) (a a' : Account M) (c : Str),
      Account.parseLines env dec fmt ls a c = .ok a' → P a → P a' := by
    intro ls
    induction ls with
    | nil => intro a a' c h hp; exact hflush a a' c h hp
    | cons l ls ih =>
      intro a a' c h hp
      simp only [Account.parseLines] at h
      split at h
      · simp only [bind, Except.bind] at h
        split at h
        · cases h
        · rename_i b hb
          exact ih b a' l h (hflush a b c hb hp)
      · exact ih a a' _ h hp
  unfold Account.parse at h
  split at h
  · cases h
  · simp only [bind, Except.bind] at h
    split at h
    · cases h
    · rename_i hn
      exact hlines _ _ _ _ h (h0 _ _ hn)

theorem parsed_account_wf (env : Env) (dec : Char) (fmt chunk : Str) (a : Account M)
    (h : Account.parse env chunk dec fmt = .ok a) : a.WF := by
  refine Account.parse_induction Account.WF env dec fmt ?_ ?_ chunk a h
  · intro _ n _
    constructor <;> simp [Account.envelopes]
  · intro a a' c e he ha hw
    obtain ⟨h1, h2⟩ := parsed_envelope_fresh _ _ _ _ _ _ he
    exact addEnvelope_wf a a' e ha hw h2 h1.1 (parsed_envelope_coherent _ _ _ _ _ _ he)

theorem parsed_account_fresh (env : Env) (dec : Char) (fmt chunk : Str) (a : Account M)
    (h : Account.parse env chunk dec fmt = .ok a) :
    a.real = [] ∧ ∀ e ∈ a.envelopes, e.Fresh := by
  refine Account.parse_induction (fun a => a.real = [] ∧ ∀ e ∈ a.envelopes, e.Fresh)
    env dec fmt ?_ ?_ chunk a h
  · intro _ n _; simp [Account.envelopes]
  · intro a a' c e he ha hw
    obtain ⟨h1, h2⟩ := parsed_envelope_fresh _ _ _ _ _ _ he
    obtain ⟨_, h3, h4⟩ := addEnvelope_keeps a a' e ha
    refine ⟨by rw [h3]; exact hw.1, fun x hx => ?_⟩
    rcases (h4 x).1 hx with hx | rfl
    · exact hw.2 x hx
    · exact h1

theorem processEnvelopes_forall₂ (today : Date) (x : Entry M) (es es' : List (Envelope M))
    (h : Account.processEnvelopes today x es = .ok es') :
    List.Forall₂ (fun e e' => e.processEntry today x = .ok e') es es' := by
  induction es generalizing es' with
  | nil => cases h; exact .nil
  | cons e es ih =>
    simp only [Account.processEnvelopes, bind, Except.bind, pure, Except.pure] at h
    split at h
    · cases h
    · rename_i _ he
      split at h
      · cases h
      · rename_i _ hes
        cases h
        exact .cons he (ih _ hes)

theorem processEntry_parts (today : Date) (x : Entry M) (a a' : Account M)
    (h : a.processEntry today x = .ok a') :
    List.Forall₂ (fun e e' => e.processEntry today x = .ok e') a.expenses a'.expenses ∧
    List.Forall₂ (fun e e' => e.processEntry today x = .ok e') a.goals a'.goals := by
  unfold Account.processEntry at h
  simp only [bind, Except.bind, pure, Except.pure] at h
  split at h
  · cases h
  · rename_i _ h1
    split at h
    · cases h
    · rename_i _ h2
      split at h
      · cases h
      · cases h
        exact ⟨processEnvelopes_forall₂ _ _ _ _ h1, processEnvelopes_forall₂ _ _ _ _ h2⟩

theorem forall₂_mem_right {α β : Type} {R : α → β → Prop} {l : List α} {l' : List β}
    (h : List.Forall₂ R l l') {b : β} (hb : b ∈ l') : ∃ a ∈ l, R a b := by
  induction h with
  | nil => cases hb
  | cons hr _ ih =>
    rename_i a b' _ _ _
    rcases List.mem_cons.1 hb with rfl | hb
    · exact ⟨a, by simp, hr⟩
    · obtain ⟨a, ha, h⟩ := ih hb
      exact ⟨a, by simp [ha], h⟩

theorem forall₂_map_eq {α β γ : Type} {R : α → β → Prop} {f : α → γ} {g : β → γ} {l : List α}
    {l' : List β} (h : List.Forall₂ R l l') (hfg : ∀ a b, R a b → g b = f a) :
    l'.map g = l.map f := by
  induction h with
  | nil => rfl
  | cons hr _ ih => simp [hfg _ _ hr, ih]

theorem processEntry_wf (today : Date) (x : Entry M) (a a' : Account M)
    (h : a.processEntry today x = .ok a') (hw : a.WF) : a'.WF := by
  have hn := (processEntry_real today x a a' h).1
  obtain ⟨h1, h2⟩ := processEntry_parts today x a a' h
  have h3 : List.Forall₂ (fun e e' => e.processEntry today x = .ok e') a.envelopes a'.envelopes :=
    C31_envelopes_independent today a a' x h
  have hk : ∀ e e' : Envelope M, e.processEntry today x = .ok e' → _ := fun e e' h =>
    processEntry_keeps today e e' x h
  refine ⟨?_, ?_, ?_, ?_, ?_, ?_, ?_⟩
  · intro e he
    obtain ⟨e0, he0, hp⟩ := forall₂_mem_right h3 he
    rw [(SameButMoney.fields (hk _ _ hp).1).2.1, hn]; exact hw.owner e0 he0
  · intro e he
    obtain ⟨e0, he0, hp⟩ := forall₂_mem_right h3 he
    have := hw.currency e0 he0
    unfold Envelope.OneCurrency at this ⊢
    rw [(hk _ _ hp).2.1, (hk _ _ hp).2.2, (SameButMoney.fields (hk _ _ hp).1).2.2.1]; exact this
  · intro e he
    obtain ⟨e0, he0, hp⟩ := forall₂_mem_right h3 he
    have := hw.coherent e0 he0
    have hf := SameButMoney.fields (hk _ _ hp).1
    unfold Envelope.Coherent at this ⊢
    rw [hf.2.2.2.2.2.1, hf.2.2.2.2.2.2.2]; exact this
  · intro e he
    obtain ⟨e0, he0, hp⟩ := forall₂_mem_right h1 he
    rw [(SameButMoney.fields (hk _ _ hp).1).2.2.2.1]; exact hw.expenses e0 he0
  · intro e he
    obtain ⟨e0, he0, hp⟩ := forall₂_mem_right h2 he
    rw [(SameButMoney.fields (hk _ _ hp).1).2.2.2.1]; exact hw.goals e0 he0
  · rw [forall₂_map_eq h1 (f := Envelope.name)
      (fun e e' hp => (SameButMoney.fields (hk _ _ hp).1).1)]
    exact hw.expenseNames
  · rw [forall₂_map_eq h2 (f := Envelope.name)
      (fun e e' hp => (SameButMoney.fields (hk _ _ hp).1).1)]
    exact hw.goalNames

theorem runAccount_wf (today : Date) (xs : List (Entry M)) (a a' : Account M)
    (h : runAccount today xs a = .ok a') (hw : a.WF) : a'.WF := by
  induction xs generalizing a with
  | nil => cases h; exact hw
  | cons x xs ih =>
    simp only [runAccount, bind, Except.bind] at h
    split at h
    · cases h
    · rename_i a1 h1
      exact ih a1 h (processEntry_wf today x a a1 h1 hw)

/-- C45 for a declared account: its real value is the sum of its ordinary postings. -/
theorem C45_declared_account (env : Env) (dec : Char) (fmt chunk : Str) (today : Date)
    (xs : List (Entry Rat)) (a a' : Account Rat)
    (hp : Account.parse env chunk dec fmt = .ok a) (h : runAccount today xs a = .ok a')
    (s : Option Str) :
    (a'.real.only s).mag
      = ((xs.flatMap fun x => x.movesOf a.name).map fun m => if m.sym = s then m.mag else 0).sum := by
  rw [C45_exact_sum today xs a a' h s, (parsed_account_fresh env dec fmt chunk a hp).1]
  show (0 : Rat) + _ = _
  rw [zero_add]

/-! ### C46 -/

/-- C46 (the full claim is false, see `C46_expense_and_goal_share_a_name`): in an account as declared,
and after any history, no two expenses and no two goals have the same name. Missing: an expense and
a goal of one name. -/
theorem C46_unique_names_partial (env : Env) (dec : Char) (fmt chunk : Str) (today : Date)
    (xs : List (Entry M)) (a a' : Account M)
    (hp : Account.parse env chunk dec fmt = .ok a) (h : runAccount today xs a = .ok a') :
    (a'.expenses.map Envelope.name).Nodup ∧ (a'.goals.map Envelope.name).Nodup :=
  let w := runAccount_wf today xs a a' h (parsed_account_wf env dec fmt chunk a hp)
  ⟨w.expenseNames, w.goalNames⟩

/-- C46: a further envelope is refused exactly if one of its kind and name is there; otherwise it is
added and nothing is lost. -/
theorem C46_refused_iff (a : Account M) (hw : a.WF) (e : Envelope M) :
    ((∃ x ∈ a.envelopes, x.kind = e.kind ∧ x.name = e.name) →
      a.addEnvelope e = .error (.err .validation)) ∧
    ((¬ ∃ x ∈ a.envelopes, x.kind = e.kind ∧ x.name = e.name) →
      ∃ a', a.addEnvelope e = .ok a' ∧ ∀ x, x ∈ a'.envelopes ↔ x ∈ a.envelopes ∨ x = e) := by
  constructor
  · rintro ⟨x, hx, hk, hn⟩
    simp only [Account.envelopes, List.mem_append] at hx
    unfold Account.addEnvelope
    cases hek : e.kind with
    | expense =>
      have hx' : x ∈ a.expenses := by
        refine hx.resolve_right fun hg => ?_
        have := hw.goals x hg
        rw [hk, hek] at this; cases this
      rw [if_pos (List.any_eq_true.2 ⟨x, hx', by simp [hn]⟩)]; rfl
    | goal =>
      have hx' : x ∈ a.goals := by
        refine hx.resolve_left fun hg => ?_
        have := hw.expenses x hg
        rw [hk, hek] at this; cases this
      rw [if_pos (List.any_eq_true.2 ⟨x, hx', by simp [hn]⟩)]; rfl
  · intro hno
    have : ∃ a', a.addEnvelope e = .ok a' := by
      unfold Account.addEnvelope
      cases hek : e.kind with
      | expense =>
        simp only
        rw [if_neg]
        · exact ⟨_, rfl⟩
        · intro h
          obtain ⟨x, hx, hn⟩ := List.any_eq_true.1 h
          exact hno ⟨x, by simp [Account.envelopes, hx], by rw [hw.expenses x hx, hek], by simpa using hn⟩
      | goal =>
        simp only
        rw [if_neg]
        · exact ⟨_, rfl⟩
        · intro h
          obtain ⟨x, hx, hn⟩ := List.any_eq_true.1 h
          exact hno ⟨x, by simp [Account.envelopes, hx], by rw [hw.goals x hx, hek], by simpa using hn⟩
    obtain ⟨a', ha⟩ := this
    exact ⟨a', ha, (addEnvelope_keeps a a' e ha).2.2⟩

/-- Two expenses of one name are refused. -/
example : Account.parse (M := Rat) (stdEnv june15)
    s%"account bank\n  expense x due every 1st\n    amount 5\n  expense x due every 2nd" '.' s%"%Y"
    = .error (.err .validation) := by decide +kernel

/-- C46 fails: an expense and a goal may have the same name, and a posting that names it then counts
twice: a movement of 7 takes 14 from what is available. -/
theorem C46_expense_and_goal_share_a_name :
    ∃ a : Account Rat, Account.parse (stdEnv june15)
      s%"account bank\n  expense x due every 1st\n    amount 50\n  goal x due every 1st\n    amount 50"
        '.' s%"%Y/%m/%d" = .ok a ∧
    ∃ x : Entry Rat, Entry.parse (stdEnv june15)
      s%"2024/6/10 ~ save\n  envelope bank x 7" s%"%Y/%m/%d" '.' [s%"bank"] = .ok x ∧
    ∃ a', a.processEntry june15 x = .ok a' ∧ (a'.available.only none).mag = -14 := by
  decide +kernel

end Silverfox
