import Mathlib.Data.List.Perm.Basic
import Verif.Props.Inject
import Verif.Props.Blank

/-
From a record to an entry: the order of tables (C68), a single posting completed (C69).
-/

namespace Silverfox

set_option linter.unusedSectionVars false

variable {M : Type} [Mag M]

/-! ### C68: the order of tables -/

theorem recordPostings_congr (env env' : Env) (v : RuleVals) (vars : List (Str × Str))
    (known : List Str) : ∀ (l : List (Str × Str)),
    (∀ p ∈ l, inject env vars (rawPosting v.amounts p.1 p.2) =
      inject env' vars (rawPosting v.amounts p.1 p.2)) →
    (recordPostings env v vars known l : Res (List (Posting M))) = recordPostings env' v vars known l
  | [], _ => rfl
  | (i, a) :: l, h => by
    simp only [recordPostings]
    rw [h (i, a) (by simp), recordPostings_congr env env' v vars known l fun p hp => h p (by simp [hp])]

theorem recordPostings_perm (env : Env) (v : RuleVals) (vars : List (Str × Str)) (known : List Str)
    {l l' : List (Str × Str)} (h : l.Perm l') : ∀ (ps : List (Posting M)),
    recordPostings env v vars known l = .ok ps →
    ∃ ps', recordPostings env v vars known l' = .ok ps' ∧ ps.Perm ps' := by
  induction h with
  | nil => intro ps hp; exact ⟨ps, hp, .refl _⟩
  | cons x _ ih =>
    intro ps hp
    obtain ⟨i, a⟩ := x
    simp only [recordPostings, bind, Except.bind] at hp ⊢
    cases hx : (Posting.parse (inject env vars (rawPosting v.amounts i a)) v.decimal known :
      Res (Posting M)) with
    | error e => rw [hx] at hp; simp at hp
    | ok p =>
      rw [hx] at hp
      simp only at hp ⊢
      split at hp
      · simp at hp
      · rename_i qs hq
        obtain ⟨ps', h1, h2⟩ := ih qs hq
        simp only [pure, Except.pure, Except.ok.injEq] at hp ⊢
        rw [h1, ← hp]
        exact ⟨p :: ps', rfl, .cons p h2⟩
  | swap x y l =>
    intro ps hp
    obtain ⟨i, a⟩ := x
    obtain ⟨j, b⟩ := y
    simp only [recordPostings, bind, Except.bind] at hp ⊢
    cases hx : (Posting.parse (inject env vars (rawPosting v.amounts i a)) v.decimal known :
      Res (Posting M)) with
    | error e =>
      rw [hx] at hp
      split at hp <;> simp at hp
    | ok p =>
      cases hy : (Posting.parse (inject env vars (rawPosting v.amounts j b)) v.decimal known :
        Res (Posting M)) with
      | error e => rw [hy] at hp; simp at hp
      | ok q =>
        rw [hx, hy] at hp
        cases hl : (recordPostings env v vars known l : Res (List (Posting M))) with
        | error e => rw [hl] at hp; simp at hp
        | ok rs =>
          rw [hl] at hp
          simp only [pure, Except.pure, Except.ok.injEq] at hp ⊢
          rw [← hp]
          exact ⟨_, rfl, .swap p q rs⟩
  | trans _ _ ih1 ih2 =>
    intro ps hp
    obtain ⟨ps1, h1, h2⟩ := ih1 ps hp
    obtain ⟨ps2, h3, h4⟩ := ih2 ps1 h1
    exact ⟨ps2, h3, h2.trans h4⟩

theorem completePostings_perm {ps ps' : List (Posting M)} (h : ps.Perm ps') (qs : List (Posting M))
    (hq : completePostings ps = .ok qs) : ∃ qs', completePostings ps' = .ok qs' ∧ qs.Perm qs' := by
  match ps, ps', h.length_eq with
  | [], [], _ => simp [completePostings, fail] at hq
  | [p], [p'], _ =>
    have : p = p' := by simpa using h
    subst this
    exact ⟨qs, hq, .refl _⟩
  | p :: q :: ps, p' :: q' :: ps', _ =>
    simp only [completePostings, Except.ok.injEq] at hq
    exact ⟨_, rfl, by rw [← hq]; exact h⟩

/-- The templates of a set of rules. -/
def RuleVals.templates (v : RuleVals) : List Str :=
  [v.dateStr, v.description, v.status, v.payee, v.comment] ++
    v.accounts.map fun p => rawPosting v.amounts p.1 p.2

/-- **C68.** If the variables can be filled into the templates without regard to their order (as
`C67_variables_partial` ensures), a record is turned into an entry for every iteration order of the
tables or for none, and the entries differ at most in the order of their postings. -/
theorem C68_postings (env env' : Env) (v : RuleVals) (record known : List Str)
    (hd : env'.parseDate = env.parseDate)
    (ho : ∀ l : List (Str × Str), (env.ord l).Perm l) (ho' : ∀ l : List (Str × Str), (env'.ord l).Perm l)
    (hi : ∀ vars, recordVars (v.withDefaults.fields.zip record) [] = .ok vars →
      ∀ t ∈ v.withDefaults.templates, inject env vars t = inject env' vars t)
    (e : Entry M) (h : v.entry env record known = .ok e) :
    ∃ e', v.entry env' record known = .ok e' ∧ e'.postings.Perm e.postings ∧
      { e' with postings := e.postings } = e := by
  unfold RuleVals.entry at h ⊢
  generalize v.withDefaults = u at h hi ⊢
  simp only [bind, Except.bind] at h ⊢
  cases hv : recordVars (u.fields.zip record) [] with
  | error x => rw [hv] at h; simp at h
  | ok vars =>
    rw [hv] at h
    have hi := hi vars hv
    simp only [RuleVals.templates, List.mem_append, List.mem_cons, List.not_mem_nil, or_false] at hi
    have hps : ∀ l : List (Str × Str), l.Perm u.accounts →
        (recordPostings env u vars known l : Res (List (Posting M))) =
          recordPostings env' u vars known l := fun l hl =>
      recordPostings_congr env env' u vars known l fun p hp =>
        hi _ (.inr (List.mem_map.mpr ⟨p, hl.subset hp, rfl⟩))
    simp only at h ⊢
    rw [← hi u.dateStr (by simp), hd, ← hi u.description (by simp), ← hi u.status (by simp), ← hi u.payee (by simp),
      ← hi u.comment (by simp)]
    split at h
    · simp [fail] at h
    · rename_i date hdate
      split at h
      · simp at h
      · rename_i st hst
        split at h
        · simp at h
        · rename_i ps hps1
          split at h
          · simp at h
          · rename_i qs hq
            rw [hps _ (ho _)] at hps1
            obtain ⟨ps', h1, h2⟩ := recordPostings_perm env' u vars known ((ho _).trans (ho' _).symm) ps
              hps1
            obtain ⟨qs', h3, h4⟩ := completePostings_perm
              ((List.reverse_perm ps).trans (h2.trans (List.reverse_perm ps').symm)) qs hq
            simp only [pure, Except.pure, Except.ok.injEq] at h ⊢
            rw [h1]
            simp only
            rw [h3]
            subst h
            exact ⟨_, rfl, h4.symm, rfl⟩

/-- Rules with two accounts; the order of the postings depends on that of the table. -/
def twoAccounts : RuleVals :=
  { RuleVals.default with
    accounts := [(s%"1", s%"assets:bank"), (s%"2", s%"expenses:food")]
    amounts := [(s%"1", s%"-%amount%"), (s%"2", s%"%amount%")]
    fields := [s%"date", s%"description", s%"amount"] }

def accountsOf (env : Env) : Res (List Str) :=
  (twoAccounts.entry env [s%"2024/06/01", s%"Lunch", s%"8"] [s%"assets:bank", s%"expenses:food"] :
    Res (Entry F64)).map fun e => e.postings.map Posting.account

/-- **C68, where it ends.** The order of the postings in the entry is that of the table, reversed: not
fixed. -/
theorem C68_order_varies :
    accountsOf forwards = .ok [s%"expenses:food", s%"assets:bank"] ∧
    accountsOf backwards = .ok [s%"assets:bank", s%"expenses:food"] := by
  decide +kernel

/-! ### C69: a single posting is completed -/

/-- The account for the other half, by the sign of an amount. -/
def OtherHalf (m : M) (account : Str) : Prop :=
  (Mag.lt m Mag.zero = true → account = s%"expenses:unknown") ∧
  (Mag.lt m Mag.zero = false → Mag.lt Mag.zero m = true → account = s%"income:unknown") ∧
  (Mag.lt m Mag.zero = false → Mag.lt Mag.zero m = false → account = s%"unknown")

theorem unknownAccount_half (m : M) : OtherHalf m (unknownAccount m) := by
  unfold OtherHalf unknownAccount
  refine ⟨fun h => by simp [h], fun h1 h2 => by simp [h1, h2], fun h1 h2 => by simp [h1, h2]⟩

/-- What comes out of the rules for a record before completion: the postings written by the rules. -/
theorem entry_postings (env : Env) (v : RuleVals) (record known : List Str) (e : Entry M)
    (h : v.entry env record known = .ok e) :
    ∃ vars ps, recordVars (v.withDefaults.fields.zip record) [] = .ok vars ∧
      recordPostings env v.withDefaults vars known (env.ord v.withDefaults.accounts) = .ok ps ∧
      completePostings ps.reverse = .ok e.postings := by
  unfold RuleVals.entry at h
  generalize v.withDefaults = u at h ⊢
  simp only [bind, Except.bind] at h
  cases hv : recordVars (u.fields.zip record) [] with
  | error x => rw [hv] at h; simp at h
  | ok vars =>
    rw [hv] at h
    simp only at h
    split at h
    · simp [fail] at h
    · split at h
      · simp at h
      · split at h
        · simp at h
        · rename_i ps hps
          split at h
          · simp at h
          · rename_i qs hq
            simp only [pure, Except.pure, Except.ok.injEq] at h
            subst h
            exact ⟨vars, ps, rfl, hps, hq⟩

/-- **C69.** If the rules have one account, an entry made by them has the posting of that account and a
blank one to the account for the other half by the sign of the amount; it passes validation, and the
blank amount is the opposite of the given one. -/
theorem C69_completed (env : Env) (v : RuleVals) (record known : List Str)
    (ho : ∀ l : List (Str × Str), (env.ord l).Perm l) (i acc : Str)
    (ha : v.withDefaults.accounts = [(i, acc)]) (e : Entry M)
    (h : v.entry env record known = .ok e) :
    ∃ vars p a other, recordVars (v.withDefaults.fields.zip record) [] = .ok vars ∧
      Posting.parse (inject env vars (rawPosting v.withDefaults.amounts i acc)) v.withDefaults.decimal
        known = .ok p ∧ p.amount = some a ∧ OtherHalf a.mag other ∧
      e.postings = [p, .classic ⟨other, none, none, none⟩] ∧
      e.validate = .ok () ∧ e.blankAmount = .ok (some a.neg) := by
  obtain ⟨vars, ps, h1, h2, h3⟩ := entry_postings env v record known e h
  have ho' : env.ord v.withDefaults.accounts = [(i, acc)] := by
    rw [ha]; exact List.perm_singleton.mp (ho _)
  rw [ho'] at h2
  simp only [recordPostings, bind, Except.bind] at h2
  split at h2
  · simp at h2
  · rename_i p hp
    simp only [pure, Except.pure, Except.ok.injEq] at h2
    subst h2
    simp only [List.reverse_cons, List.reverse_nil, List.nil_append, completePostings] at h3
    cases hpa : p.amount with
    | none => rw [hpa] at h3; simp [fail] at h3
    | some a =>
      rw [hpa] at h3
      simp only [Except.ok.injEq] at h3
      refine ⟨vars, p, a, _, h1, hp, hpa, unknownAccount_half a.mag, h3.symm, ?_, ?_⟩
      · unfold Entry.validate
        rw [← h3]
        simp only [validateLoop, hpa]
        cases a.sym with
        | none => rfl
        | some s => rfl
      · unfold Entry.blankAmount Entry.hasBlank Entry.hasMixed
        rw [← h3]
        have hb : (Posting.classic ⟨unknownAccount a.mag, none, none, none⟩ : Posting M).amount = none := rfl
        simp [hpa, hb, blankRest, bind, Except.bind, pure, Except.pure]

/-- **C69.** The completed entry balances, if the posting is an ordinary one. -/
theorem C69_balances (env : Env) (v : RuleVals) (record known : List Str)
    (ho : ∀ l : List (Str × Str), (env.ord l).Perm l) (i acc : Str)
    (ha : v.withDefaults.accounts = [(i, acc)]) (e : Entry Rat)
    (h : v.entry env record known = .ok e) (hord : e.envelopePostings = []) :
    ∃ b : Amount Rat, e.blankAmount = .ok (some b) ∧
      ((e.postings.filter fun q => !q.isEnvelope).map fun q => (q.amount.getD b).mag).sum = 0 := by
  obtain ⟨vars, p, a, other, -, -, h1, -, h3, -, -⟩ := C69_completed env v record known ho i acc ha e h
  obtain ⟨b, h4, -, h5⟩ := C13_ordinary_postings_balance e a.sym hord [p] []
    (.classic ⟨other, none, none, none⟩) h3 rfl (by simp [h1]) (by simp)
  exact ⟨b, h4, h5⟩

/-- **C69.** A single posting without an amount is refused, and so are rules without postings; two or
more postings are left as they are. -/
theorem C69_otherwise (ps : List (Posting M)) :
    (∀ p, ps = [p] → p.amount = none → completePostings ps = fail .validation) ∧
    (ps = [] → completePostings ps = fail .validation) ∧
    (ps.length ≥ 2 → completePostings ps = .ok ps) := by
  refine ⟨?_, ?_, ?_⟩
  · rintro p rfl hp; simp [completePostings, hp]
  · rintro rfl; rfl
  · intro h
    match ps, h with
    | _ :: _ :: _, _ => rfl

def oneAccount (env : Env) (amount : Str) : Res (List (Str × Option (Amount F64))) :=
  ({ RuleVals.default with
      accounts := [(s%"1", s%"assets:bank")]
      amounts := [(s%"1", s%"%amount%")]
      fields := [s%"date", s%"description", s%"amount"] }.entry env
    [s%"2024/06/01", s%"Lunch", amount] [s%"assets:bank"] : Res (Entry F64)).map
    fun e => e.postings.map fun p => (p.account, p.amount.map fun a => ⟨Mag.zero, a.sym⟩)

example : oneAccount forwards s%"-8 EUR" =
    .ok [(s%"assets:bank", some ⟨Mag.zero, some s%"EUR"⟩), (s%"expenses:unknown", none)] := by
  decide +kernel
example : oneAccount forwards s%"8" =
    .ok [(s%"assets:bank", some ⟨Mag.zero, none⟩), (s%"income:unknown", none)] := by
  decide +kernel

end Silverfox
