import Verif.Props.Semantics
import Mathlib.Data.List.Forall2

/-
C93: the same journal on another day.
-/

namespace Silverfox

set_option linter.unusedSectionVars false
variable {M : Type} [Mag M]

/-! ### Specification -/

/-- The same environment on another day. -/
def Env.on (env : Env) (d : Date) : Env := { env with today := d }

/-- Specification: the same envelope on two days. Only its money may be split otherwise between `now` and `next`;
`R` relates the two splits. -/
structure SameEnvelope (R : M × M → M × M → Prop) (e e' : Envelope M) : Prop where
  same : e.SameButMoney e'
  last : e'.lastTx = e.lastTx
  money : R (e.now.mag, e.next.mag) (e'.now.mag, e'.next.mag)

/-- Specification: the same account on two days. -/
structure SameAccount (R : M × M → M × M → Prop) (a a' : Account M) : Prop where
  name : a'.name = a.name
  real : a'.real = a.real
  expenses : List.Forall₂ (SameEnvelope R) a.expenses a'.expenses
  goals : List.Forall₂ (SameEnvelope R) a.goals a'.goals

/-- Specification: the same ledger on two days. -/
structure SameLedger (R : M × M → M × M → Prop) (l l' : Ledger M) : Prop where
  entries : l'.entries = l.entries
  format : l'.dateFormat = l.dateFormat
  currency : l'.currency = l.currency
  decimal : l'.decimal = l.decimal
  path : l'.filePath = l.filePath
  accounts : List.Forall₂ (fun p p' => p'.1 = p.1 ∧ SameAccount R p.2 p'.2) l.accounts l'.accounts

/-- Specification: `c` is an item of one of the files. -/
def IsItem (file : APath → Option Str) (c : Str) : Prop :=
  ∃ p t cs, file p = some t ∧ Itemised (lines t) cs ∧ c ∈ cs

/-- Specification: a date format that the files may set. -/
def FormatOf (file : APath → Option Str) (fmt : Str) : Prop :=
  fmt = s%"%Y/%m/%d" ∨ ∃ c more, IsItem file c ∧ splitWs c = s%"date_format" :: fmt :: more

/-- Specification: every schedule declared in the files has a last due date on every day. -/
def SafeFiles (M : Type) [Mag M] (env : Env) (file : APath → Option Str) : Prop :=
  ∀ c fmt (a : Account M), IsItem file c → FormatOf file fmt → Account.parse env c '.' fmt = .ok a →
    ∀ e ∈ a.envelopes, e.SafeSchedule

/-! ### One envelope -/

/-- The relations that movements of money keep, if the first run is on the day `d1` and the second on `d2`. -/
structure Passage (R : M × M → M × M → Prop) (d1 d2 : Date) : Prop where
  inner : d2.Inner
  refl : ∀ p, R p p
  nn : ∀ n x n' x' a, R (n, x) (n', x') → R (Mag.add n a, x) (Mag.add n' a, x')
  nx : ∀ f date l o, f.Inner → Frequency.lastDue d1 f = .ok (some l) → Date.lt date l = true →
    Frequency.lastDue d2 f = .ok o → (∀ l', o = some l' → Date.lt date l' = false) →
    ∀ n x n' x' a, Mag.lt Mag.zero a = true → R (n, x) (n', x') → R (Mag.add n a, x) (n', Mag.add x' a)
  xn : ∀ n x n' x' a, Mag.lt Mag.zero a = true → R (n, x) (n', x') → R (n, Mag.add x a) (Mag.add n' a, x')
  xx : ∀ n x n' x' a, R (n, x) (n', x') → R (n, Mag.add x a) (n', Mag.add x' a)

/-- `SameEnvelope` with what is needed to carry on. -/
structure EnvSim (R : M × M → M × M → Prop) (e e' : Envelope M) : Prop where
  same : SameEnvelope R e e'
  one : e.OneCurrency
  one' : e'.OneCurrency
  safe : e.SafeSchedule

theorem applyAmount_sim {R : M × M → M × M → Prop} (d1 d2 : Date) (hR : Passage R d1 d2)
    (e e' e1 : Envelope M) (a : Amount M) (date : Date) (hs : EnvSim R e e') (h : e.applyAmount d1 a date = .ok e1) :
    ∃ e1', e'.applyAmount d2 a date = .ok e1' ∧ EnvSim R e1 e1' := by
  obtain ⟨⟨hsame, hlast, hm⟩, hone, hone', hsafe⟩ := hs
  obtain ⟨last, hlastdue⟩ := C28_last_due_never_crashes_partial d2 e.freq hR.inner hsafe.2 hsafe.1
  have hf := SameButMoney.fields hsame
  have k := applyAmount_keeps d1 e e1 a date h
  have kf := SameButMoney.fields k.1
  have hone1 : e1.OneCurrency := by
    unfold Envelope.OneCurrency at hone ⊢; rw [k.2.1, k.2.2.1, kf.2.2.1]; exact hone
  have hsafe1 : e1.SafeSchedule := by
    unfold Envelope.SafeSchedule at hsafe ⊢; rw [kf.2.2.2.2.2.1]; exact hsafe
  have fin : ∀ e1', e'.applyAmount d2 a date = .ok e1' →
      R (e1.now.mag, e1.next.mag) (e1'.now.mag, e1'.next.mag) →
      ∃ e1', e'.applyAmount d2 a date = .ok e1' ∧ EnvSim R e1 e1' := by
    intro e1' h' hm'
    have k' := applyAmount_keeps d2 e' e1' a date h'
    have kf' := SameButMoney.fields k'.1
    refine ⟨e1', h', ⟨⟨?_, by rw [k'.2.2.2, k.2.2.2], hm'⟩, hone1, ?_, hsafe1⟩⟩
    · have x1 := k.1
      have x2 := k'.1
      unfold Envelope.SameButMoney at *
      rw [x2, x1, hsame]
    · unfold Envelope.OneCurrency at hone' ⊢; rw [k'.2.1, k'.2.2.1, kf'.2.2.1]; exact hone'
  have hpos : Mag.lt a.mag Mag.zero = false → Mag.lt Mag.zero a.mag = true → a.sym = e.amount.sym →
      e'.applyAmount d2 a date = .ok (e'.intoNow a.mag date) ∨ (e'.applyAmount d2 a date = .ok (e'.intoNext a.mag date) ∧
        ∀ l', last = some l' → Date.lt date l' = false) := by
    intro h1 h2 h3
    have h4 : e'.now.sym = a.sym := by rw [hone'.1, h3, hf.2.2.1]
    have h5 : e'.next.sym = a.sym := by rw [hone'.2, h3, hf.2.2.1]
    rw [← hf.2.2.2.2.2.1] at hlastdue
    unfold Envelope.applyAmount
    simp only [h1, h2, Bool.false_eq_true, if_false, if_true, hlastdue, bind, Except.bind, pure,
      Except.pure, Amount.add, h4, h5]
    cases last with
    | none => right; exact ⟨by simp [Envelope.intoNext, ← h5], by intro l' hl'; cases hl'⟩
    | some d =>
      by_cases hd : Date.lt date d = true
      · left; simp [hd, Envelope.intoNow, ← h4]
      · right; exact ⟨by simp [hd, Envelope.intoNext, ← h5], by intro l' hl'; cases hl'; simpa using hd⟩
  rcases applyAmount_ok d1 e e1 a date h with ⟨h1, h2, rfl⟩ | ⟨h1, h2, h3, ⟨l, hl, hdl⟩, rfl⟩ | ⟨h1, h2, h3, _, rfl⟩ | ⟨h1, h2, rfl⟩
  · refine fin (e'.intoNow a.mag date) ?_ (hR.nn _ _ _ _ _ hm)
    have h4 : e'.now.sym = a.sym := by rw [hone'.1, h2, hone.1, hf.2.2.1]
    unfold Envelope.applyAmount
    simp [h1, Amount.add, h4, bind, Except.bind, pure, Except.pure, Envelope.intoNow]
  · rcases hpos h1 h2 (by rw [h3, hone.1]) with h' | ⟨h', hno⟩
    · exact fin _ h' (hR.nn _ _ _ _ _ hm)
    · exact fin _ h' (hR.nx _ _ _ _ hsafe.2 hl hdl hlastdue hno _ _ _ _ _ h2 hm)
  · rcases hpos h1 h2 (by rw [h3, hone.2]) with h' | ⟨h', _⟩
    · exact fin _ h' (hR.xn _ _ _ _ _ h2 hm)
    · exact fin _ h' (hR.xx _ _ _ _ _ hm)
  · refine fin { e' with lastTx := date } ?_ hm
    unfold Envelope.applyAmount
    simp [h1, h2]

theorem processManual_sim {R : M × M → M × M → Prop} (d1 d2 : Date) (hR : Passage R d1 d2)
    (date : Date) (ps : List (EnvPosting M)) (e e' e1 : Envelope M) (hs : EnvSim R e e')
    (h : Envelope.processManual d1 date ps e = .ok e1) :
    ∃ e1', Envelope.processManual d2 date ps e' = .ok e1' ∧ EnvSim R e1 e1' := by
  induction ps generalizing e e' with
  | nil => cases h; exact ⟨e', rfl, hs⟩
  | cons p ps ih =>
    have hf := SameButMoney.fields hs.same.same
    unfold Envelope.processManual at h ⊢
    rw [hf.1, hf.2.1]
    split at h
    · rename_i hc
      simp only [bind, Except.bind] at h
      split at h
      · cases h
      · rename_i e2 he2
        obtain ⟨e2', h2, h3⟩ := applyAmount_sim d1 d2 hR e e' e2 p.amount date hs he2
        obtain ⟨e1', h4, h5⟩ := ih e2 e2' h3 h
        exact ⟨e1', by simp only [if_pos hc, bind, Except.bind, h2]; exact h4, h5⟩
    · rename_i hc
      rw [if_neg hc]
      exact ih e e' hs h

theorem inferLoop_congr (e e' : Envelope M) (hacc : e'.account = e.account) (ham : e'.amount = e.amount)
    (hau : e'.auto = e.auto) (entry : Entry M) (ps : List (Posting M)) (s a : Amount M) :
    e'.inferLoop entry ps s a = e.inferLoop entry ps s a := by
  induction ps generalizing s a with
  | nil => rfl
  | cons p ps ih =>
    have h1 : e'.inferAmount entry p = e.inferAmount entry p := by unfold Envelope.inferAmount; rw [ham]
    simp only [Envelope.inferLoop, h1, hacc, hau, ih]

theorem infer_sim {R : M × M → M × M → Prop} (d1 d2 : Date) (hR : Passage R d1 d2)
    (entry : Entry M) (e e' e1 : Envelope M) (hs : EnvSim R e e')
    (h : Envelope.infer d1 e entry = .ok e1) :
    ∃ e1', Envelope.infer d2 e' entry = .ok e1' ∧ EnvSim R e1 e1' := by
  have hf := SameButMoney.fields hs.same.same
  unfold Envelope.infer at h ⊢
  simp only [hf.2.1, hf.2.2.1, hf.2.2.2.2.1, inferLoop_congr e e' hf.2.1 hf.2.2.1 hf.2.2.2.2.1] at h ⊢
  split at h
  · rename_i hc; rw [if_pos hc]; cases h; exact ⟨e', rfl, hs⟩
  · rename_i hc
    rw [if_neg hc]
    simp only [bind, Except.bind, pure, Except.pure] at h ⊢
    split at h
    · cases h
    · rename_i p hp
      split at h
      · rename_i hz
        simp only [hz, if_true]
        exact applyAmount_sim d1 d2 hR e e' e1 _ _ hs h
      · rename_i hz
        cases h
        exact ⟨e', by simp only [hz]; rfl, hs⟩

theorem envProcess_sim {R : M × M → M × M → Prop} (d1 d2 : Date) (hR : Passage R d1 d2)
    (entry : Entry M) (e e' e1 : Envelope M) (hs : EnvSim R e e')
    (h : Envelope.processEntry d1 e entry = .ok e1) :
    ∃ e1', Envelope.processEntry d2 e' entry = .ok e1' ∧ EnvSim R e1 e1' := by
  unfold Envelope.processEntry at h ⊢
  split at h
  · rename_i hc; rw [if_pos hc]; exact processManual_sim d1 d2 hR _ _ e e' e1 hs h
  · rename_i hc; rw [if_neg hc]; exact infer_sim d1 d2 hR entry e e' e1 hs h

theorem processEnvelopes_sim {R : M × M → M × M → Prop} (d1 d2 : Date) (hR : Passage R d1 d2)
    (entry : Entry M) (es es' : List (Envelope M)) (hs : List.Forall₂ (EnvSim R) es es') (es1 : List (Envelope M))
    (h : Account.processEnvelopes d1 entry es = .ok es1) :
    ∃ es1', Account.processEnvelopes d2 entry es' = .ok es1' ∧ List.Forall₂ (EnvSim R) es1 es1' := by
  induction hs generalizing es1 with
  | nil => cases h; exact ⟨[], rfl, .nil⟩
  | cons hx _ ih =>
    simp only [Account.processEnvelopes, bind, Except.bind, pure, Except.pure] at h ⊢
    split at h
    · cases h
    · rename_i e1 he1
      split at h
      · cases h
      · rename_i es2 hes2
        cases h
        obtain ⟨e1', h1, h2⟩ := envProcess_sim d1 d2 hR entry _ _ e1 hx he1
        obtain ⟨es2', h3, h4⟩ := ih es2 hes2
        exact ⟨e1' :: es2', by simp only [h1, h3], .cons h2 h4⟩

/-! ### Accounts and ledgers -/

structure AcctSim (R : M × M → M × M → Prop) (a a' : Account M) : Prop where
  name : a'.name = a.name
  real : a'.real = a.real
  expenses : List.Forall₂ (EnvSim R) a.expenses a'.expenses
  goals : List.Forall₂ (EnvSim R) a.goals a'.goals

theorem acctProcess_sim {R : M × M → M × M → Prop} (d1 d2 : Date) (hR : Passage R d1 d2)
    (entry : Entry M) (a a' a1 : Account M) (hs : AcctSim R a a') (h : a.processEntry d1 entry = .ok a1) :
    ∃ a1', a'.processEntry d2 entry = .ok a1' ∧ AcctSim R a1 a1' := by
  unfold Account.processEntry at h ⊢
  rw [hs.name, hs.real]
  simp only [bind, Except.bind, pure, Except.pure] at h ⊢
  split at h
  · cases h
  · rename_i ex hex
    split at h
    · cases h
    · rename_i go hgo
      split at h
      · cases h
      · rename_i re hre
        cases h
        obtain ⟨ex', h1, h2⟩ := processEnvelopes_sim d1 d2 hR entry _ _ hs.expenses ex hex
        obtain ⟨go', h3, h4⟩ := processEnvelopes_sim d1 d2 hR entry _ _ hs.goals go hgo
        exact ⟨{ a' with expenses := ex', goals := go', real := re }, by simp only [h1, h3, hs.name],
          ⟨hs.name, rfl, h2, h4⟩⟩

abbrev MapSim (R : M × M → M × M → Prop) : Str × Account M → Str × Account M → Prop :=
  fun p p' => p'.1 = p.1 ∧ AcctSim R p.2 p'.2

theorem processAll_sim {R : M × M → M × M → Prop} (d1 d2 : Date) (hR : Passage R d1 d2)
    (entry : Entry M) (as as' : List (Str × Account M)) (hs : List.Forall₂ (MapSim R) as as')
    (as1 : List (Str × Account M)) (h : Ledger.processAll d1 entry as = .ok as1) :
    ∃ as1', Ledger.processAll d2 entry as' = .ok as1' ∧ List.Forall₂ (MapSim R) as1 as1' := by
  induction hs generalizing as1 with
  | nil => cases h; exact ⟨[], rfl, .nil⟩
  | @cons p p' ps ps' hx _ ih =>
    obtain ⟨k, a⟩ := p
    obtain ⟨k', a'⟩ := p'
    obtain ⟨hk, ha⟩ := hx
    simp only at hk ha
    simp only [Ledger.processAll, bind, Except.bind, pure, Except.pure] at h ⊢
    split at h
    · cases h
    · rename_i a1 ha1
      split at h
      · cases h
      · rename_i as2 has2
        cases h
        obtain ⟨a1', h1, h2⟩ := acctProcess_sim d1 d2 hR entry _ _ a1 ha ha1
        obtain ⟨as2', h3, h4⟩ := ih as2 has2
        exact ⟨(k', a1') :: as2', by simp only [h1, h3], .cons ⟨hk, h2⟩ h4⟩

structure LedSim (R : M × M → M × M → Prop) (file : APath → Option Str) (l l' : Ledger M) : Prop where
  entries : l'.entries = l.entries
  format : l'.dateFormat = l.dateFormat
  currency : l'.currency = l.currency
  decimal : l'.decimal = l.decimal
  path : l'.filePath = l.filePath
  accounts : List.Forall₂ (MapSim R) l.accounts l'.accounts
  dot : l.decimal = '.'
  known : FormatOf file l.dateFormat

theorem addEntry_sim {R : M × M → M × M → Prop} (env : Env) (hord : FairOrder env.ord)
    (d1 d2 : Date) (hR : Passage R d1 d2) (file : APath → Option Str)
    (entry : Entry M) (l l' l1 : Ledger M) (hs : LedSim R file l l') (h : l.addEntry (env.on d1) entry = .ok l1) :
    ∃ l1', l'.addEntry (env.on d2) entry = .ok l1' ∧ LedSim R file l1 l1' := by
  obtain ⟨accs, h1, rfl, _⟩ := addEntry_ok _ _ _ _ h
  obtain ⟨accs', h2, h3⟩ := processAll_sim d1 d2 hR entry _ _ hs.accounts accs h1
  have h4 : ∃ r, Ledger.processAll d2 entry (env.ord l'.accounts) = .ok r := by
    have h5 := (processAll_exists d2 entry l'.accounts).1 ⟨_, h2⟩
    rw [processAll_exists]
    intro p hp
    exact h5 p ((hord _ l'.accounts).mem_iff.1 hp)
  obtain ⟨r, hr⟩ := h4
  refine ⟨{ l' with accounts := accs', entries := stableSort (fun a b => Date.lt a.date b.date) (l'.entries ++ [entry]) },
    ?_, ⟨by rw [hs.entries], hs.format, hs.currency, hs.decimal, hs.path, h3, hs.dot, hs.known⟩⟩
  unfold Ledger.addEntry
  show (Ledger.processAll d2 entry (env.ord l'.accounts) >>= _) = _
  rw [hr]
  show (Ledger.processAll d2 entry l'.accounts >>= _) = _
  rw [h2]
  rfl

theorem mapInsert_sim {R : M × M → M × M → Prop} (as as' : List (Str × Account M)) (hs : List.Forall₂ (MapSim R) as as')
    (k : Str) (a : Account M) (ha : AcctSim R a a) :
    List.Forall₂ (MapSim R) (mapInsert as k a) (mapInsert as' k a) := by
  induction hs with
  | nil => exact .cons ⟨rfl, ha⟩ .nil
  | @cons p p' ps ps' hx hxs ih =>
    obtain ⟨q, b⟩ := p
    obtain ⟨q', b'⟩ := p'
    obtain ⟨hk, hb⟩ := hx
    simp only at hk hb
    subst hk
    simp only [mapInsert]
    split
    · exact .cons ⟨rfl, ha⟩ hxs
    · exact .cons ⟨rfl, hb⟩ ih

theorem mapSim_names {R : M × M → M × M → Prop} (as as' : List (Str × Account M))
    (hs : List.Forall₂ (MapSim R) as as') : as'.map Prod.fst = as.map Prod.fst := by
  induction hs with
  | nil => rfl
  | cons hx _ ih => simp [hx.1, ih]

theorem Account.parse_on (env : Env) (d : Date) (chunk : Str) (dec : Char) (fmt : Str) :
    (Account.parse (env.on d) chunk dec fmt : Res (Account M)) = Account.parse env chunk dec fmt := by
  have hl : ∀ (ls : List Str) (a : Account M) (chunk : Str),
      Account.parseLines (env.on d) dec fmt ls a chunk = Account.parseLines env dec fmt ls a chunk := by
    intro ls
    induction ls with
    | nil => intro a chunk; rfl
    | cons l ls ih =>
      intro a chunk
      simp only [Account.parseLines]
      split
      · show (Account.flush env a chunk dec fmt >>= _) = _
        simp only [bind, Except.bind]
        split
        · rfl
        · exact ih _ _
      · exact ih _ _
  unfold Account.parse
  split
  · rfl
  · simp only [bind, Except.bind]
    split
    · rfl
    · exact hl _ _ _

theorem EnvSim.refl {R : M × M → M × M → Prop} (hR : ∀ p, R p p) (e : Envelope M) (h1 : e.OneCurrency)
    (h2 : e.SafeSchedule) : EnvSim R e e := ⟨⟨rfl, rfl, hR _⟩, h1, h1, h2⟩

theorem forall₂_self {α : Type} {P : α → α → Prop} (xs : List α) (h : ∀ x ∈ xs, P x x) : List.Forall₂ P xs xs := by
  induction xs with
  | nil => exact .nil
  | cons x xs ih => exact .cons (h x (by simp)) (ih fun y hy => h y (by simp [hy]))

theorem reading_sim {R : M × M → M × M → Prop} (env : Env) (hord : FairOrder env.ord)
    (d1 d2 : Date) (hR : Passage R d1 d2) (file : APath → Option Str) (hsafe : SafeFiles M env file)
    (c : Str) (hc : IsItem file c) (l l' l1 : Ledger M) (hs : LedSim R file l l') (h : Reading (env.on d1) c l l1) :
    ∃ l1', Reading (env.on d2) c l' l1' ∧ LedSim R file l1 l1' := by
  cases h with
  | account a h1 h2 =>
    rw [Account.parse_on, hs.dot] at h2
    have hw := parsed_account_wf _ _ _ _ _ h2
    have hsf := hsafe c _ a hc hs.known h2
    have ha : AcctSim R a a := ⟨rfl, rfl,
      forall₂_self _ fun e he => EnvSim.refl hR.refl e (hw.currency e (List.mem_append_left _ he)) (hsf e (List.mem_append_left _ he)),
      forall₂_self _ fun e he => EnvSim.refl hR.refl e (hw.currency e (List.mem_append_right _ he)) (hsf e (List.mem_append_right _ he))⟩
    refine ⟨_, .account a h1 (by rw [Account.parse_on, hs.decimal, hs.dot, hs.format]; exact h2), ?_⟩
    exact ⟨hs.entries, hs.format, hs.currency, hs.decimal, hs.path, mapInsert_sim _ _ hs.accounts _ a ha, hs.dot, hs.known⟩
  | currency v more h1 =>
    exact ⟨_, .currency v more h1, ⟨hs.entries, hs.format, rfl, hs.decimal, hs.path, hs.accounts, hs.dot, hs.known⟩⟩
  | dateFormat v more h1 =>
    exact ⟨_, .dateFormat v more h1,
      ⟨hs.entries, rfl, hs.currency, hs.decimal, hs.path, hs.accounts, hs.dot, Or.inr ⟨c, more, hc, h1⟩⟩⟩
  | entry kw x _ h1 h2 h3 h4 =>
    obtain ⟨l1', h5, h6⟩ := addEntry_sim env hord d1 d2 hR file x l l' l1 hs h4
    refine ⟨l1', .entry kw x _ h1 h2 ?_ h5, h6⟩
    have hn : l'.accountNames = l.accountNames := mapSim_names _ _ hs.accounts
    rw [hs.format, hs.decimal, hn]
    exact h3

/-- Everything there is to read consists of items of the files. -/
def Task.Known (file : APath → Option Str) : Task → Prop
  | .file _ => True
  | .items cs => ∀ c ∈ cs, IsItem file c

theorem denotes_sim {R : M × M → M × M → Prop} (env : Env) (hord : FairOrder env.ord)
    (d1 d2 : Date) (hR : Passage R d1 d2) (file : APath → Option Str) (hsafe : SafeFiles M env file)
    (st st1 : Ledger M × APath) (task : Task) (h : Denotes (env.on d1) file st task st1)
    (hk : task.Known file) (l' : Ledger M) (hs : LedSim R file st.1 l') :
    ∃ l1', Denotes (env.on d2) file (l', st.2) task (l1', st1.2) ∧ LedSim R file st1.1 l1' := by
  induction h generalizing l' with
  | file l cwd path t cs st h1 h2 h3 _ ih =>
    obtain ⟨l1', h4, h5⟩ := ih (fun c hc => ⟨_, t, cs, h2, h3, hc⟩) l' hs
    exact ⟨l1', .file l' cwd path t cs _ h1 h2 h3 h4, h5⟩
  | done st => exact ⟨l', .done _, hs⟩
  | nothing st st' c cs h1 _ ih =>
    obtain ⟨l1', h4, h5⟩ := ih (fun c hc => hk c (List.mem_cons_of_mem _ hc)) l' hs
    exact ⟨l1', .nothing _ _ c cs h1 h4, h5⟩
  | item l l2 cwd st' c cs h1 _ ih =>
    obtain ⟨l2', h2, h3⟩ := reading_sim env hord d1 d2 hR file hsafe c (hk c (by simp)) l l' l2 hs h1
    obtain ⟨l1', h4, h5⟩ := ih (fun c hc => hk c (List.mem_cons_of_mem _ hc)) l2' h3
    exact ⟨l1', .item l' l2' cwd _ c cs h2 h4, h5⟩
  | incl st st1 st' c v more cs h1 _ _ ih1 ih2 =>
    obtain ⟨l2', h2, h3⟩ := ih1 trivial l' hs
    obtain ⟨l1', h4, h5⟩ := ih2 (fun c hc => hk c (List.mem_cons_of_mem _ hc)) l2' h3
    exact ⟨l1', .incl _ _ _ c v more cs h1 h2 h4, h5⟩

theorem forall₂_imp {α β : Type} {P Q : α → β → Prop} (hpq : ∀ a b, P a b → Q a b) {xs : List α} {ys : List β}
    (h : List.Forall₂ P xs ys) : List.Forall₂ Q xs ys := by
  induction h with
  | nil => exact .nil
  | cons h _ ih => exact .cons (hpq _ _ h) ih

theorem LedSim.toSame {R : M × M → M × M → Prop} {file : APath → Option Str} {l l' : Ledger M}
    (h : LedSim R file l l') : SameLedger R l l' :=
  ⟨h.entries, h.format, h.currency, h.decimal, h.path, forall₂_imp (fun _ _ hp => ⟨hp.1, hp.2.name, hp.2.real,
    forall₂_imp (fun _ _ he => he.same) hp.2.expenses, forall₂_imp (fun _ _ he => he.same) hp.2.goals⟩) h.accounts⟩

theorem loads_on_other_day {R : M × M → M × M → Prop} (env : Env) (hord : FairOrder env.ord)
    (d1 d2 : Date) (hR : Passage R d1 d2) (w : World) (hsafe : SafeFiles M env w.file) (path : Str) (l : Ledger M)
    (cwd : APath) (h : ∃ fuel, Ledger.fromFile (env.on d1) fuel w path = .ok (l, { w with cwd := cwd })) :
    ∃ l', (∃ fuel, Ledger.fromFile (env.on d2) fuel w path = .ok (l', { w with cwd := cwd })) ∧
      LedSim R w.file l l' := by
  rw [C88_loading_reads_the_items] at h
  obtain ⟨l', h1, h2⟩ := denotes_sim env hord d1 d2 hR w.file hsafe _ _ _ h trivial (Ledger.new path)
    ⟨rfl, rfl, rfl, rfl, rfl, .nil, rfl, Or.inl rfl⟩
  exact ⟨l', (C88_loading_reads_the_items _ _ _ _ _).2 h1, h2⟩

/-! ### C93 -/

/-- **C93, in part.** What a journal means does not depend on the day: if it loads on one day, it loads on every
other, with the same entries, accounts and real values, and with the same envelopes, except that their money may be
split otherwise between `now` and `next`. Missing: schedules whose last due date cannot be computed on every day,
for which it is false (`C93_not_on_every_day`). -/
theorem C93_same_on_every_day_partial (env : Env) (hord : FairOrder env.ord) (today other : Date)
    (hin : other.Inner) (w : World) (hsafe : SafeFiles M env w.file) (path : Str) (l : Ledger M) (cwd : APath)
    (h : ∃ fuel, Ledger.fromFile (env.on today) fuel w path = .ok (l, { w with cwd := cwd })) :
    ∃ l', (∃ fuel, Ledger.fromFile (env.on other) fuel w path = .ok (l', { w with cwd := cwd })) ∧
      SameLedger (fun _ _ => True) l l' := by
  obtain ⟨l', h1, h2⟩ := loads_on_other_day (R := fun _ _ => True) env hord today other ⟨hin, fun _ => trivial,
    fun _ _ _ _ _ _ => trivial, fun _ _ _ _ _ _ _ _ _ _ _ _ _ _ _ _ => trivial, fun _ _ _ _ _ _ _ => trivial,
    fun _ _ _ _ _ _ => trivial⟩ w hsafe path l cwd h
  exact ⟨l', h1, h2.toSame⟩

/-- Specification: the same money in all. -/
def SameTotal (p q : Rat × Rat) : Prop := q.1 + q.2 = p.1 + p.2

theorem sameTotal_passage (d1 d2 : Date) (h : d2.Inner) : Passage (M := Rat) SameTotal d1 d2 := by
  refine ⟨h, fun _ => rfl, ?_, ?_, ?_, ?_⟩ <;> intros <;> simp only [SameTotal, Mag.add] at * <;> linarith

theorem acctSim_available (a a' : Account Rat) (h : AcctSim SameTotal a a') (s : Option Str) :
    (a'.available.only s).mag = (a.available.only s).mag := by
  rw [C44_available, C44_available, h.real]
  congr 1
  have key : ∀ es es' : List (Envelope Rat), List.Forall₂ (EnvSim SameTotal) es es' →
      (es'.map fun e => (if e.now.sym = s then e.now.mag else 0) + (if e.next.sym = s then e.next.mag else 0)).sum =
      (es.map fun e => (if e.now.sym = s then e.now.mag else 0) + (if e.next.sym = s then e.next.mag else 0)).sum := by
    intro es es' h
    induction h with
    | nil => rfl
    | cons hx _ ih =>
      simp only [List.map_cons, List.sum_cons, ih]
      congr 1
      have h1 := hx.one
      have h2 := hx.one'
      have h3 := (SameButMoney.fields hx.same.same).2.2.1
      have h4 : _ + _ = _ + _ := hx.same.money
      rw [h1.1, h1.2, h2.1, h2.2, h3]
      split
      · exact h4
      · rfl
  rw [List.map_append, List.map_append, List.sum_append, List.sum_append, key _ _ h.expenses, key _ _ h.goals]

/-- **C93, in part.** In exact arithmetic each envelope holds the same in all on every day, and what is available in
each account is the same too, in each currency. Missing: as above. -/
theorem C93_same_money_partial (env : Env) (hord : FairOrder env.ord) (today other : Date)
    (hin : other.Inner) (w : World) (hsafe : SafeFiles Rat env w.file) (path : Str) (l : Ledger Rat) (cwd : APath)
    (h : ∃ fuel, Ledger.fromFile (env.on today) fuel w path = .ok (l, { w with cwd := cwd })) :
    ∃ l', (∃ fuel, Ledger.fromFile (env.on other) fuel w path = .ok (l', { w with cwd := cwd })) ∧
      SameLedger SameTotal l l' ∧
      List.Forall₂ (fun p p' => ∀ s, (p'.2.available.only s).mag = (p.2.available.only s).mag) l.accounts l'.accounts := by
  obtain ⟨l', h1, h2⟩ := loads_on_other_day env hord today other (sameTotal_passage today other hin) w hsafe path l cwd h
  exact ⟨l', h1, h2.toSame, forall₂_imp (fun _ _ hp => acctSim_available _ _ hp.2) h2.accounts⟩

/-- A journal with a bill due on the 31st. -/
def exRent : World := disk [("j", "account a\n  expense rent due every 31st\n    amount 20\n2020/01/01 * x\n  envelope a rent 5\n")]

/-- **C93.** False in general: a journal that loads in June aborts on the first of March. -/
theorem C93_not_on_every_day :
    (∃ r : Ledger Rat × World, Ledger.fromFile (stdEnv june15) 9 exRent s%"j" = .ok r ∧ (r.1.entries.length = 1)) ∧
    Ledger.fromFile (M := Rat) ((stdEnv june15).on ⟨2024, 3, 1, by decide⟩) 9 exRent s%"j" = panicked := by
  rw [← isAbort_iff]
  decide +kernel

/-- A journal with a bill due on the 20th, and money put aside for it. -/
def exBillText : String :=
  "account a\n  expense rent due every 20th\n    amount 20\n    funding aggressive\naccount b\n2024/06/01 * x\n  a  100\n  b\n2024/06/10 * y\n  envelope a rent 5\n"

def exBill : World := disk [("j", exBillText)]

def exBillItems : List Str :=
  [[], s%"account a\n  expense rent due every 20th\n    amount 20\n    funding aggressive", s%"account b", s%"2024/06/01 * x\n  a  100\n  b",
    s%"2024/06/10 * y\n  envelope a rent 5"]

theorem exBill_items : Itemised (lines exBillText.toList)
    exBillItems :=
  ⟨[], [(s%"account a", [s%"  expense rent due every 20th", s%"    amount 20",
    s%"    funding aggressive"]), (s%"account b", []), (s%"2024/06/01 * x", [s%"  a  100", s%"  b"]),
    (s%"2024/06/10 * y", [s%"  envelope a rent 5"])], by decide +kernel, by decide +kernel, by
      intro b hb
      simp only [List.mem_cons, List.not_mem_nil, or_false] at hb
      rcases hb with rfl | rfl | rfl | rfl <;> refine ⟨by decide +kernel, _, _, rfl, by decide⟩, by decide +kernel⟩

theorem exBill_isItem (c : Str) (h : IsItem exBill.file c) :
    c ∈ exBillItems := by
  obtain ⟨p, t, cs, h1, h2, h3⟩ := h
  have ht : t = exBillText.toList := by
    unfold exBill disk at h1
    simp only at h1
    split at h1
    · rename_i d n
      split at h1
      · rw [List.find?_cons] at h1
        split at h1
        · exact (Option.some.inj h1).symm
        · cases h1
      · cases h1
    · cases h1
  rw [ht] at h2
  obtain ⟨items, _, hu⟩ := C88_items_of_a_text (lines exBillText.toList)
  rw [hu _ h2, ← hu _ exBill_items] at h3
  exact h3

theorem exBill_safe : SafeFiles Rat (stdEnv june15) exBill.file := by
  intro c fmt a hc hf hp e he
  have hc := exBill_isItem c hc
  have hfmt : fmt = s%"%Y/%m/%d" := by
    rcases hf with rfl | ⟨c', more, hi, hw⟩
    · rfl
    · exfalso
      have hi := exBill_isItem c' hi
      simp only [exBillItems, List.mem_cons, List.not_mem_nil, or_false] at hi
      have : ∀ x, (splitWs c').head? = some x → x ∈ [s%"account", s%"2024/06/01", s%"2024/06/10"] := by
        rcases hi with rfl | rfl | rfl | rfl | rfl <;> intro x hx
        · cases hx
        all_goals
          · have h0 : ∀ y, some y = some x → y = x := fun y h => by cases h; rfl
            first
            | rw [← h0 s%"account" (by rw [← hx]; decide +kernel)]; decide
            | rw [← h0 s%"2024/06/01" (by rw [← hx]; decide +kernel)]; decide
            | rw [← h0 s%"2024/06/10" (by rw [← hx]; decide +kernel)]; decide
      have := this s%"date_format" (by rw [hw]; rfl)
      exact absurd this (by decide)
  subst hfmt
  have key : ∀ c ∈ exBillItems,
      ∀ a : Account Rat, Account.parse (stdEnv june15) c '.' s%"%Y/%m/%d" = .ok a → ∀ e ∈ a.envelopes, e.freq = .monthly 20 := by
    have hall : exBillItems.all (fun c => match (Account.parse (stdEnv june15) c '.' s%"%Y/%m/%d" : Res (Account Rat)) with
        | .ok a => a.envelopes.all fun e => decide (e.freq = .monthly 20)
        | .error _ => true) = true := by decide +kernel
    intro c hc a ha e he
    have h1 := List.all_eq_true.1 hall c hc
    rw [ha] at h1
    have h2 := List.all_eq_true.1 h1 e he
    simpa using h2
  have := key c hc a hp e he
  unfold Envelope.SafeSchedule
  rw [this]
  exact ⟨by simp [Frequency.Safe], trivial⟩

/-- In June the five are still saved for next; in July they are there. -/
example :
    (∃ r : Ledger Rat × World, Ledger.fromFile (stdEnv june15) 2 exBill s%"j" = .ok r ∧
      (r.1.accounts.map (fun p => p.2.envelopes.map fun e => (e.now.mag, e.next.mag)) = [[(0, 5)], []])) ∧
    (∃ r : Ledger Rat × World, Ledger.fromFile ((stdEnv june15).on ⟨2024, 7, 1, by decide⟩) 2 exBill s%"j" = .ok r ∧
      (r.1.accounts.map (fun p => p.2.envelopes.map fun e => (e.now.mag, e.next.mag)) = [[(5, 0)], []])) ∧
    FairOrder (stdEnv june15).ord ∧ Date.Inner ⟨2024, 7, 1, by decide⟩ :=
  ⟨by decide +kernel, by decide +kernel, fun _ l => List.Perm.refl l, by unfold Date.Inner; decide⟩

/-! ### C94 -/

theorem subtractMonths_inv (a b : Date) (num : Nat) (hn : num ≤ 12) (h : Frequency.subtractMonths a num = .ok b) :
    b.monthIdx = a.monthIdx - num ∧ b.d = a.d := by
  have hv := a.valid
  unfold Frequency.subtractMonths at h
  simp only at h
  split at h
  · rename_i hneg
    unfold unwrap at h
    split at h
    · rename_i x hx
      cases h
      obtain ⟨h1, h2, h3⟩ := Date.ofYmd?_eq_some.1 hx
      unfold Date.monthIdx
      omega
    · cases h
  · rename_i hneg
    unfold unwrap at h
    split at h
    · rename_i x hx
      cases h
      obtain ⟨h1, h2, h3⟩ := Date.ofYmd?_eq_some.1 hx
      unfold Date.monthIdx
      omega
    · cases h

theorem subtractMonths_mono (a a' b b' : Date) (num : Nat) (hn : num ≤ 12)
    (h : Frequency.subtractMonths a num = .ok b) (h' : Frequency.subtractMonths a' num = .ok b')
    (hle : Date.le a a' = true) : Date.le b b' = true := by
  obtain ⟨h1, h2⟩ := subtractMonths_inv a b num hn h
  obtain ⟨h3, h4⟩ := subtractMonths_inv a' b' num hn h'
  simp only [Date.le, Bool.not_eq_true'] at hle ⊢
  rw [← Bool.not_eq_true, lt_iff_monthIdx] at hle ⊢
  omega

theorem firstAfter_mono {P : Date → Prop} {d1 d2 n1 n2 : Date} (h1 : FirstAfter d1 P n1) (h2 : FirstAfter d2 P n2)
    (hle : Date.le d1 d2 = true) : Date.le n1 n2 = true := by
  refine h1.2.2 n2 ?_ h2.2.1
  have := h2.1
  rw [Date.lt_iff_dayNum] at this ⊢
  rw [Date.le_iff_dayNum] at hle
  omega

/-- **C94.** As days pass, the last due date never goes back, and once there is one there is one for ever. -/
theorem C94_last_due_moves_forward (f : Frequency) (hf : f.Inner) (d1 d2 : Date) (h1 : d1.Inner) (h2 : d2.Inner)
    (hle : Date.le d1 d2 = true) (l : Date) (o : Option Date) (hl : Frequency.lastDue d1 f = .ok (some l))
    (ho : Frequency.lastDue d2 f = .ok o) : ∃ l', o = some l' ∧ Date.le l l' = true := by
  have hadd : ∀ (a a' b b' : Date) (k : Int), a.addDays k = some b → a'.addDays k = some b' → Date.le a a' = true →
      Date.le b b' = true := by
    intro a a' b b' k ha ha' h
    have e1 := Date.addDays_dayNum ha
    have e2 := Date.addDays_dayNum ha'
    rw [Date.le_iff_dayNum] at h ⊢
    omega
  have hstep : ∀ (k : Int) (n1 n2 : Date), Date.le n1 n2 = true →
      (unwrap (n1.addDays k)).bind (fun d => .ok (some d)) = (.ok (some l) : Res (Option Date)) →
      (unwrap (n2.addDays k)).bind (fun d => .ok (some d)) = (.ok o : Res (Option Date)) →
      ∃ l', o = some l' ∧ Date.le l l' = true := by
    intro k n1 n2 hn e1 e2
    cases x1 : n1.addDays k with
    | none => rw [x1] at e1; cases e1
    | some b1 =>
      cases x2 : n2.addDays k with
      | none => rw [x2] at e2; cases e2
      | some b2 =>
        rw [x1] at e1
        rw [x2] at e2
        cases e1
        cases e2
        exact ⟨b2, rfl, hadd _ _ _ _ _ x1 x2 hn⟩
  have hmon : ∀ (k : Nat) (n1 n2 : Date), k ≤ 12 → Date.le n1 n2 = true →
      (Frequency.subtractMonths n1 k).bind (fun d => .ok (some d)) = (.ok (some l) : Res (Option Date)) →
      (Frequency.subtractMonths n2 k).bind (fun d => .ok (some d)) = (.ok o : Res (Option Date)) →
      ∃ l', o = some l' ∧ Date.le l l' = true := by
    intro k n1 n2 hk hn e1 e2
    cases x1 : Frequency.subtractMonths n1 k with
    | error x => rw [x1] at e1; cases e1
    | ok b1 =>
      cases x2 : Frequency.subtractMonths n2 k with
      | error x => rw [x2] at e2; cases e2
      | ok b2 =>
        rw [x1] at e1
        rw [x2] at e2
        cases e1
        cases e2
        exact ⟨b2, rfl, subtractMonths_mono _ _ _ _ _ hk x1 x2 hn⟩
  cases f with
  | never => cases hl
  | once d =>
    simp only [Frequency.lastDue, Frequency.nextDue, bind, Except.bind, pure, Except.pure] at hl ho
    by_cases hc : Date.le d d1 = true
    · have hc2 : Date.le d d2 = true := by rw [Date.le_iff_dayNum] at *; omega
      simp only [hc, hc2, if_true] at hl ho
      cases hl
      cases ho
      exact ⟨_, rfl, by rw [Date.le_iff_dayNum]⟩
    · simp [hc] at hl
  | weekly w =>
    obtain ⟨n1, a1, b1⟩ := C22_weekly_next d1 w h1
    obtain ⟨n2, a2, b2⟩ := C22_weekly_next d2 w h2
    simp only [Frequency.lastDue, a1, a2, bind, Except.bind, pure, Except.pure] at hl ho
    exact hstep (-7) n1 n2 (firstAfter_mono b1 b2 hle) hl ho
  | biweekly s =>
    obtain ⟨n1, a1, b1⟩ := nextDue_biweekly d1 s h1 hf
    obtain ⟨n2, a2, b2⟩ := nextDue_biweekly d2 s h2 hf
    obtain ⟨_, t1, t2⟩ := tdiv14 (d1.dayNum - s.dayNum)
    obtain ⟨_, t3, t4⟩ := tdiv14 (d2.dayNum - s.dayNum)
    simp only [Frequency.lastDue, a1, a2, bind, Except.bind, pure, Except.pure] at hl ho
    refine hstep (-14) n1 n2 ?_ hl ho
    rw [Date.le_iff_dayNum] at hle ⊢
    omega
  | monthly day =>
    obtain ⟨n1, a1, b1⟩ := C23_monthly_next d1 day h1
    obtain ⟨n2, a2, b2⟩ := C23_monthly_next d2 day h2
    simp only [Frequency.lastDue, a1, a2, bind, Except.bind, pure, Except.pure] at hl ho
    exact hmon 1 n1 n2 (by omega) (firstAfter_mono b1 b2 hle) hl ho
  | bimonthly s =>
    obtain ⟨n1, a1, _, _, m1⟩ := nextDue_bimonthly d1 s h1.2
    obtain ⟨n2, a2, p2, q2, _⟩ := nextDue_bimonthly d2 s h2.2
    simp only [Frequency.lastDue, a1, a2, bind, Except.bind, pure, Except.pure] at hl ho
    refine hmon 2 n1 n2 (by omega) (m1 n2 p2 ?_) hl ho
    rw [Date.le_iff_dayNum] at *
    omega
  | annually s =>
    have key : ∀ d x, Frequency.lastDue d (.annually s) = .ok x → x = s.withYear (s.y - 1) := by
      intro d x hx
      unfold Frequency.lastDue at hx
      simp only [bind, Except.bind, pure, Except.pure] at hx
      cases hn : Frequency.nextDue d (.annually s) with
      | error e => rw [hn] at hx; cases hx
      | ok r =>
        rw [hn] at hx
        cases r with
        | none => cases hx
        | some n =>
          simp only at hx
          cases hy : s.withYear (s.y - 1) with
          | none => rw [hy] at hx; cases hx
          | some y => rw [hy] at hx; cases hx; rfl
    have e2 := key d2 o ho
    exact ⟨l, by rw [e2, ← key d1 _ hl], by rw [Date.le_iff_dayNum]⟩

/-- **C94.** As days pass, the next due date of a schedule never goes back. -/
theorem C94_next_due_moves_forward (f : Frequency) (hf : f.Inner) (d1 d2 : Date) (h1 : d1.Inner) (h2 : d2.Inner)
    (hle : Date.le d1 d2 = true) (n1 n2 : Date) (e1 : Frequency.nextDue d1 f = .ok (some n1))
    (e2 : Frequency.nextDue d2 f = .ok (some n2)) : Date.le n1 n2 = true := by
  cases f with
  | never => cases e1
  | once d =>
    simp only [Frequency.nextDue] at e1 e2
    split at e1
    · cases e1
    · split at e2
      · cases e2
      · cases e1
        cases e2
        rw [Date.le_iff_dayNum]
  | weekly w =>
    obtain ⟨m1, a1, b1⟩ := C22_weekly_next d1 w h1
    obtain ⟨m2, a2, b2⟩ := C22_weekly_next d2 w h2
    rw [a1] at e1; rw [a2] at e2; cases e1; cases e2
    exact firstAfter_mono b1 b2 hle
  | biweekly s =>
    obtain ⟨m1, a1, b1⟩ := nextDue_biweekly d1 s h1 hf
    obtain ⟨m2, a2, b2⟩ := nextDue_biweekly d2 s h2 hf
    obtain ⟨_, t1, t2⟩ := tdiv14 (d1.dayNum - s.dayNum)
    obtain ⟨_, t3, t4⟩ := tdiv14 (d2.dayNum - s.dayNum)
    rw [a1] at e1; rw [a2] at e2; cases e1; cases e2
    rw [Date.le_iff_dayNum] at hle ⊢
    omega
  | monthly day =>
    obtain ⟨m1, a1, b1⟩ := C23_monthly_next d1 day h1
    obtain ⟨m2, a2, b2⟩ := C23_monthly_next d2 day h2
    rw [a1] at e1; rw [a2] at e2; cases e1; cases e2
    exact firstAfter_mono b1 b2 hle
  | bimonthly s =>
    obtain ⟨m1, a1, _, _, r1⟩ := nextDue_bimonthly d1 s h1.2
    obtain ⟨m2, a2, p2, q2, _⟩ := nextDue_bimonthly d2 s h2.2
    rw [a1] at e1; rw [a2] at e2; cases e1; cases e2
    refine r1 _ p2 ?_
    rw [Date.le_iff_dayNum] at *
    omega
  | annually s =>
    have hyear : ∀ d, s.withYear (s.y + 1) = some d → Date.lt s d = true := by
      intro d hd
      obtain ⟨hy, hm, hdd⟩ := Date.ofYmd?_eq_some.1 hd
      rw [Date.lt_iff]; omega
    simp only [Frequency.nextDue] at e1 e2
    split at e1
    · cases e1
      split at e2
      · cases e2; rw [Date.le_iff_dayNum]
      · have := hyear n2 (by injection e2)
        rw [Date.lt_iff_dayNum] at this; rw [Date.le_iff_dayNum]; omega
    · split at e2
      · rename_i g1 g2
        rw [Date.lt_iff_dayNum] at g1 g2
        rw [Date.le_iff_dayNum] at hle
        omega
      · rw [e1] at e2; cases e2; rw [Date.le_iff_dayNum]

/-- Specification: the same money in all, and no less of it ready. -/
def Released (p q : Rat × Rat) : Prop := q.1 + q.2 = p.1 + p.2 ∧ p.1 ≤ q.1

theorem released_passage (d1 d2 : Date) (h1 : d1.Inner) (h2 : d2.Inner) (hle : Date.le d1 d2 = true) :
    Passage (M := Rat) Released d1 d2 := by
  refine ⟨h2, fun _ => ⟨rfl, le_refl _⟩, ?_, ?_, ?_, ?_⟩
  · rintro n x n' x' a ⟨h3, h4⟩
    simp only [Released, Mag.add] at *
    constructor <;> linarith
  · intro f date l o hf hl hd ho hno
    obtain ⟨l', rfl, h3⟩ := C94_last_due_moves_forward f hf d1 d2 h1 h2 hle l o hl ho
    have := hno l' rfl
    rw [Date.lt_false_iff_dayNum] at this
    rw [Date.le_iff_dayNum] at h3
    rw [Date.lt_iff_dayNum] at hd
    omega
  · rintro n x n' x' a ha ⟨h3, h4⟩
    have ha : 0 < a := by simpa [Mag.lt, Mag.zero] using ha
    simp only [Released, Mag.add] at *
    constructor <;> linarith
  · rintro n x n' x' a ⟨h3, h4⟩
    simp only [Released, Mag.add] at *
    constructor <;> linarith

/-- **C94.** As days pass, money of an envelope only moves from what is saved for next to what is ready, whatever the
journal. (For schedules with a last due date on every day; with others the journal may not load at all, see C93.) -/
theorem C94_money_is_only_released (env : Env) (hord : FairOrder env.ord) (today later : Date)
    (h1 : today.Inner) (h2 : later.Inner) (hle : Date.le today later = true)
    (w : World) (hsafe : SafeFiles Rat env w.file) (path : Str) (l : Ledger Rat) (cwd : APath)
    (h : ∃ fuel, Ledger.fromFile (env.on today) fuel w path = .ok (l, { w with cwd := cwd })) :
    ∃ l', (∃ fuel, Ledger.fromFile (env.on later) fuel w path = .ok (l', { w with cwd := cwd })) ∧
      SameLedger Released l l' := by
  obtain ⟨l', h3, h4⟩ := loads_on_other_day env hord today later (released_passage today later h1 h2 hle) w hsafe path l
    cwd h
  exact ⟨l', h3, h4.toSame⟩

example : Date.le june15 ⟨2024, 7, 1, by decide⟩ = true ∧ Released (0, 5) (5, 0) ∧ ¬ Released (5, 0) (0, 5) ∧
    Frequency.lastDue june15 (.monthly 20) = .ok (some ⟨2024, 5, 20, by decide⟩) ∧
    Frequency.lastDue ⟨2024, 7, 1, by decide⟩ (.monthly 20) = .ok (some ⟨2024, 6, 20, by decide⟩) := by
  refine ⟨by decide +kernel, ?_, ?_, by decide +kernel, by decide +kernel⟩ <;> simp [Released]

end Silverfox
