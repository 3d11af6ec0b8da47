import Verif.Props.Cycles
import Verif.Props.Register
import Verif.Props.Entries
import Verif.Props.Accounts
import Verif.Props.Order
import Verif.Props.Comments

/-
C87: a journal is loaded, or refused with an error; what aborts instead.
-/

namespace Silverfox

set_option linter.unusedSectionVars false
variable {M : Type} [Mag M]

/-! ### Specification -/

/-- What is read of a line: it ends before trailing white space and comments. -/
def effective (l : Str) : Str := removeComments (trimEnd l)

/-- Lines that continue an item: nothing, or something after white space. -/
def Continuing (ls : List Str) : Prop := ∀ l ∈ ls, ∀ c, (effective l).head? = some c → isWs c = true

/-- Specification: the text of the continuing lines of an item. -/
def restOf (ls : List Str) : Str := (ls.filter fun l => !(effective l).isEmpty).flatMap fun l => '\n' :: effective l

/-- Specification: the lines `block` after the lines `pre` make up the item `chunk`: a line that begins without
white space and lines that continue it (or, at the beginning of a file, only such lines). -/
def BlockText (pre block : List Str) (chunk : Str) : Prop :=
  (∃ first rest c r, block = first :: rest ∧ effective first = c :: r ∧ isWs c = false ∧ Continuing rest ∧
    chunk = effective first ++ restOf rest) ∨
  (pre = [] ∧ Continuing block ∧ chunk = restOf block)

/-- Specification: `chunk` is an item of the text `t`. -/
def ItemOf (t chunk : Str) : Prop :=
  ∃ pre block post, lines t = pre ++ block ++ post ∧ BlockText pre block chunk ∧
    ∀ l c, post.head? = some l → (effective l).head? = some c → isWs c = false

/-- Specification: headers of entries that abort: only a date, or a `]` before the first `[` and none after. -/
def HeaderAborts (env : Env) (fmt h : Str) : Prop :=
  (∃ d date, splitWs (removeComments h) = [d] ∧ env.parseDate d fmt = some date) ∨
  (∃ d st ts date x m y, splitWs (removeComments h) = d :: st :: ts ∧ env.parseDate d fmt = some date ∧
    joinWith s%" " ts = x ++ ']' :: (m ++ '[' :: y) ∧ '[' ∉ x ++ m ∧ ']' ∉ m ++ y)

/-- Specification: what can abort when an envelope of a declared account meets an entry: a movement of it in
another currency, a posting of foreign money with a native price where the envelope is in native money, and a
schedule of which the last due date cannot be computed on this day. -/
inductive EnvelopeAborts (today : Date) (x : Entry M) (v : Envelope M) : Prop
  | foreign (p : EnvPosting M) : .envelope p ∈ x.postings → p.account = v.account → p.envelope = v.name →
      p.amount.sym ≠ v.amount.sym → EnvelopeAborts today x v
  | priced (p : Posting M) (a : Amount M) : p ∈ x.postings → (p.account = v.account ∨ p.account ∈ v.auto) →
      p.amount = some a → a.sym ≠ none → v.amount.sym = none → p.nativeValue ≠ none → EnvelopeAborts today x v
  | schedule : v.freq.lastDue today = .error .panic → EnvelopeAborts today x v

/-- Specification: the entries that abort: with a single posting, which has no amount; or one that a declared
envelope cannot take. -/
inductive EntryAborts (today : Date) (l : Ledger M) (x : Entry M) : Prop
  | blank (p : Posting M) : x.postings = [p] → p.amount = none → EntryAborts today l x
  | envelope (k : Str) (a : Account M) (v : Envelope M) : (k, a) ∈ l.accounts → v ∈ a.envelopes →
      EnvelopeAborts today x v → EntryAborts today l x

/-- Specification: the items that can abort loading: an account with a line in which there is only white space
or a comment; an entry with a bad header; an entry that aborts. -/
inductive ItemAborts (env : Env) (l : Ledger M) (chunk : Str) : Prop
  | account (line : Str) : (splitWs chunk).head? = some s%"account" → line ∈ (splitOn '\n' chunk).tail →
      splitWs (removeComments line) = [] → ItemAborts env l chunk
  | header (h : Str) : (lines (trim chunk)).head? = some h → HeaderAborts env l.dateFormat h →
      ItemAborts env l chunk
  | entry (x : Entry M) : Entry.parse env chunk l.dateFormat l.decimal l.accountNames = .ok x →
      EntryAborts env.today l x → ItemAborts env l chunk

/-! ### Envelopes -/

theorem applyAmount_panic (today date : Date) (e : Envelope M) (a : Amount M) (hc : e.OneCurrency)
    (h : e.applyAmount today a date = .error .panic) :
    a.sym ≠ e.amount.sym ∨ e.freq.lastDue today = .error .panic := by
  by_cases ha : a.sym = e.amount.sym
  · right
    obtain ⟨h1, h2⟩ := hc
    unfold Envelope.applyAmount at h
    simp only [Amount.add, h1, h2, ha, if_true, bind, Except.bind, pure, Except.pure] at h
    split at h
    · cases h
    · split at h
      · cases hl : e.freq.lastDue today with
        | error f => rw [hl] at h; simpa using h
        | ok o =>
          rw [hl] at h
          cases o with
          | none => cases h
          | some d =>
            simp only at h
            split at h <;> cases h
      · cases h
  · exact Or.inl ha

theorem applyAmount_same {today date : Date} {e e' : Envelope M} {a : Amount M} (hc : e.OneCurrency)
    (h : e.applyAmount today a date = .ok e') :
    e'.OneCurrency ∧ e'.account = e.account ∧ e'.name = e.name ∧ e'.amount = e.amount ∧ e'.freq = e.freq := by
  have hk := applyAmount_keeps _ _ _ _ _ h
  have hf := SameButMoney.fields hk.1
  refine ⟨?_, hf.2.1, hf.1, hf.2.2.1, hf.2.2.2.2.2.1⟩
  unfold Envelope.OneCurrency at hc ⊢
  rw [hk.2.1, hk.2.2.1, hf.2.2.1]
  exact hc

theorem processManual_panic (today date : Date) (ps : List (EnvPosting M)) (e : Envelope M) (hc : e.OneCurrency)
    (h : Envelope.processManual today date ps e = .error .panic) :
    (∃ p ∈ ps, p.account = e.account ∧ p.envelope = e.name ∧ p.amount.sym ≠ e.amount.sym) ∨
      e.freq.lastDue today = .error .panic := by
  induction ps generalizing e with
  | nil => cases h
  | cons p ps ih =>
    unfold Envelope.processManual at h
    split at h
    · rename_i hp
      simp only [bind, Except.bind] at h
      split at h
      · rename_i f hf
        cases h
        rcases applyAmount_panic today date e p.amount hc hf with h | h
        · exact Or.inl ⟨p, by simp, hp.1, hp.2.symm, h⟩
        · exact Or.inr h
      · rename_i e' he
        obtain ⟨h1, h2, h3, h4, h5⟩ := applyAmount_same hc he
        have := ih e' h1 h
        rw [h2, h3, h4, h5] at this
        rcases this with ⟨q, hq, hr⟩ | hr
        · exact Or.inl ⟨q, by simp [hq], hr⟩
        · exact Or.inr hr
    · rcases ih e hc h with ⟨q, hq, hr⟩ | hr
      · exact Or.inl ⟨q, by simp [hq], hr⟩
      · exact Or.inr hr

theorem mem_envelopePostings (x : Entry M) (p : EnvPosting M) (h : p ∈ x.envelopePostings) :
    .envelope p ∈ x.postings := by
  unfold Entry.envelopePostings at h
  obtain ⟨q, hq, hr⟩ := List.mem_filterMap.1 h
  cases q with
  | classic c => cases hr
  | envelope y => cases hr; exact hq

theorem nativeValue_blank (p : Posting M) (h : p.amount = none) : p.nativeValue = none := by
  cases p with
  | envelope y => rfl
  | classic c =>
    have h : c.amount = none := h
    simp [Posting.nativeValue, Classic.nativeValue, h]

theorem inferAmount_panic (e : Envelope M) (x : Entry M) (p : Posting M) (hp : p ∈ x.postings)
    (h : e.inferAmount x p = .error .panic) : x.postings ≠ [] ∧ ∀ p ∈ x.postings, p.amount = none := by
  rw [← C17_blank_amount_crashes_iff]
  unfold Envelope.inferAmount at h
  simp only [bind, Except.bind, pure, Except.pure] at h
  have fin : ∀ a : Amount M, (if a.sym = e.amount.sym then Except.ok a
      else if e.amount.sym.isSome = true then fail .processing
      else match p.nativeValue with
        | some m => Except.ok { a with mag := m }
        | none => fail .processing : Res (Amount M)) ≠ .error .panic := by
    intro a
    split
    · simp
    · split
      · simp [fail]
      · split <;> simp [fail]
  cases hpa : p.amount with
  | some a => rw [hpa] at h; exact absurd h (fin a)
  | none =>
    rw [hpa] at h
    simp only at h
    cases hb : x.blankAmount with
    | error f => rw [hb] at h; simpa using h
    | ok o =>
      obtain ⟨c, rfl⟩ := blankAmount_some x p hp hpa o hb
      rw [hb] at h
      exact absurd h (fin c)

theorem inferAmount_sym (e : Envelope M) (x : Entry M) (p : Posting M) (a : Amount M)
    (h : e.inferAmount x p = .ok a) : a.sym = e.amount.sym ∨
      (e.amount.sym = none ∧ p.nativeValue ≠ none ∧ ∃ b, p.amount = some b ∧ b.sym ≠ none) := by
  unfold Envelope.inferAmount at h
  simp only [bind, Except.bind, pure, Except.pure] at h
  cases hpa : p.amount with
  | some b =>
    rw [hpa] at h
    simp only at h
    split at h
    · rename_i hs; cases h; exact Or.inl hs
    · rename_i hs
      split at h
      · cases h
      · rename_i hn
        have hn : e.amount.sym = none := by simpa using hn
        split at h
        · rename_i m hm
          refine Or.inr ⟨hn, by simp [hm], b, rfl, ?_⟩
          rw [hn] at hs; exact hs
        · cases h
  | none =>
    rw [hpa, nativeValue_blank p hpa] at h
    simp only at h
    have fin : ∀ b : Amount M, (if b.sym = e.amount.sym then Except.ok b
        else if e.amount.sym.isSome = true then fail .processing else fail .processing : Res (Amount M)) = .ok a →
        a.sym = e.amount.sym := by
      intro b hb
      split at hb
      · rename_i hs; cases hb; exact hs
      · split at hb <;> cases hb
    cases hb : x.blankAmount with
    | error f => rw [hb] at h; cases h
    | ok o =>
      rw [hb] at h
      cases o with
      | none => cases h
      | some b => exact Or.inl (fin b h)

theorem inferLoop_panic (e : Envelope M) (x : Entry M) (ps : List (Posting M)) (hps : ∀ p ∈ ps, p ∈ x.postings)
    (s a : Amount M) (hs : s.sym = e.amount.sym) (ha : a.sym = e.amount.sym)
    (h : e.inferLoop x ps s a = .error .panic) :
    (x.postings ≠ [] ∧ ∀ p ∈ x.postings, p.amount = none) ∨
    ∃ p b, p ∈ x.postings ∧ (p.account = e.account ∨ p.account ∈ e.auto) ∧ p.amount = some b ∧ b.sym ≠ none ∧
      e.amount.sym = none ∧ p.nativeValue ≠ none := by
  induction ps generalizing s a with
  | nil => cases h
  | cons p ps ih =>
    have hp := hps p (by simp)
    have ih := ih fun q hq => hps q (by simp [hq])
    simp only [Envelope.inferLoop, bind, Except.bind] at h
    split at h
    · rename_i f hf
      cases h
      exact Or.inl (inferAmount_panic e x p hp hf)
    · rename_i b hb
      have hsym := inferAmount_sym e x p b hb
      split at h
      · rename_i hacc
        by_cases hbs : b.sym = e.amount.sym
        · simp only [Amount.add, hs, hbs, if_true] at h
          refine ih _ _ ?_ ha h; rfl
        · obtain ⟨h1, h2, c, h3, h4⟩ := hsym.resolve_left hbs
          exact Or.inr ⟨p, c, hp, Or.inl hacc, h3, h4, h1, h2⟩
      · split at h
        · rename_i hauto
          by_cases hbs : b.sym = e.amount.sym
          · simp only [Amount.add, ha, hbs, if_true] at h
            refine ih _ _ hs ?_ h; rfl
          · obtain ⟨h1, h2, c, h3, h4⟩ := hsym.resolve_left hbs
            exact Or.inr ⟨p, c, hp, Or.inr (by simpa using hauto), h3, h4, h1, h2⟩
        · exact ih _ _ hs ha h

/-- An envelope that aborts at an entry. -/
theorem envelope_panic (today : Date) (x : Entry M) (e : Envelope M) (hc : e.OneCurrency)
    (h : e.processEntry today x = .error .panic) :
    (x.postings ≠ [] ∧ ∀ p ∈ x.postings, p.amount = none) ∨ EnvelopeAborts today x e := by
  unfold Envelope.processEntry at h
  split at h
  · rcases processManual_panic today x.date _ e hc h with ⟨p, hp, h1, h2, h3⟩ | h
    · exact Or.inr (.foreign p (mem_envelopePostings x p hp) h1 h2 h3)
    · exact Or.inr (.schedule h)
  · unfold Envelope.infer at h
    simp only at h
    split at h
    · cases h
    · simp only [bind, Except.bind, pure, Except.pure] at h
      split at h
      · rename_i f hf
        cases h
        rcases inferLoop_panic e x x.postings (fun _ h => h) _ _ (by rfl) (by rfl) hf with h | ⟨p, b, h1, h2, h3, h4, h5, h6⟩
        · exact Or.inl h
        · exact Or.inr (.priced p b h1 h2 h3 h4 h5 h6)
      · split at h
        · rcases applyAmount_panic today x.date e _ hc h with h | h
          · exact absurd rfl h
          · exact Or.inr (.schedule h)
        · cases h

/-! ### Accounts and ledgers -/

theorem processEnvelopes_panic (today : Date) (x : Entry M) (es : List (Envelope M))
    (h : Account.processEnvelopes today x es = .error .panic) :
    ∃ e ∈ es, e.processEntry today x = .error .panic := by
  induction es with
  | nil => cases h
  | cons e es ih =>
    simp only [Account.processEnvelopes, bind, Except.bind, pure, Except.pure] at h
    split at h
    · rename_i f hf; cases h; exact ⟨e, by simp, hf⟩
    · split at h
      · rename_i f hf
        cases h
        obtain ⟨e', h1, h2⟩ := ih hf
        exact ⟨e', by simp [h1], h2⟩
      · cases h

theorem processReal_panic (name : Str) (x : Entry M) (ps : List (Posting M)) (r : Pool M)
    (h : Account.processReal name x ps r = .error .panic) : x.blankAmount = .error .panic := by
  induction ps generalizing r with
  | nil => cases h
  | cons p ps ih =>
    unfold Account.processReal at h
    split at h
    · split at h
      · exact ih _ h
      · simp only [bind, Except.bind] at h
        split at h
        · rename_i f hf; cases h; exact hf
        · split at h <;> exact ih _ h
    · exact ih _ h

theorem processEntry_panic (today : Date) (x : Entry M) (a : Account M) (hw : a.WF)
    (h : a.processEntry today x = .error .panic) :
    (x.postings ≠ [] ∧ ∀ p ∈ x.postings, p.amount = none) ∨ ∃ e ∈ a.envelopes, EnvelopeAborts today x e := by
  have henv : ∀ es : List (Envelope M), (∀ e ∈ es, e ∈ a.envelopes) →
      Account.processEnvelopes today x es = .error .panic →
      (x.postings ≠ [] ∧ ∀ p ∈ x.postings, p.amount = none) ∨ ∃ e ∈ a.envelopes, EnvelopeAborts today x e := by
    intro es hes h
    obtain ⟨e, h1, h2⟩ := processEnvelopes_panic today x es h
    rcases envelope_panic today x e (hw.currency e (hes e h1)) h2 with h | h
    · exact Or.inl h
    · exact Or.inr ⟨e, hes e h1, h⟩
  simp only [Account.processEntry, bind, Except.bind, pure, Except.pure] at h
  split at h
  · rename_i f hf; cases h; exact henv _ (by simp [Account.envelopes]; tauto) hf
  · split at h
    · rename_i f hf; cases h; exact henv _ (by simp [Account.envelopes]; tauto) hf
    · split at h
      · rename_i f hf
        cases h
        exact Or.inl ((C17_blank_amount_crashes_iff x).1 (processReal_panic _ _ _ _ hf))
      · cases h

theorem processAll_panic (today : Date) (x : Entry M) (as : List (Str × Account M))
    (h : Ledger.processAll today x as = .error .panic) :
    ∃ k a, (k, a) ∈ as ∧ a.processEntry today x = .error .panic := by
  induction as with
  | nil => cases h
  | cons ka as ih =>
    obtain ⟨k, a⟩ := ka
    simp only [Ledger.processAll, bind, Except.bind, pure, Except.pure] at h
    split at h
    · rename_i f hf; cases h; exact ⟨k, a, by simp, hf⟩
    · split at h
      · rename_i f hf
        cases h
        obtain ⟨k', a', h1, h2⟩ := ih hf
        exact ⟨k', a', by simp [h1], h2⟩
      · cases h

/-- An entry that aborts when it is added to a ledger. -/
theorem addEntry_panic (env : Env) (hord : FairOrder env.ord) (l : Ledger M) (hl : l.Inv) (x : Entry M)
    (hv : x.validate = .ok ()) (h : l.addEntry env x = .error .panic) : EntryAborts env.today l x := by
  have fin : ∀ as : List (Str × Account M), (∀ y ∈ as, y ∈ l.accounts) →
      Ledger.processAll env.today x as = .error .panic → EntryAborts env.today l x := by
    intro as has h
    obtain ⟨k, a, h1, h2⟩ := processAll_panic env.today x as h
    have h1 := has _ h1
    rcases processEntry_panic env.today x a (hl.wf k a h1) h2 with h | ⟨e, he, h⟩
    · obtain ⟨h3, h4⟩ := h
      have h5 := ((C15_validate_iff x).1.1 hv).1
      cases hp : x.postings with
      | nil => exact absurd hp h3
      | cons p ps =>
        rw [hp] at h4 h5
        cases ps with
        | nil => exact .blank p hp (h4 p (by simp))
        | cons q qs =>
          simp only [blankCount, List.countP_cons, h4 p (by simp), h4 q (by simp), Option.isNone_none, if_true] at h5
          omega
    · exact .envelope k a e h1 he h
  simp only [Ledger.addEntry, bind, Except.bind, pure, Except.pure] at h
  split at h
  · rename_i f hf
    cases h
    exact fin _ (fun y hy => (hord _ _).mem_iff.1 hy) hf
  · split at h
    · rename_i f hf; cases h; exact fin _ (fun _ h => h) hf
    · cases h

/-! ### The text of accounts -/

/-- A line in which nothing is left without comments. -/
def NoWords (l : Str) : Prop := splitWs (removeComments l) = []

theorem noWords_trimEnd {l : Str} (h : NoWords (trimEnd l)) : NoWords l := by
  unfold NoWords at h ⊢
  rw [← effective_tokens]; exact h

theorem noWords_stripCr {l : Str} (h : NoWords (stripCr l)) : NoWords l := by
  apply noWords_trimEnd
  rw [← stripCr_trimEnd]
  unfold NoWords at h ⊢
  rw [effective_tokens]; exact h

theorem mem_linesOf_tail (xs : List Str) (y : Str) (h : y ∈ (linesOf xs).tail) :
    ∃ z ∈ xs.tail, y = z ∨ y = stripCr z := by
  have key : ∀ (xs : List Str) (y : Str), y ∈ linesOf xs → ∃ z ∈ xs, y = z ∨ y = stripCr z := by
    intro xs
    induction xs with
    | nil => intro y h; cases h
    | cons x xs ih =>
      intro y h
      cases xs with
      | nil =>
        simp only [linesOf] at h
        split at h
        · cases h
        · exact ⟨x, by simp, Or.inl (by simpa using h)⟩
      | cons z zs =>
        rw [linesOf_cons] at h
        cases h with
        | head => exact ⟨x, by simp, Or.inr rfl⟩
        | tail _ h =>
          obtain ⟨u, hu, h⟩ := ih y h
          exact ⟨u, by simp at hu ⊢; tauto, h⟩
  cases xs with
  | nil => cases h
  | cons x xs =>
    cases xs with
    | nil =>
      simp only [linesOf] at h
      split at h <;> cases h
    | cons z zs =>
      rw [linesOf_cons] at h
      exact key _ _ h

theorem segTrim_tail (xs : List Str) (y : Str) (h : y ∈ (segTrim xs).tail) : y ∈ xs.tail := by
  induction xs with
  | nil => cases h
  | cons x xs ih =>
    cases xs with
    | nil => cases h
    | cons z zs =>
      rw [segTrim_cons] at h
      split at h
      · exact List.mem_of_mem_tail (ih h)
      · exact h

theorem segTrimR_split (xs : List Str) (h : xs ≠ []) :
    ∃ d x k, xs = d ++ x :: k ∧ segTrimR xs = trimEnd x :: k := by
  induction xs with
  | nil => exact absurd rfl h
  | cons x xs ih =>
    cases xs with
    | nil => exact ⟨[], x, [], rfl, rfl⟩
    | cons y ys =>
      have h1 : segTrimR (x :: y :: ys) = if allWs x then segTrimR (y :: ys) else trimEnd x :: y :: ys := rfl
      rw [h1]
      split
      · obtain ⟨d, z, k, h2, h3⟩ := ih (by simp)
        exact ⟨x :: d, z, k, by rw [h2]; rfl, h3⟩
      · exact ⟨[], x, y :: ys, rfl, rfl⟩

theorem segs_trim_tail (s : Str) (y : Str) (h : y ∈ (segs (trim s)).tail) :
    ∃ z ∈ (segs s).tail, y = z ∨ y = trimEnd z := by
  unfold trim at h
  rw [segs_trimEnd] at h
  obtain ⟨d, x, k, h1, h2⟩ := segTrimR_split (segs (trimStart s)).reverse (by simp [segs, splitOn_ne_nil])
  rw [h2] at h
  have h3 : segs (trimStart s) = k.reverse ++ x :: d.reverse := by
    have := congrArg List.reverse h1
    simpa using this
  have h4 : ∃ z ∈ (segs (trimStart s)).tail, y = z ∨ y = trimEnd z := by
    rw [h3]
    simp only [List.reverse_cons] at h
    cases hk : k.reverse with
    | nil => rw [hk] at h; cases h
    | cons a b =>
      rw [hk] at h
      simp at h
      rcases h with h | h
      · exact ⟨y, by simp [h], Or.inl rfl⟩
      · exact ⟨x, by simp, Or.inr h⟩
  obtain ⟨z, hz, h5⟩ := h4
  rw [segs_trimStart] at hz
  exact ⟨z, segTrim_tail _ _ hz, h5⟩

theorem amountParse_calm (t : Str) (dec : Char) : (Amount.parse t dec : Res (Amount M)) ≠ .error .panic := by
  unfold Amount.parse
  split
  · simp [fail]
  · split <;> simp [fail]

theorem frequencyParse_calm (env : Env) (t fmt : Str) (st : Option Date) :
    Frequency.parse env t fmt st ≠ .error .panic := by
  unfold Frequency.parse
  repeat' split
  all_goals simp [fail]

theorem fromHeader_calm (env : Env) (h fmt acc : Str) :
    (Envelope.fromHeader env h fmt acc : Res (Envelope M)) ≠ .error .panic := by
  unfold Envelope.fromHeader
  split
  · simp only [bind, Except.bind, pure, Except.pure]
    split
    · rename_i f hf
      unfold EnvelopeKind.parse at hf
      repeat' split at hf
      all_goals cases hf
      all_goals simp
    · split
      · rename_i f hf
        unfold Envelope.extractStarting at hf
        repeat' split at hf
        all_goals cases hf
        all_goals simp
      · have hx : ∀ h' st, Envelope.extractFrequency env h' fmt st ≠ .error .panic := by
          intro h' st
          unfold Envelope.extractFrequency
          simp only
          split
          · simp
          · split
            · exact frequencyParse_calm _ _ _ _
            · split
              · exact frequencyParse_calm _ _ _ _
              · simp [fail]
        split
        · rename_i f hf
          intro h
          cases h
          exact hx _ _ hf
        · simp
  · simp [fail]

theorem addBodyLine_panic (e : Envelope M) (dec : Char) (l : Str) (h : e.addBodyLine dec l = .error .panic) :
    NoWords l := by
  unfold Envelope.addBodyLine at h
  simp only at h
  unfold NoWords
  rw [splitWs_trim] at h
  cases hs : splitWs (removeComments l) with
  | nil => rfl
  | cons key more =>
    exfalso
    rw [hs] at h
    simp only at h
    split at h
    · cases h
    · split at h
      · cases h
      · split at h
        · unfold Envelope.addAccount at h
          split at h <;> cases h
        · split at h
          · simp only [bind, Except.bind, pure, Except.pure] at h
            split at h
            · rename_i f hf; cases h; exact amountParse_calm _ _ hf
            · cases h
          · split at h
            · simp only [bind, Except.bind, pure, Except.pure] at h
              split at h
              · rename_i f hf
                cases h
                unfold Funding.parse at hf
                simp only at hf
                repeat' split at hf
                all_goals cases hf
              · cases h
            · cases h

theorem addBody_panic (dec : Char) (ls : List Str) (e : Envelope M)
    (h : Envelope.addBody dec ls e = .error .panic) : ∃ l ∈ ls, NoWords l := by
  induction ls generalizing e with
  | nil => cases h
  | cons l ls ih =>
    simp only [Envelope.addBody, bind, Except.bind] at h
    split at h
    · rename_i f hf; cases h; exact ⟨l, by simp, addBodyLine_panic e dec l hf⟩
    · obtain ⟨x, h1, h2⟩ := ih _ h
      exact ⟨x, by simp [h1], h2⟩

theorem envelopeParse_panic (env : Env) (chunk acc : Str) (dec : Char) (fmt : Str)
    (h : (Envelope.parse env chunk acc dec fmt : Res (Envelope M)) = .error .panic) :
    ∃ l ∈ (segs chunk).tail, NoWords l := by
  unfold Envelope.parse at h
  split at h
  · cases h
  · rename_i first rest hl
    simp only [bind, Except.bind] at h
    split at h
    · rename_i f hf
      cases h
      exact absurd hf (fromHeader_calm _ _ _ _)
    · obtain ⟨l, h1, h2⟩ := addBody_panic _ _ _ h
      have hrest : rest ≠ [] := by rintro rfl; cases h1
      have hnl : ∀ x ∈ rest, noNl x := fun x hx => lines_noNl (trim chunk) x (by rw [hl]; simp [hx])
      have h3 : ∃ z ∈ rest, NoWords z := by
        rw [lines_segs, segs_join rest hnl hrest] at h1
        have : ∃ z ∈ rest, l = z ∨ l = stripCr z := by
          obtain ⟨z, hz, h⟩ := mem_linesOf_tail ([] :: rest) l (by
            cases rest with
            | nil => exact absurd rfl hrest
            | cons a b => rw [linesOf_cons]; exact h1)
          exact ⟨z, hz, h⟩
        obtain ⟨z, hz, rfl | rfl⟩ := this
        · exact ⟨_, hz, h2⟩
        · exact ⟨_, hz, noWords_stripCr h2⟩
      obtain ⟨z, hz, h4⟩ := h3
      have h5 : z ∈ (lines (trim chunk)).tail := by rw [hl]; exact hz
      rw [lines_segs] at h5
      obtain ⟨u, hu, h6⟩ := mem_linesOf_tail _ _ h5
      have h7 : NoWords u := by
        rcases h6 with rfl | rfl
        · exact h4
        · exact noWords_stripCr h4
      obtain ⟨v, hv, rfl | rfl⟩ := segs_trim_tail chunk u hu
      · exact ⟨_, hv, h7⟩
      · exact ⟨_, hv, noWords_trimEnd h7⟩

theorem flush_panic (env : Env) (a : Account M) (chunk : Str) (dec : Char) (fmt : Str)
    (h : a.flush env chunk dec fmt = .error .panic) : ∃ l ∈ (segs chunk).tail, NoWords l := by
  unfold Account.flush at h
  split at h
  · cases h
  · simp only [bind, Except.bind] at h
    split at h
    · rename_i f hf; cases h; exact envelopeParse_panic env chunk a.name dec fmt hf
    · unfold Account.addEnvelope at h
      split at h <;> split at h <;> cases h

theorem parseLines_panic (env : Env) (dec : Char) (fmt : Str) (ls : List Str) (hls : ∀ l ∈ ls, noNl l)
    (a : Account M) (chunk : Str) (h : Account.parseLines env dec fmt ls a chunk = .error .panic) :
    ∃ l, (l ∈ (segs chunk).tail ∨ l ∈ ls) ∧ NoWords l := by
  induction ls generalizing a chunk with
  | nil =>
    obtain ⟨l, h1, h2⟩ := flush_panic env a chunk dec fmt h
    exact ⟨l, Or.inl h1, h2⟩
  | cons x ls ih =>
    have hx := hls x (by simp)
    have ih := ih fun l hl => hls l (by simp [hl])
    unfold Account.parseLines at h
    split at h
    · simp only [bind, Except.bind] at h
      split at h
      · rename_i f hf
        cases h
        obtain ⟨l, h1, h2⟩ := flush_panic env a chunk dec fmt hf
        exact ⟨l, Or.inl h1, h2⟩
      · obtain ⟨l, h1, h2⟩ := ih _ _ h
        refine ⟨l, ?_, h2⟩
        rw [show segs x = [x] from splitOn_none hx] at h1
        rcases h1 with h1 | h1
        · cases h1
        · exact Or.inr (by simp [h1])
    · obtain ⟨l, h1, h2⟩ := ih _ _ h
      refine ⟨l, ?_, h2⟩
      rcases h1 with h1 | h1
      · rw [show segs (chunk ++ '\n' :: x) = segs chunk ++ [x] by
          show splitOn _ _ = _
          rw [splitOn_append, splitOn_none hx]] at h1
        cases hs : segs chunk with
        | nil => exact absurd hs (splitOn_ne_nil _ _)
        | cons u us =>
          rw [hs] at h1
          simp at h1
          rcases h1 with h1 | h1
          · exact Or.inl (by simpa using h1)
          · exact Or.inr (by simp [h1])
      · exact Or.inr (by simp [h1])

theorem accountParse_panic (env : Env) (chunk : Str) (dec : Char) (fmt : Str)
    (h : (Account.parse env chunk dec fmt : Res (Account M)) = .error .panic) :
    ∃ l ∈ (segs chunk).tail, NoWords l := by
  unfold Account.parse at h
  split at h
  · cases h
  · rename_i hd ls hl
    simp only [bind, Except.bind] at h
    split at h
    · rename_i f hf
      cases h
      unfold Account.parseHeader at hf
      split at hf <;> cases hf
    · obtain ⟨l, h1, h2⟩ := parseLines_panic env dec fmt ls
        (fun x hx => lines_noNl chunk x (by rw [hl]; simp [hx])) _ _ h
      have h1 : l ∈ ls := h1.resolve_left (by simp [segs, splitOn])
      have h3 : l ∈ (lines chunk).tail := by rw [hl]; exact h1
      rw [lines_segs] at h3
      obtain ⟨z, hz, rfl | rfl⟩ := mem_linesOf_tail _ _ h3
      · exact ⟨_, hz, h2⟩
      · exact ⟨_, hz, noWords_stripCr h2⟩

/-! ### The text of entries -/

theorem extractAmount_calm (toks : List Str) (dec : Char) (want : Str) (stop : Str → Bool) :
    (extractAmount toks dec want stop : Res (Option (Amount M))) ≠ .error .panic := by
  unfold extractAmount
  split
  · simp
  · simp only [bind, Except.bind, pure, Except.pure]
    split
    · rename_i f hf
      intro h; cases h
      exact amountParse_calm _ _ hf
    · simp

theorem postingParse_calm (line : Str) (dec : Char) (accs : List Str) :
    (Posting.parse line dec accs : Res (Posting M)) ≠ .error .panic := by
  unfold Posting.parse
  simp only
  cases hs : splitWs (trim (removeComments line)) with
  | nil => simp [fail]
  | cons t ts =>
    simp only
    split
    · simp only [bind, Except.bind, pure, Except.pure]
      split
      · rename_i f hf
        intro h; cases h
        unfold EnvPosting.parse at hf
        split at hf
        · cases hf
        · cases hf
        · simp only [bind, Except.bind, pure, Except.pure] at hf
          split at hf
          · rename_i g hg; cases hf; exact amountParse_calm _ _ hg
          · cases hf
      · simp
    · simp only [bind, Except.bind, pure, Except.pure]
      split
      · rename_i f hf
        intro h; cases h
        unfold Classic.parse at hf
        have h2 : splitWs (trim (removeComments (trim (removeComments line)))) = t :: ts := by
          rw [splitWs_trim, removeComments_eq_rc, removeComments_eq_rc, splitWs_rc_trim, rc_idem, ← removeComments_eq_rc,
            ← splitWs_trim, hs]
        rw [h2] at hf
        simp only [bind, Except.bind, pure, Except.pure] at hf
        split at hf
        · rename_i g hg
          cases hf
          unfold Classic.parseAmount at hg
          simp only at hg
          split at hg
          · cases hg
          · simp only [bind, Except.bind, pure, Except.pure] at hg
            split at hg
            · rename_i g' hg'; cases hg; exact amountParse_calm _ _ hg'
            · cases hg
        · split at hf
          · rename_i g hg
            cases hf
            exact extractAmount_calm _ _ _ _ hg
          · split at hf
            · rename_i g hg
              cases hf
              unfold Classic.parseCost Classic.parsePrice Classic.parseTotal at hg
              simp only [bind, Except.bind, pure, Except.pure] at hg
              split at hg
              · rename_i g' hg'
                cases hg
                split at hg'
                · rename_i g'' hg''; cases hg'; exact extractAmount_calm _ _ _ _ hg''
                · cases hg'
              · split at hg
                · cases hg
                · split at hg
                  · rename_i g'' hg''; cases hg; exact extractAmount_calm _ _ _ _ hg''
                  · cases hg
            · split at hf <;> cases hf
      · simp

theorem parsePostings_calm (dec : Char) (accs : List Str) (ls : List Str) :
    (Entry.parsePostings dec accs ls : Res (List (Posting M))) ≠ .error .panic := by
  induction ls with
  | nil => simp [Entry.parsePostings]
  | cons l ls ih =>
    unfold Entry.parsePostings
    split
    · exact ih
    · simp only [bind, Except.bind, pure, Except.pure]
      split
      · rename_i f hf; intro h; cases h; exact postingParse_calm _ _ _ hf
      · split
        · rename_i f hf; intro h; cases h; exact ih hf
        · simp

theorem validate_calm (e : Entry M) : e.validate ≠ .error .panic := by
  have key : ∀ (ps : List (Posting M)) (n : Nat) (ss : List Str), validateLoop ps n ss ≠ .error .panic := by
    intro ps
    induction ps with
    | nil => intro n ss; simp [validateLoop]
    | cons p ps ih =>
      intro n ss
      unfold validateLoop
      split
      · split <;> exact ih _ _
      · split
        · simp [fail]
        · exact ih _ _
  unfold Entry.validate
  simp only [bind, Except.bind, pure, Except.pure]
  split
  · rename_i f hf; intro h; cases h; exact key _ _ _ hf
  · split <;> simp [fail]

theorem parseDescription_panic (j : Str) (h : parseDescription j = .error .panic) :
    ∃ x m y, j = x ++ ']' :: (m ++ '[' :: y) ∧ '[' ∉ x ++ m ∧ ']' ∉ m ++ y := by
  by_cases ho : '[' ∈ j
  · by_cases hc : ']' ∈ j
    · obtain ⟨x, r, rfl, hx⟩ := split_first ho
      obtain ⟨q, y, e, hy⟩ := split_last hc
      rcases List.append_eq_append_iff.1 e with ⟨u, e1, e2⟩ | ⟨u, e1, e2⟩
      · cases u with
        | nil => simp at e2
        | cons v u =>
          simp only [List.cons_append, List.cons.injEq] at e2
          obtain ⟨rfl, rfl⟩ := e2
          rw [parseDescription_payee hx hy] at h
          cases h
      · cases u with
        | nil => simp at e2
        | cons v u =>
          simp only [List.cons_append, List.cons.injEq] at e2
          obtain ⟨rfl, rfl⟩ := e2
          subst e1
          refine ⟨q, u, r, by simp, ?_, ?_⟩
          · simp at hx ⊢; tauto
          · simp at hy ⊢; tauto
    · rw [parseDescription_open ho hc] at h; cases h
  · rw [parseDescription_plain ho] at h; cases h

theorem parseHeader_panic (env : Env) (hd fmt : Str)
    (h : (Entry.parseHeader env hd fmt : Res (Entry M)) = .error .panic) : HeaderAborts env fmt hd := by
  unfold Entry.parseHeader at h
  cases hs : splitWs (removeComments hd) with
  | nil => rw [hs] at h; cases h
  | cons t0 rest =>
    rw [hs] at h
    simp only at h
    cases hdt : env.parseDate t0 fmt with
    | none => rw [hdt] at h; cases h
    | some date =>
      rw [hdt] at h
      simp only at h
      cases rest with
      | nil => exact Or.inl ⟨t0, date, hs, hdt⟩
      | cons t1 toks =>
        simp only [bind, Except.bind, pure, Except.pure] at h
        split at h
        · rename_i f hf
          cases h
          unfold Status.parse at hf
          repeat' split at hf
          all_goals cases hf
        · split at h
          · rename_i f hf
            cases h
            obtain ⟨x, m, y, h1, h2, h3⟩ := parseDescription_panic _ hf
            exact Or.inr ⟨t0, t1, toks, date, x, m, y, hs, hdt, h1, h2, h3⟩
          · cases h

theorem entryParse_panic (env : Env) (chunk fmt : Str) (dec : Char) (accs : List Str)
    (h : (Entry.parse env chunk fmt dec accs : Res (Entry M)) = .error .panic) :
    ∃ hd, (lines (trim chunk)).head? = some hd ∧ HeaderAborts env fmt hd := by
  unfold Entry.parse at h
  simp only at h
  split at h
  · cases h
  · split at h
    · cases h
    · rename_i l ls hl
      simp only [bind, Except.bind, pure, Except.pure] at h
      split at h
      · rename_i f hf
        cases h
        exact ⟨l, by rw [hl]; rfl, parseHeader_panic env l fmt hf⟩
      · split at h
        · rename_i f hf; cases h; exact absurd hf (parsePostings_calm _ _ _)
        · split at h
          · rename_i f hf; cases h; exact absurd hf (validate_calm _)
          · cases h

/-! ### Items and files -/

theorem parseChunk_panic (env : Env) (hord : FairOrder env.ord)
    (inc : Ledger M × World → Str → Res (Ledger M × World)) (st : Ledger M × World) (hl : st.1.Inv) (chunk : Str)
    (h : Ledger.parseChunk env inc st chunk = .error .panic) :
    ItemAborts env st.1 chunk ∨
      ∃ v more, splitWs chunk = s%"include" :: v :: more ∧ inc st v = .error .panic := by
  unfold Ledger.parseChunk at h
  split at h
  · cases h
  · cases hs : splitWs chunk with
    | nil => rw [hs] at h; cases h
    | cons kw rest =>
      rw [hs] at h
      simp only at h
      split at h
      · rename_i hk
        subst hk
        simp only [bind, Except.bind, pure, Except.pure, Ledger.parseAccount] at h
        cases ha : (Account.parse env chunk st.1.decimal st.1.dateFormat : Res (Account M)) with
        | error f =>
          rw [ha] at h
          cases h
          obtain ⟨l, h1, h2⟩ := accountParse_panic env chunk _ _ ha
          exact Or.inl (.account l (by rw [hs]; rfl) h1 h2)
        | ok a => rw [ha] at h; cases h
      · split at h
        · split at h <;> cases h
        · split at h
          · split at h <;> cases h
          · split at h
            · rename_i hk
              subst hk
              cases rest with
              | nil => cases h
              | cons v more => exact Or.inr ⟨v, more, rfl, h⟩
            · simp only [bind, Except.bind, pure, Except.pure, Ledger.parseEntry] at h
              cases he : (Entry.parse env chunk st.1.dateFormat st.1.decimal st.1.accountNames : Res (Entry M)) with
              | error f =>
                rw [he] at h
                cases h
                obtain ⟨hd, h1, h2⟩ := entryParse_panic env chunk _ _ _ he
                exact Or.inl (.header hd h1 h2)
              | ok x =>
                rw [he] at h
                simp only at h
                split at h
                · rename_i f hf
                  cases h
                  exact Or.inl (.entry x he (addEntry_panic env hord st.1 hl x (Entry.parse_ok _ _ _ _ _ _ he).2 hf))
                · cases h

theorem Continuing.snoc {ls : List Str} (h : Continuing ls) {l : Str}
    (hl : ∀ c, (effective l).head? = some c → isWs c = true) : Continuing (ls ++ [l]) := by
  intro x hx
  rcases List.mem_append.1 hx with hx | hx
  · exact h x hx
  · rw [List.mem_singleton.1 hx]; exact hl

theorem restOf_snoc (ls : List Str) (l : Str) :
    restOf (ls ++ [l]) = restOf ls ++ if effective l = [] then [] else '\n' :: effective l := by
  unfold restOf
  rw [List.filter_append, List.flatMap_append]
  congr 1
  by_cases h : effective l = [] <;> simp [h]

theorem BlockText.snoc {pre block : List Str} {chunk : Str} (h : BlockText pre block chunk) {l : Str}
    (hl : ∀ c, (effective l).head? = some c → isWs c = true) :
    BlockText pre (block ++ [l]) (chunk ++ if effective l = [] then [] else '\n' :: effective l) := by
  rcases h with ⟨first, rest, c, r, rfl, h1, h2, h3, rfl⟩ | ⟨rfl, h1, rfl⟩
  · exact Or.inl ⟨first, rest ++ [l], c, r, rfl, h1, h2, h3.snoc hl, by rw [restOf_snoc]; simp⟩
  · exact Or.inr ⟨rfl, h1.snoc hl, by rw [restOf_snoc]⟩

/-- Specification: what an item does to the ledger. -/
inductive Reading (env : Env) (chunk : Str) (l : Ledger M) : Ledger M → Prop
  | account (a : Account M) : (splitWs chunk).head? = some s%"account" →
      Account.parse env chunk l.decimal l.dateFormat = .ok a →
      Reading env chunk l { l with accounts := mapInsert l.accounts a.name a }
  | currency (v : Str) (more : List Str) : splitWs chunk = s%"currency" :: v :: more →
      Reading env chunk l { l with currency := v }
  | dateFormat (v : Str) (more : List Str) : splitWs chunk = s%"date_format" :: v :: more →
      Reading env chunk l { l with dateFormat := v }
  | entry (kw : Str) (x : Entry M) (l' : Ledger M) : (splitWs chunk).head? = some kw →
      kw ∉ [s%"account", s%"currency", s%"date_format", s%"include"] →
      Entry.parse env chunk l.dateFormat l.decimal l.accountNames = .ok x → l.addEntry env x = .ok l' →
      Reading env chunk l l'

/-- Specification: items of the files are read one after the other. -/
inductive Reads (env : Env) (w : World) (l : Ledger M) : Ledger M → Prop
  | refl : Reads env w l l
  | tail (l1 l2 : Ledger M) (P : APath) (t chunk : Str) : Reads env w l l1 → w.file P = some t → ItemOf t chunk →
      Reading env chunk l1 l2 → Reads env w l l2

theorem Reads.trans {env : Env} {w : World} {l1 l2 l3 : Ledger M} (h : Reads env w l1 l2) (h' : Reads env w l2 l3) :
    Reads env w l1 l3 := by
  induction h' with
  | refl => exact h
  | tail a b P t chunk _ h2 h3 h4 ih => exact .tail a b P t chunk ih h2 h3 h4

theorem Reading.step {env : Env} {chunk : Str} {l l' : Ledger M} (h : Reading env chunk l l') :
    ∃ i, Step env l i l' := by
  cases h with
  | account a _ h => exact ⟨_, .account l chunk a h⟩
  | currency v _ _ => exact ⟨_, .currency l v⟩
  | dateFormat v _ _ => exact ⟨_, .dateFormat l v⟩
  | entry kw x _ _ _ h1 h2 => exact ⟨_, .entry l l' chunk x h1 h2⟩

theorem Reads.inv {env : Env} {w : World} {l l' : Ledger M} (h : Reads env w l l') (hl : l.Inv) : l'.Inv := by
  induction h with
  | refl => exact hl
  | tail a b P t chunk _ _ _ h4 ih =>
    obtain ⟨i, hi⟩ := h4.step
    exact step_inv env _ _ i ih hi

theorem parseChunk_reading (env : Env) (inc : Ledger M × World → Str → Res (Ledger M × World))
    (st st' : Ledger M × World) (chunk : Str) (h : Ledger.parseChunk env inc st chunk = .ok st') :
    (splitWs chunk = [] ∧ st' = st) ∨ (Reading env chunk st.1 st'.1 ∧ st'.2 = st.2) ∨
      ∃ v more, splitWs chunk = s%"include" :: v :: more ∧ inc st v = .ok st' := by
  unfold Ledger.parseChunk at h
  split at h
  · rename_i hc
    cases h; exact Or.inl ⟨by rw [List.isEmpty_iff.1 hc]; rfl, rfl⟩
  · cases hs : splitWs chunk with
    | nil => rw [hs] at h; cases h; exact Or.inl ⟨rfl, rfl⟩
    | cons kw rest =>
      rw [hs] at h
      simp only at h
      right
      split at h
      · rename_i hk
        subst hk
        simp only [bind, Except.bind, pure, Except.pure, Ledger.parseAccount] at h
        cases ha : (Account.parse env chunk st.1.decimal st.1.dateFormat : Res (Account M)) with
        | error f => rw [ha] at h; cases h
        | ok a => rw [ha] at h; cases h; exact Or.inl ⟨.account a (by rw [hs]; rfl) ha, rfl⟩
      · rename_i h1
        split at h
        · rename_i hk
          subst hk
          cases rest with
          | nil => cases h
          | cons v more => cases h; exact Or.inl ⟨.currency v more hs, rfl⟩
        · rename_i h2
          split at h
          · rename_i hk
            subst hk
            cases rest with
            | nil => cases h
            | cons v more => cases h; exact Or.inl ⟨.dateFormat v more hs, rfl⟩
          · rename_i h3
            split at h
            · rename_i hk
              subst hk
              cases rest with
              | nil => cases h
              | cons v more => exact Or.inr ⟨v, more, rfl, h⟩
            · rename_i h4
              simp only [bind, Except.bind, pure, Except.pure, Ledger.parseEntry] at h
              cases he : (Entry.parse env chunk st.1.dateFormat st.1.decimal st.1.accountNames : Res (Entry M)) with
              | error f => rw [he] at h; cases h
              | ok x =>
                rw [he] at h
                simp only at h
                split at h
                · cases h
                · rename_i l' hl'
                  cases h
                  exact Or.inl ⟨.entry kw x l' (by rw [hs]; rfl) (by simp [h1, h2, h3, h4]) he hl', rfl⟩

/-- Somewhere in the files there is an item that aborts, given the ledger read so far. -/
def Blamed (env : Env) (w : World) (l : Ledger M) : Prop :=
  ∃ P t chunk, w.file P = some t ∧ ItemOf t chunk ∧ ItemAborts env l chunk

/-- What can come of reading: a ledger read from the files, an error, or an abort for which an item is to
blame. -/
def Accounted (env : Env) (w : World) (st : Ledger M × World) : Res (Ledger M × World) → Prop
  | .ok st' => Reads env w st.1 st'.1 ∧ st'.2.file = w.file
  | .error (.err _) => True
  | .error .panic => ∃ l, Reads env w st.1 l ∧ Blamed env w l

theorem addLinesFrom_accounted (env : Env) (hord : FairOrder env.ord) (w : World) (P : APath) (t : Str)
    (ht : w.file P = some t) (inc : Ledger M × World → Str → Res (Ledger M × World))
    (hinc : ∀ st v chunk more, st.1.Inv → st.2.file = w.file → ItemOf t chunk →
      splitWs chunk = s%"include" :: v :: more → Accounted env w st (inc st v))
    (ls pre block : List Str) (chunk : Str) (hls : lines t = pre ++ block ++ ls) (hb : BlockText pre block chunk)
    (st : Ledger M × World) (hst : st.1.Inv) (hw : st.2.file = w.file) :
    Accounted env w st (Ledger.addLinesFrom env inc ls st chunk) := by
  have item : ∀ (st : Ledger M × World) (post pre block : List Str) (chunk : Str), st.1.Inv → st.2.file = w.file →
      lines t = pre ++ block ++ post → BlockText pre block chunk →
      (∀ l c, post.head? = some l → (effective l).head? = some c → isWs c = false) →
      Accounted env w st (Ledger.parseChunk env inc st chunk) := by
    intro st post pre block chunk hst hw h1 h2 h3
    have hi : ItemOf t chunk := ⟨pre, block, post, h1, h2, h3⟩
    cases h : Ledger.parseChunk env inc st chunk with
    | ok st' =>
      rcases parseChunk_reading env inc st st' chunk h with ⟨_, rfl⟩ | ⟨h4, h5⟩ | ⟨v, more, h4, h5⟩
      · exact ⟨.refl, hw⟩
      · exact ⟨.tail _ _ P t chunk .refl ht hi h4, by rw [h5]; exact hw⟩
      · have := hinc st v chunk more hst hw hi h4
        rw [h5] at this
        exact this
    | error f =>
      cases f with
      | err k => trivial
      | panic =>
        rcases parseChunk_panic env hord inc st hst chunk h with h | ⟨v, more, h4, h5⟩
        · exact ⟨st.1, .refl, P, t, chunk, ht, hi, h⟩
        · have := hinc st v chunk more hst hw hi h4
          rw [h5] at this
          exact this
  induction ls generalizing pre block chunk st with
  | nil => exact item st [] pre block chunk hst hw hls hb (by intro l c hl; cases hl)
  | cons l ls ih =>
    simp only [Ledger.addLinesFrom]
    change Accounted env w st (match effective l with
      | [] => Ledger.addLinesFrom env inc ls st chunk
      | c :: _ => if isWs c then Ledger.addLinesFrom env inc ls st (chunk ++ '\n' :: effective l)
          else do
            let st ← Ledger.parseChunk env inc st chunk
            Ledger.addLinesFrom env inc ls st (effective l))
    cases he : effective l with
    | nil =>
      have := hb.snoc (l := l) (by rw [he]; intro c hc; cases hc)
      rw [if_pos he, List.append_nil] at this
      exact ih pre (block ++ [l]) chunk (by rw [hls]; simp) this st hst hw
    | cons c r =>
      simp only
      split
      · rename_i hc
        have := hb.snoc (l := l) (by rw [he]; intro c' hc'; cases hc'; exact hc)
        rw [if_neg (by rw [he]; simp), he] at this
        exact ih pre (block ++ [l]) _ (by rw [hls]; simp) this st hst hw
      · rename_i hc
        have hc : isWs c = false := by simpa using hc
        have hi := item st (l :: ls) pre block chunk hst hw hls hb (by
            intro l' c' h1 h2; cases h1; rw [he] at h2; cases h2; exact hc)
        simp only [bind, Except.bind]
        cases h : Ledger.parseChunk env inc st chunk with
        | error f => rw [h] at hi; exact hi
        | ok st1 =>
          rw [h] at hi
          have h2 := ih (pre ++ block) [l] (c :: r) (by rw [hls]; simp)
            (Or.inl ⟨l, [], c, r, rfl, he, hc, (by intro x hx; cases hx), by rw [he]; simp [restOf]⟩) st1
            (hi.1.inv hst) hi.2
          simp only
          cases h3 : Ledger.addLinesFrom env inc ls st1 (c :: r) with
          | ok st2 => rw [h3] at h2; exact ⟨hi.1.trans h2.1, h2.2⟩
          | error f =>
            rw [h3] at h2
            cases f with
            | err k => trivial
            | panic => obtain ⟨l', h4, h5⟩ := h2; exact ⟨l', hi.1.trans h4, h5⟩

/-- Specification: the files include each other in no cycle: there is a number for each file, smaller for those
that it includes. (A relative path can mean different files, see C54.) -/
def NoCycle (w : World) (rank : APath → Nat) : Prop :=
  ∀ P t chunk v more, w.file P = some t → ItemOf t chunk → splitWs chunk = s%"include" :: v :: more →
    ∀ c, rank (resolve c v) < rank P

theorem addFromFile_accounted (env : Env) (hord : FairOrder env.ord) (w : World) (rank : APath → Nat)
    (hc : NoCycle w rank) (fuel : Nat) (path : Str) (st : Ledger M × World) (hst : st.1.Inv)
    (hw : st.2.file = w.file) (hf : rank (resolve st.2.cwd path) < fuel) :
    Accounted env w st (Ledger.addFromFile env fuel st path) := by
  induction fuel generalizing path st with
  | zero => omega
  | succ f ih =>
    rw [Ledger.addFromFile]
    cases hr : st.2.read path with
    | none => trivial
    | some t =>
      have ht : w.file (resolve st.2.cwd path) = some t := by
        unfold World.read at hr
        split at hr
        · rw [← hw]; exact hr
        · cases hr
      exact addLinesFrom_accounted env hord w _ t ht _
        (fun st' v chunk more h1 h2 h3 h4 => ih v st' h1 h2 (by
          have := hc _ t chunk v more ht h3 h4 st'.2.cwd
          omega))
        (lines t) [] [] [] rfl (Or.inr ⟨rfl, (by intro x hx; cases hx), rfl⟩) (st.1, st.2.cdParent path) hst hw

/-! ### C87 -/

/-- C87. If loading a journal aborts, whose files include each other in no cycle, one of its items is to blame:
with the ledger of some items of its files, it is an account with a comment between the lines of an envelope,
an entry with a bad header, an entry whose single posting has no amount, or one with which an envelope meets
another currency or has a schedule without last due date. Everything else that is wrong with a journal is
reported as an error. -/
theorem C87_what_aborts_partial (env : Env) (hord : FairOrder env.ord) (w : World) (rank : APath → Nat)
    (hc : NoCycle w rank) (fuel : Nat) (path : Str) (hf : rank (resolve w.cwd path) < fuel)
    (h : (Ledger.fromFile env fuel w path : Res (Ledger M × World)) = .error .panic) :
    ∃ (l : Ledger M) (P : APath) (t chunk : Str), Reads env w (Ledger.new path) l ∧ w.file P = some t ∧
      ItemOf t chunk ∧ ItemAborts env l chunk := by
  have := addFromFile_accounted (M := M) env hord w rank hc fuel path (Ledger.new path, w) (new_inv path) rfl hf
  rw [show Ledger.addFromFile env fuel (Ledger.new path, w) path
    = (Ledger.fromFile env fuel w path : Res (Ledger M × World)) from rfl, h] at this
  obtain ⟨l, h1, P, t, chunk, h2, h3, h4⟩ := this
  exact ⟨l, P, t, chunk, h1, h2, h3, h4⟩

/-- Specification: an item of a journal without envelopes, in which every entry has a header of at least two
words without `]`, and the number of its postings is not one. -/
structure PlainItem (chunk : Str) : Prop where
  account : (splitWs chunk).head? = some s%"account" → '\n' ∉ chunk
  header : ∀ hd, (lines (trim chunk)).head? = some hd → 2 ≤ (splitWs (removeComments hd)).length ∧
    ∀ w ∈ splitWs (removeComments hd), ']' ∉ w
  postings : ((lines (trim chunk)).tail.filter fun l => !(trim l).isEmpty).length ≠ 1

theorem parsePostings_count (dec : Char) (accs : List Str) (ls : List Str) (ps : List (Posting M))
    (h : Entry.parsePostings dec accs ls = .ok ps) : ps.length = (ls.filter fun l => !(trim l).isEmpty).length := by
  induction ls generalizing ps with
  | nil => cases h; rfl
  | cons l ls ih =>
    rw [Entry.parsePostings] at h
    split at h
    · rename_i hl
      rw [ih ps h, List.filter_cons_of_neg (by simpa using hl)]
    · rename_i hl
      simp only [bind, Except.bind, pure, Except.pure] at h
      split at h
      · cases h
      · split at h
        · cases h
        · rename_i ps' hps
          cases h
          rw [List.filter_cons_of_pos (by simpa using hl), List.length_cons, List.length_cons, ih ps' hps]

theorem entryParse_count (env : Env) (chunk fmt : Str) (dec : Char) (accs : List Str) (x : Entry M)
    (h : Entry.parse env chunk fmt dec accs = .ok x) :
    x.postings.length = ((lines (trim chunk)).tail.filter fun l => !(trim l).isEmpty).length := by
  unfold Entry.parse at h
  simp only at h
  split at h
  · cases h
  · split at h
    · cases h
    · rename_i l ls hl
      rw [hl]
      simp only [bind, Except.bind, pure, Except.pure] at h
      split at h
      · cases h
      · split at h
        · cases h
        · rename_i ps hps
          split at h
          · cases h
          · cases h
            exact parsePostings_count _ _ _ _ hps

theorem mem_joinWith {sep : Str} {ts : List Str} {c : Char} (h : c ∈ joinWith sep ts) :
    c ∈ sep ∨ ∃ t ∈ ts, c ∈ t := by
  induction ts with
  | nil => cases h
  | cons t ts ih =>
    cases ts with
    | nil => exact Or.inr ⟨t, by simp, h⟩
    | cons u us =>
      rw [joinWith, List.mem_append, List.mem_append] at h
      · rcases h with (h | h) | h
        · exact Or.inr ⟨t, by simp, h⟩
        · exact Or.inl h
        · rcases ih h with h | ⟨v, h1, h2⟩
          · exact Or.inl h
          · exact Or.inr ⟨v, by simp [h1], h2⟩
      · simp

theorem accountParse_oneLine (env : Env) (chunk : Str) (dec : Char) (fmt : Str) (a : Account M) (hn : '\n' ∉ chunk)
    (h : Account.parse env chunk dec fmt = .ok a) : a.envelopes = [] := by
  unfold Account.parse at h
  split at h
  · cases h
  · rename_i hd ls hl
    rw [lines_segs, show segs chunk = [chunk] from splitOn_none hn] at hl
    have : ls = [] := by
      simp only [linesOf] at hl
      split at hl
      · cases hl
      · cases hl; rfl
    subst this
    simp only [bind, Except.bind] at h
    split at h
    · cases h
    · simp only [Account.parseLines, Account.flush] at h
      rw [if_pos (by decide)] at h
      cases h
      rfl

theorem processEntry_noEnvelopes (today : Date) (x : Entry M) (a a' : Account M) (h0 : a.envelopes = [])
    (h : a.processEntry today x = .ok a') : a'.envelopes = [] := by
  simp only [Account.envelopes, List.append_eq_nil_iff] at h0
  simp only [Account.processEntry, h0.1, h0.2, Account.processEnvelopes, bind, Except.bind, pure, Except.pure] at h
  split at h
  · cases h
  · cases h; rfl

/-- C87, where it holds: a journal without envelopes, all of whose entries have at least two words in the header
and not just one posting, is loaded or refused with an error. -/
theorem C87_plain_journal_partial (env : Env) (hord : FairOrder env.ord) (w : World) (rank : APath → Nat)
    (hc : NoCycle w rank) (fuel : Nat) (path : Str) (hf : rank (resolve w.cwd path) < fuel)
    (hp : ∀ P t chunk, w.file P = some t → ItemOf t chunk → PlainItem chunk) :
    (∃ r : Ledger M × World, Ledger.fromFile env fuel w path = .ok r) ∨
      ∃ k, (Ledger.fromFile env fuel w path : Res (Ledger M × World)) = .error (.err k) := by
  cases h : (Ledger.fromFile env fuel w path : Res (Ledger M × World)) with
  | ok r => exact Or.inl ⟨r, rfl⟩
  | error f =>
    cases f with
    | err k => exact Or.inr ⟨k, rfl⟩
    | panic =>
      exfalso
      obtain ⟨l, P, t, chunk, h1, h2, h3, h4⟩ := C87_what_aborts_partial env hord w rank hc fuel path hf h
      have hno : ∀ k a, (k, a) ∈ l.accounts → a.envelopes = [] := by
        clear h4
        induction h1 with
        | refl => intro k a hk; cases hk
        | tail l1 l2 P' t' chunk' _ h5 h6 h7 ih =>
          intro k a hk
          cases h7 with
          | account b hb hbp =>
            rcases mapInsert_mem _ _ _ _ hk with hk | hk
            · cases hk
              exact accountParse_oneLine env chunk' _ _ a ((hp P' t' chunk' h5 h6).account hb) hbp
            · exact ih k a hk
          | currency => exact ih k a hk
          | dateFormat => exact ih k a hk
          | entry kw x _ _ _ _ hx =>
            obtain ⟨accs, h8, rfl, h9⟩ := addEntry_ok _ _ _ _ hx
            obtain ⟨a0, h10, h11⟩ := (processAll_ok _ _ _ _ h8).2 k a hk
            exact processEntry_noEnvelopes _ _ _ _ (ih k a0 h10) h11
      have hp := hp P t chunk h2 h3
      cases h4 with
      | account line h5 h6 h7 =>
        rw [splitOn_none (hp.account h5)] at h6
        cases h6
      | header hd h5 h6 =>
        obtain ⟨h7, h8⟩ := hp.header hd h5
        rcases h6 with ⟨d, date, h9, _⟩ | ⟨d, s', ts, date, x, m, y, h9, _, h10, _⟩
        · rw [h9] at h7; simp at h7
        · have : ']' ∈ joinWith s%" " ts := by rw [h10]; simp
          rcases mem_joinWith this with h | ⟨t', h11, h12⟩
          · revert h; decide
          · exact h8 t' (by rw [h9]; simp [h11]) h12
      | entry x h5 h6 =>
        cases h6 with
        | blank p h7 h8 =>
          have := entryParse_count _ _ _ _ _ _ h5
          rw [h7] at this
          exact hp.postings this.symm
        | envelope k a v h7 h8 h9 => rw [hno k a h7] at h8; cases h8

/-! The hypotheses of C87 for two files with a directive, an account, an entry and an inclusion. -/

/-- All texts that could be an item of these lines. -/
def candidates (t : Str) : List Str :=
  let ls := lines t
  let ns := List.range (ls.length + 1)
  ns.flatMap fun i => ns.flatMap fun j =>
    if (ls.drop (i + j)).head?.all fun l => (effective l).head?.all fun c => !isWs c then
    match (ls.drop i).take j with
    | [] => [[]]
    | f :: rest => (if (effective f).head?.any (fun c => !isWs c) ∧
          rest.all (fun l => (effective l).head?.all isWs) then [effective f ++ restOf rest] else []) ++
        (if i = 0 ∧ (f :: rest).all (fun l => (effective l).head?.all isWs) then [restOf (f :: rest)] else [])
    else []

theorem Continuing.all {ls : List Str} (h : Continuing ls) :
    ls.all (fun l => (effective l).head?.all isWs) = true := by
  rw [List.all_eq_true]
  intro l hl
  cases he : (effective l).head? with
  | none => rfl
  | some c => exact h l hl c he

theorem ItemOf.candidate {t chunk : Str} (h : ItemOf t chunk) : chunk ∈ candidates t := by
  obtain ⟨pre, block, post, h1, h2, h3⟩ := h
  have hn : (lines t).length = pre.length + block.length + post.length := by rw [h1]; simp; omega
  have hb : ((lines t).drop pre.length).take block.length = block := by rw [h1]; simp
  have hp : (lines t).drop (pre.length + block.length) = post := by
    rw [h1, List.drop_append_of_le_length (by simp), List.drop_of_length_le (by simp)]; rfl
  simp only [candidates, List.mem_flatMap, List.mem_range]
  refine ⟨pre.length, by omega, block.length, by omega, ?_⟩
  rw [hb, hp, if_pos]
  · rcases h2 with ⟨f, rest, c, r, rfl, hf, hc, hr, rfl⟩ | ⟨rfl, hc, rfl⟩
    · refine List.mem_append_left _ ?_
      rw [if_pos ⟨by simp [hf, hc], hr.all⟩]
      simp
    · cases block with
      | nil => simp [restOf]
      | cons f rest =>
        refine List.mem_append_right _ ?_
        rw [if_pos ⟨rfl, hc.all⟩]
        simp
  · cases hh : post.head? with
    | none => rfl
    | some l =>
      cases he : (effective l).head? with
      | none => simp [he]
      | some c => simp [he, h3 l c hh he]

/-- A journal of two files. -/
def twoFiles : World := disk [("j", "include k\ncurrency $\n\n2024/01/02 * shop\n  a  3\n  b\n"),
  ("k", "account a ; cash\naccount b\n")]

theorem twoFiles_file (P : APath) (t : Str) (h : twoFiles.file P = some t) :
    (P = [s%"h", s%"j"] ∧ t = "include k\ncurrency $\n\n2024/01/02 * shop\n  a  3\n  b\n".toList) ∨
    (P = [s%"h", s%"k"] ∧ t = "account a ; cash\naccount b\n".toList) := by
  simp only [twoFiles, disk] at h
  split at h
  · rename_i d n
    split at h
    · rename_i hd
      subst hd
      simp only [List.find?_cons, List.find?_nil] at h
      split at h
      · rename_i hn
        cases h
        exact Or.inl ⟨by rw [← eq_of_beq hn]; decide, rfl⟩
      · split at h
        · rename_i hn
          cases h
          exact Or.inr ⟨by rw [← eq_of_beq hn]; decide, rfl⟩
        · cases h
    · cases h
  · cases h

def twoFilesRank (P : APath) : Nat := if P.getLast? = some s%"k" then 0 else 1

theorem twoFiles_noCycle : NoCycle twoFiles twoFilesRank := by
  intro P t chunk v more hP hi hs c
  rcases twoFiles_file P t hP with ⟨rfl, rfl⟩ | ⟨rfl, rfl⟩
  · have : ∀ ch ∈ candidates "include k\ncurrency $\n\n2024/01/02 * shop\n  a  3\n  b\n".toList,
        (splitWs ch).head? = some s%"include" → splitWs ch = [s%"include", s%"k"] := by decide +kernel
    have := this chunk hi.candidate (by rw [hs]; rfl)
    rw [this] at hs
    cases hs
    have e : resolve c s%"k" = stepPath c s%"k" := rfl
    rw [e]
    simp [twoFilesRank, stepPath]
  · have : ∀ ch ∈ candidates "account a ; cash\naccount b\n".toList,
        (splitWs ch).head? ≠ some s%"include" := by decide +kernel
    exact absurd (by rw [hs]; rfl) (this chunk hi.candidate)

theorem twoFiles_plain (P : APath) (t chunk : Str) (hP : twoFiles.file P = some t) (hi : ItemOf t chunk) :
    PlainItem chunk := by
  have key : ∀ t ∈ ["include k\ncurrency $\n\n2024/01/02 * shop\n  a  3\n  b\n".toList,
      "account a ; cash\naccount b\n".toList], ∀ ch ∈ candidates t,
      ((splitWs ch).head? = some s%"account" → '\n' ∉ ch) ∧
      ((lines (trim ch)).head?.all fun hd => 2 ≤ (splitWs (removeComments hd)).length ∧
        (splitWs (removeComments hd)).all fun w => !w.contains ']') = true ∧
      ((lines (trim ch)).tail.filter fun l => !(trim l).isEmpty).length ≠ 1 := by decide +kernel
  obtain ⟨h1, h2, h3⟩ := key t (by rcases twoFiles_file P t hP with h | h <;> simp [h.2]) chunk hi.candidate
  refine ⟨h1, fun hd hh => ?_, h3⟩
  rw [hh] at h2
  simpa using h2

example : ∃ r : Ledger Rat × World, Ledger.fromFile (stdEnv june15) 2 twoFiles s%"j" = .ok r ∧
    r.1.entries.length = 1 := by decide +kernel

example (fuel : Nat) (hf : 1 < fuel) :
    (∃ r : Ledger F64 × World, Ledger.fromFile (stdEnv june15) fuel twoFiles s%"j" = .ok r) ∨
      ∃ k, (Ledger.fromFile (stdEnv june15) fuel twoFiles s%"j" : Res (Ledger F64 × World)) = .error (.err k) :=
  C87_plain_journal_partial _ (fun _ l => List.Perm.refl l) twoFiles twoFilesRank twoFiles_noCycle fuel _ hf
    twoFiles_plain

/-- Is this an abort? -/
def isAbort {α : Type} : Res α → Bool
  | .error .panic => true
  | _ => false

theorem isAbort_iff {α : Type} {r : Res α} : isAbort r = true ↔ r = panicked := by
  cases r with
  | ok a => simp [isAbort, panicked]
  | error f => cases f <;> simp [isAbort, panicked]

/-- The negation of C87: journals that are not refused but abort. In turn: an indented comment between the lines
of an envelope; an entry with only a date; square brackets the wrong way round; a single posting without amount;
other currency moved to an envelope; a foreign posting with a native price where an envelope watches; and a bill
of the 31st on the first of March. -/
theorem C87_journals_that_abort :
    (∀ text ∈ ["account a\n  expense food due every 1st\n    ; weekly shop\n    amount 20\n",
      "2020/01/01\n",
      "2020/01/01 * a ] b [ c\n",
      "account a\n2020/01/01 * x\n  a\n",
      "account a\n  expense food due every 1st\n    amount 20\n2020/01/01 * x\n  envelope a food 5 EUR\n",
      "account a\naccount b\n  expense food due every 1st\n    amount 20\n    for a\n2020/01/01 * x\n  a 5 EUR @ 2\n  b -10\n"],
      loadText Rat text = panicked) ∧
    Ledger.fromFile (M := Rat) (stdEnv ⟨2024, 3, 1, by decide⟩) 9
      (disk [("j", "account a\n  expense rent due every 31st\n    amount 20\n2020/01/01 * x\n  envelope a rent 5\n")]) s%"j"
        = panicked := by
  simp only [← isAbort_iff]
  decide +kernel

end Silverfox
