import Verif.Model.Messages

/-
The error values of `Model/Messages.lean` belong to the failures of the model.
-/

namespace Silverfox

/-- The kind of error a result carries; `none` for a success or a panic. -/
def errKind {α : Type} : Res α → Option ErrKind
  | .error (.err k) => some k
  | _ => none

/-- `w` is the error value of `r`. -/
def Tells {α : Type} (w : Option Err) (r : Res α) : Prop := w.map Err.kind = errKind r

set_option linter.unusedSectionVars false

section
variable {M : Type} [Mag M]

theorem Tells.bind {α β : Type} {r : Res α} {w : Option Err} {k : α → Option Err} {f : α → Res β}
    (h : Tells w r) (hk : ∀ a, r = .ok a → Tells (k a) (f a)) :
    Tells (whyThen r w k) (r >>= f) := by
  match r, h, hk with
  | .ok a, _, hk => exact hk a rfl
  | .error (.err _), h, _ => exact h
  | .error .panic, _, _ => rfl

theorem Tells.map {α β : Type} {r : Res α} {w : Option Err} {f : α → β}
    (h : Tells w r) : Tells w (r >>= fun a => pure (f a)) := by
  match r, h with
  | .ok a, h => exact h
  | .error (.err _), h => exact h
  | .error .panic, h => exact h

theorem Tells.ok {α : Type} (a : α) : Tells none (.ok a : Res α) := rfl

theorem Tells.pure {α : Type} (a : α) : Tells none (pure a : Res α) := rfl

theorem Tells.panic {α : Type} : Tells none (panicked : Res α) := rfl

theorem tells_unwrap {α : Type} (o : Option α) : Tells none (unwrap o) := by
  cases o <;> rfl

theorem tells_amount (s : Str) (dec : Char) :
    Tells (amountWhy M s dec) (Amount.parse s dec : Res (Amount M)) := by
  unfold amountWhy Amount.parse
  cases amountClump s with
  | none => rfl
  | some c =>
    simp only
    cases (Mag.parse (rawMag dec c) : Option M) <;> rfl

theorem tells_envPosting (line : Str) (dec : Char) :
    Tells (envPostingWhy M line dec) (EnvPosting.parse line dec : Res (EnvPosting M)) := by
  unfold envPostingWhy EnvPosting.parse
  rcases (splitWs line).drop 1 with _ | ⟨a, _ | ⟨b, r⟩⟩
  · rfl
  · rfl
  · exact (tells_amount _ _).map

theorem tells_extract (toks : List Str) (dec : Char) (want : Str) (stop : Str → Bool) :
    Tells (extractWhy M toks dec want stop)
      (extractAmount toks dec want stop : Res (Option (Amount M))) := by
  unfold extractWhy extractAmount
  cases toks.dropWhile (fun t => t != want) with
  | nil => rfl
  | cons a l => exact (tells_amount _ _).map

theorem tells_classicAmount (toks : List Str) (dec : Char) :
    Tells (classicAmountWhy M toks dec)
      (Classic.parseAmount toks dec : Res (Option (Amount M))) := by
  unfold classicAmountWhy Classic.parseAmount
  simp only
  split
  · rfl
  · exact (tells_amount _ _).map

theorem tells_cost (toks : List Str) (dec : Char) :
    Tells (costWhy M toks dec) (Classic.parseCost toks dec : Res (Option (Cost M))) := by
  unfold costWhy Classic.parseCost
  refine Tells.bind (tells_extract _ _ _ _).map fun a _ => ?_
  cases a with
  | some c => rfl
  | none => exact (tells_extract _ _ _ _).map

theorem tells_classic (line : Str) (dec : Char) (accounts : List Str) :
    Tells (classicWhy M line dec accounts) (Classic.parse line dec accounts : Res (Classic M)) := by
  unfold classicWhy Classic.parse
  cases splitWs (trim (removeComments line)) with
  | nil => rfl
  | cons a l =>
    refine Tells.bind (tells_classicAmount _ _) fun a _ => ?_
    refine Tells.bind (tells_extract _ _ _ _) fun b _ => ?_
    refine Tells.bind (tells_cost _ _) fun c _ => ?_
    split <;> rfl

theorem tells_posting (line : Str) (dec : Char) (accounts : List Str) :
    Tells (postingWhy M line dec accounts) (Posting.parse line dec accounts : Res (Posting M)) := by
  unfold postingWhy Posting.parse
  simp only
  cases splitWs (trim (removeComments line)) with
  | nil => rfl
  | cons a l =>
    simp only
    split
    · exact (tells_envPosting _ _).map
    · exact (tells_classic _ _ _).map

theorem tells_status (s : Str) : Tells (statusWhy s) (Status.parse s) := by
  unfold statusWhy Status.parse
  repeat' split
  all_goals first | rfl | simp_all [fail]

theorem tells_description (s h : Str) : Tells (descriptionWhy s h) (parseDescription s) := by
  unfold descriptionWhy parseDescription
  cases find s%"[" s with
  | none => rfl
  | some i =>
    simp only
    cases rfind s%"]" s with
    | none => rfl
    | some j => simp only; split <;> rfl

theorem tells_header (env : Env) (h fmt : Str) :
    Tells (headerWhy env h fmt) (Entry.parseHeader env h fmt : Res (Entry M)) := by
  unfold headerWhy Entry.parseHeader
  cases splitWs (removeComments h) with
  | nil => rfl
  | cons t l =>
    simp only
    cases env.parseDate t fmt with
    | none => rfl
    | some d =>
      simp only
      cases l with
      | nil => rfl
      | cons u l =>
        refine Tells.bind (tells_status _) fun a _ => ?_
        exact (tells_description _ _).map

theorem tells_postings (dec : Char) (accounts : List Str) (ls : List Str) :
    Tells (postingsWhy M dec accounts ls)
      (Entry.parsePostings dec accounts ls : Res (List (Posting M))) := by
  induction ls with
  | nil => rfl
  | cons l ls ih =>
    unfold postingsWhy Entry.parsePostings
    split
    · exact ih
    · exact Tells.bind (tells_posting _ _ _) fun _ _ => ih.map

theorem validateLoop_kind (ps : List (Posting M)) (n : Nat) (syms : List Str) :
    errKind (validateLoop ps n syms) = none ∨ errKind (validateLoop ps n syms) = some .validation := by
  induction ps generalizing n syms with
  | nil => left; rfl
  | cons p ps ih =>
    unfold validateLoop
    repeat' split
    all_goals first | exact ih _ _ | (right; rfl)

theorem tells_validate (e : Entry M) (c : Str) : Tells (validateWhy M e c) e.validate := by
  unfold validateWhy Entry.validate
  have h := validateLoop_kind e.postings 0 []
  cases hv : validateLoop e.postings 0 [] with
  | ok x =>
    simp only [whyThen, bind, Except.bind]
    split <;> rfl
  | error f =>
    rw [hv] at h
    cases f with
    | panic => rfl
    | err k =>
      simp only [errKind] at h
      rcases h with h | h
      · cases h
      · cases h; rfl

theorem tells_entry (env : Env) (chunk fmt : Str) (dec : Char) (accounts : List Str) :
    Tells (entryWhy M env chunk fmt dec accounts)
      (Entry.parse env chunk fmt dec accounts : Res (Entry M)) := by
  unfold entryWhy Entry.parse
  simp only
  split
  · rfl
  · cases lines (trim chunk) with
    | nil => rfl
    | cons l ls =>
      refine Tells.bind (tells_header _ _ _) fun e _ => ?_
      refine Tells.bind (tells_postings _ _ _) fun ps _ => ?_
      exact (tells_validate _ _).map

theorem blankMixed_kind (ps : List (Posting M)) (m : M) :
    errKind (blankMixed ps m) = none ∨ errKind (blankMixed ps m) = some .processing := by
  induction ps generalizing m with
  | nil => left; rfl
  | cons p ps ih =>
    unfold blankMixed
    repeat' split
    all_goals first | exact ih _ | (right; rfl)

theorem tells_subAssign (a b : Amount M) : Tells none (a.subAssign b) := by
  unfold Amount.subAssign; split <;> rfl

theorem tells_add (a b : Amount M) : Tells none (a.add b) := by
  unfold Amount.add; split <;> rfl

theorem Tells.bindNone {α β : Type} {r : Res α} {f : α → Res β}
    (h : Tells none r) (hk : ∀ a, r = .ok a → Tells none (f a)) : Tells none (r >>= f) := by
  match r, h, hk with
  | .ok a, _, hk => exact hk a rfl
  | .error (.err _), h, _ => exact h
  | .error .panic, _, _ => rfl

theorem tells_blankRest (ps : List (Posting M)) (b : Amount M) : Tells none (blankRest ps b) := by
  induction ps generalizing b with
  | nil => rfl
  | cons p ps ih =>
    unfold blankRest
    split
    · exact Tells.bindNone (tells_subAssign _ _) fun _ _ => ih _
    · exact ih _

theorem tells_blank (e : Entry M) : Tells (blankWhy e) e.blankAmount := by
  unfold blankWhy Entry.blankAmount
  split
  · rfl
  · split
    · have h := blankMixed_kind e.postings (Mag.zero : M)
      cases hv : blankMixed e.postings (Mag.zero : M) with
      | ok x => rfl
      | error f =>
        rw [hv] at h
        cases f with
        | panic => rfl
        | err k =>
          simp only [errKind] at h
          rcases h with h | h
          · cases h
          · cases h; rfl
    · split
      · rfl
      · split
        · rfl
        · exact (tells_blankRest _ _).map

theorem tells_kind (s : Str) : Tells (kindWhy s) (EnvelopeKind.parse s) := by
  unfold kindWhy EnvelopeKind.parse
  repeat' split
  all_goals first | rfl | simp_all [fail]

theorem tells_funding (s : Str) : Tells (fundingWhy s) (Funding.parse s) := by
  unfold fundingWhy Funding.parse
  simp only
  repeat' split
  all_goals first | rfl | simp_all [fail]

theorem tells_frequency (env : Env) (s fmt : Str) (st : Option Date) :
    Tells (frequencyWhy env s fmt st) (Frequency.parse env s fmt st) := by
  unfold frequencyWhy Frequency.parse
  cases stripPrefix s%"every other " s with
  | some what =>
    cases st with
    | none => rfl
    | some d =>
      simp only
      repeat' split
      all_goals rfl
  | none =>
    simp only
    cases stripPrefix s%"every " s with
    | some what =>
      simp only
      cases Weekday.parse what with
      | some _ => rfl
      | none =>
        simp only
        cases Frequency.parseDayOfMonth what with
        | some _ => rfl
        | none =>
          simp only
          split
          · cases st <;> rfl
          · rfl
    | none =>
      simp only
      cases env.parseDate s fmt <;> rfl

theorem tells_starting (env : Env) (s fmt : Str) :
    Tells (startingWhy env s fmt) (Envelope.extractStarting env s fmt) := by
  unfold startingWhy Envelope.extractStarting
  cases find s%" starting " s with
  | none => rfl
  | some i =>
    simp only
    cases env.parseDate (s.drop (i + 10)) fmt <;> rfl

theorem tells_extractFrequency (env : Env) (h fmt : Str) (st : Option Date) :
    Tells (extractFrequencyWhy env h fmt st) (Envelope.extractFrequency env h fmt st) := by
  unfold extractFrequencyWhy Envelope.extractFrequency
  simp only
  split
  · rfl
  · cases rfind s%" by " (removeComments h) with
    | some i => exact tells_frequency _ _ _ _
    | none =>
      simp only
      cases rfind s%" due " (removeComments h) with
      | some i => exact tells_frequency _ _ _ _
      | none => rfl

theorem tells_envelopeHeader (env : Env) (h fmt acc : Str) :
    Tells (envelopeHeaderWhy env h fmt) (Envelope.fromHeader env h fmt acc : Res (Envelope M)) := by
  unfold envelopeHeaderWhy Envelope.fromHeader
  rcases splitWs (removeComments h) with _ | ⟨t, _ | ⟨u, l⟩⟩
  · rfl
  · rfl
  · refine Tells.bind (tells_kind _) fun k _ => ?_
    refine Tells.bind (tells_starting _ _ _) fun st _ => ?_
    rcases st with _ | ⟨d, i⟩
    · exact (tells_extractFrequency _ _ _ _).map
    · exact (tells_extractFrequency _ _ _ _).map

theorem tells_addAccount (e : Envelope M) (s : Str) :
    Tells (addAccountWhy s) (e.addAccount s) := by
  unfold addAccountWhy Envelope.addAccount
  rcases splitWs s with _ | ⟨t, _ | ⟨u, l⟩⟩ <;> rfl

theorem tells_bodyLine (e : Envelope M) (acc : Str) (dec : Char) (line : Str) :
    Tells (bodyLineWhy M e.name acc dec line) (e.addBodyLine dec line) := by
  unfold bodyLineWhy Envelope.addBodyLine
  simp only
  cases splitWs (trim (removeComments line)) with
  | nil => rfl
  | cons key more =>
    simp only
    cases find s%" " (trim (removeComments line)) with
    | none => rfl
    | some i =>
      simp only
      split
      · rfl
      · split
        · exact tells_addAccount _ _
        · split
          · exact (tells_amount _ _).map
          · split
            · exact (tells_funding _).map
            · rfl

theorem tells_body (acc : Str) (dec : Char) (ls : List Str) (e : Envelope M) :
    Tells (bodyWhy acc dec ls e) (Envelope.addBody dec ls e) := by
  induction ls generalizing e with
  | nil => rfl
  | cons l ls ih => exact Tells.bind (tells_bodyLine _ _ _ _) fun _ _ => ih _

theorem tells_envelope (env : Env) (chunk acc : Str) (dec : Char) (fmt : Str) :
    Tells (envelopeWhy M env chunk acc dec fmt)
      (Envelope.parse env chunk acc dec fmt : Res (Envelope M)) := by
  unfold envelopeWhy Envelope.parse
  cases lines (trim chunk) with
  | nil => rfl
  | cons l ls => exact Tells.bind (tells_envelopeHeader _ _ _ _) fun _ _ => tells_body _ _ _ _

theorem tells_accountHeader (line : Str) :
    Tells (accountHeaderWhy line) (Account.parseHeader line) := by
  unfold accountHeaderWhy Account.parseHeader
  rcases splitWs (removeComments line) with _ | ⟨t, _ | ⟨u, _ | ⟨v, l⟩⟩⟩ <;> rfl

theorem tells_addEnvelope (a : Account M) (e : Envelope M) :
    Tells (addEnvelopeWhy a e) (a.addEnvelope e) := by
  unfold addEnvelopeWhy Account.addEnvelope
  cases e.kind with
  | expense =>
    by_cases h : (a.expenses.any fun x => x.name == e.name) = true
    · simp only [if_pos h]; rfl
    · simp only [if_neg h]; rfl
  | goal =>
    by_cases h : (a.goals.any fun x => x.name == e.name) = true
    · simp only [if_pos h]; rfl
    · simp only [if_neg h]; rfl

theorem tells_flush (env : Env) (a : Account M) (chunk : Str) (dec : Char) (fmt : Str) :
    Tells (flushWhy env a chunk dec fmt) (a.flush env chunk dec fmt) := by
  unfold flushWhy Account.flush
  split
  · rfl
  · exact Tells.bind (tells_envelope _ _ _ _ _) fun _ _ => tells_addEnvelope _ _

theorem tells_accountLines (env : Env) (dec : Char) (fmt : Str) (ls : List Str) (a : Account M)
    (chunk : Str) :
    Tells (accountLinesWhy env dec fmt ls a chunk) (Account.parseLines env dec fmt ls a chunk) := by
  induction ls generalizing a chunk with
  | nil => exact tells_flush _ _ _ _ _
  | cons l ls ih =>
    unfold accountLinesWhy Account.parseLines
    split
    · exact Tells.bind (tells_flush _ _ _ _ _) fun _ _ => ih _ _
    · exact ih _ _

theorem tells_account (env : Env) (chunk : Str) (dec : Char) (fmt : Str) :
    Tells (accountWhy M env chunk dec fmt) (Account.parse env chunk dec fmt : Res (Account M)) := by
  unfold accountWhy Account.parse
  cases lines chunk with
  | nil => rfl
  | cons h ls => exact Tells.bind (tells_accountHeader _) fun _ _ => tells_accountLines _ _ _ _ _ _

theorem tells_inferAmount (e : Envelope M) (entry : Entry M) (p : Posting M) :
    Tells (inferAmountWhy e entry p) (e.inferAmount entry p) := by
  have key : ∀ a : Amount M, Tells (convertWhy e entry p a)
      (if a.sym = e.amount.sym then pure a
        else if e.amount.sym.isSome then fail .processing
        else match p.nativeValue with
          | some m => pure { a with mag := m }
          | none => fail .processing : Res (Amount M)) := by
    intro a
    unfold convertWhy
    split
    · rfl
    · split
      · rfl
      · cases p.nativeValue <;> rfl
  unfold inferAmountWhy Envelope.inferAmount
  cases p.amount with
  | some a => exact key a
  | none =>
    refine Tells.bind (tells_blank entry) fun b _ => ?_
    exact Tells.bind (tells_unwrap b) fun a _ => key a

theorem tells_inferLoop (e : Envelope M) (entry : Entry M) (ps : List (Posting M))
    (self auto : Amount M) :
    Tells (inferLoopWhy e entry ps self auto) (e.inferLoop entry ps self auto) := by
  induction ps generalizing self auto with
  | nil => rfl
  | cons p ps ih =>
    unfold inferLoopWhy Envelope.inferLoop
    refine Tells.bind (tells_inferAmount _ _ _) fun a _ => ?_
    split
    · exact Tells.bind (tells_add _ _) fun _ _ => ih _ _
    · split
      · exact Tells.bind (tells_add _ _) fun _ _ => ih _ _
      · exact ih _ _

theorem tells_lastDateOfMonth (a : Date) : Tells none (Frequency.lastDateOfMonth a) := by
  unfold Frequency.lastDateOfMonth
  split
  · exact Tells.bindNone rfl fun _ _ => tells_unwrap _
  · exact Tells.bindNone (tells_unwrap _) fun _ _ => tells_unwrap _

theorem tells_nextByDayOfMonth (t : Date) (d : Nat) : Tells none (Frequency.nextByDayOfMonth t d) := by
  unfold Frequency.nextByDayOfMonth
  refine Tells.bindNone (tells_lastDateOfMonth _) fun _ _ => ?_
  simp only
  split
  · rfl
  · split
    · exact Tells.bindNone rfl fun _ _ => Tells.bindNone (tells_unwrap _) fun _ _ => rfl
    · exact Tells.bindNone (tells_unwrap _) fun _ _ => Tells.bindNone (tells_unwrap _) fun _ _ => rfl

theorem tells_weeklyLoop (w : Weekday) (n : Nat) (a : Date) :
    Tells none (Frequency.weeklyLoop w n a) := by
  induction n generalizing a with
  | zero => rfl
  | succ n ih =>
    unfold Frequency.weeklyLoop
    split
    · rfl
    · exact Tells.bindNone (tells_unwrap _) fun _ _ => ih _

theorem tells_plusTwoMonths (a : Date) (d : Nat) : Tells none (Frequency.plusTwoMonths a d) := by
  unfold Frequency.plusTwoMonths
  simp only
  split
  · rfl
  · exact Tells.bindNone (tells_unwrap _) fun _ _ => tells_lastDateOfMonth _

theorem tells_bimonthlyLoop (t : Date) (d n : Nat) (a : Date) :
    Tells none (Frequency.bimonthlyLoop t d n a) := by
  induction n generalizing a with
  | zero => rfl
  | succ n ih =>
    unfold Frequency.bimonthlyLoop
    split
    · exact Tells.bindNone (tells_plusTwoMonths _ _) fun _ _ => ih _
    · rfl

theorem tells_nextDue (t : Date) (f : Frequency) : Tells none (f.nextDue t) := by
  unfold Frequency.nextDue
  split
  · rfl
  · rfl
  · exact Tells.bindNone (tells_unwrap _) fun _ _ =>
      Tells.bindNone (tells_weeklyLoop _ _ _) fun _ _ => rfl
  · exact Tells.bindNone (tells_unwrap _) fun _ _ => rfl
  · exact Tells.bindNone (tells_nextByDayOfMonth _ _) fun _ _ => rfl
  · split
    · rfl
    · exact Tells.bindNone (tells_bimonthlyLoop _ _ _ _) fun _ _ => rfl
  · split <;> rfl

theorem tells_subtractMonths (a : Date) (n : Nat) : Tells none (Frequency.subtractMonths a n) := by
  unfold Frequency.subtractMonths
  simp only
  split <;> exact tells_unwrap _

theorem tells_lastDue (t : Date) (f : Frequency) : Tells none (f.lastDue t) := by
  unfold Frequency.lastDue
  refine Tells.bindNone (tells_nextDue _ _) fun o _ => ?_
  repeat' split
  all_goals first
    | rfl
    | exact Tells.bindNone (tells_unwrap _) fun _ _ => rfl
    | exact Tells.bindNone (tells_subtractMonths _ _) fun _ _ => rfl

theorem tells_applyAmount (t : Date) (e : Envelope M) (a : Amount M) (d : Date) :
    Tells none (e.applyAmount t a d) := by
  unfold Envelope.applyAmount
  split
  · exact Tells.bindNone (tells_add _ _) fun _ _ => rfl
  · split
    · refine Tells.bindNone (tells_lastDue _ _) fun o _ => ?_
      repeat' split
      all_goals exact Tells.bindNone (tells_add _ _) fun _ _ => rfl
    · rfl

theorem tells_manual (t d : Date) (ps : List (EnvPosting M)) (e : Envelope M) :
    Tells none (Envelope.processManual t d ps e) := by
  induction ps generalizing e with
  | nil => rfl
  | cons p ps ih =>
    unfold Envelope.processManual
    split
    · exact Tells.bindNone (tells_applyAmount _ _ _ _) fun _ _ => ih _
    · exact ih _

/-- What follows the last error returns none. -/
theorem Tells.bindLast {α β : Type} {r : Res α} {w : Option Err} {f : α → Res β}
    (h : Tells w r) (hk : ∀ a, r = .ok a → Tells none (f a)) : Tells w (r >>= f) := by
  match r, h, hk with
  | .ok a, h, hk =>
    have h1 := hk a rfl
    cases w with
    | none => exact h1
    | some x => cases h
  | .error (.err _), h, _ => exact h
  | .error .panic, h, _ => exact h

theorem tells_infer (t : Date) (e : Envelope M) (entry : Entry M) :
    Tells (inferWhy e entry) (e.infer t entry) := by
  unfold inferWhy Envelope.infer
  simp only
  split
  · rfl
  · refine Tells.bindLast (tells_inferLoop _ _ _ _ _) fun a _ => ?_
    split
    · exact tells_applyAmount _ _ _ _
    · rfl

theorem tells_envelopeEntry (t : Date) (e : Envelope M) (entry : Entry M) :
    Tells (envelopeEntryWhy e entry) (e.processEntry t entry) := by
  unfold envelopeEntryWhy Envelope.processEntry
  split
  · exact tells_manual _ _ _ _
  · exact tells_infer _ _ _

theorem tells_envelopesEntry (t : Date) (entry : Entry M) (es : List (Envelope M)) :
    Tells (envelopesEntryWhy t entry es) (Account.processEnvelopes t entry es) := by
  induction es with
  | nil => rfl
  | cons e es ih => exact Tells.bind (tells_envelopeEntry _ _ _) fun _ _ => ih.map

theorem tells_real (name : Str) (entry : Entry M) (ps : List (Posting M)) (r : Pool M) :
    Tells (realWhy name entry ps) (Account.processReal name entry ps r) := by
  induction ps generalizing r with
  | nil => rfl
  | cons p ps ih =>
    unfold realWhy Account.processReal
    by_cases h : p.account = name ∧ p.isEnvelope = false
    · rw [if_pos h]
      cases ha : p.amount with
      | some a =>
        rw [if_neg (by simp)]
        exact ih _
      | none =>
        rw [if_pos ⟨h.1, h.2, rfl⟩]
        refine Tells.bind (tells_blank entry) fun o _ => ?_
        cases o <;> exact ih _
    · rw [if_neg h, if_neg (fun hh => h ⟨hh.1, hh.2.1⟩)]
      exact ih _

theorem tells_accountEntry (t : Date) (entry : Entry M) (a : Account M) :
    Tells (accountEntryWhy t entry a) (a.processEntry t entry) := by
  unfold accountEntryWhy Account.processEntry
  refine Tells.bind (tells_envelopesEntry _ _ _) fun _ _ => ?_
  refine Tells.bind (tells_envelopesEntry _ _ _) fun _ _ => ?_
  exact (tells_real _ _ _ _).map

theorem tells_processAll (t : Date) (e : Entry M) (as : List (Str × Account M)) :
    Tells (processAllWhy t e as) (Ledger.processAll t e as) := by
  induction as with
  | nil => rfl
  | cons ka as ih =>
    obtain ⟨k, a⟩ := ka
    exact Tells.bind (tells_accountEntry _ _ _) fun _ _ => ih.map

theorem tells_addEntry (env : Env) (l : Ledger M) (e : Entry M) :
    Tells (addEntryWhy env l e) (l.addEntry env e) :=
  Tells.bind (tells_processAll _ _ _) fun _ _ => (tells_processAll _ _ _).map

theorem tells_parseEntry (env : Env) (l : Ledger M) (chunk : Str) :
    Tells (parseEntryWhy env l chunk) (l.parseEntry env chunk) :=
  Tells.bind (tells_entry _ _ _ _ _) fun _ _ => tells_addEntry _ _ _

theorem tells_chunk (env : Env)
    {incR : Ledger M × World → Str → Res (Ledger M × World)}
    {inc : Ledger M × World → Str → Option Err}
    (hi : ∀ st v, Tells (inc st v) (incR st v)) (st : Ledger M × World) (chunk : Str) :
    Tells (chunkWhy env inc st chunk) (Ledger.parseChunk env incR st chunk) := by
  unfold chunkWhy Ledger.parseChunk
  split
  · rfl
  · cases splitWs chunk with
    | nil => rfl
    | cons kw rest =>
      simp only
      split
      · exact ((tells_account _ _ _ _).map (f := fun a => _)).map
      · split
        · cases rest <;> rfl
        · split
          · cases rest <;> rfl
          · split
            · cases rest with
              | nil => rfl
              | cons v _ => exact hi _ _
            · exact (tells_parseEntry _ _ _).map

theorem tells_lines (env : Env)
    {incR : Ledger M × World → Str → Res (Ledger M × World)}
    {inc : Ledger M × World → Str → Option Err}
    (hi : ∀ st v, Tells (inc st v) (incR st v)) (ls : List Str) (st : Ledger M × World)
    (chunk : Str) :
    Tells (linesWhy env incR inc ls st chunk) (Ledger.addLinesFrom env incR ls st chunk) := by
  induction ls generalizing st chunk with
  | nil => exact tells_chunk _ hi _ _
  | cons l ls ih =>
    unfold linesWhy Ledger.addLinesFrom
    simp only
    cases removeComments (trimEnd l) with
    | nil => exact ih _ _
    | cons c cs =>
      simp only
      split
      · exact ih _ _
      · exact Tells.bind (tells_chunk _ hi _ _) fun _ _ => ih _ _

theorem tells_file (env : Env) (n : Nat) (st : Ledger M × World) (path : Str) :
    Tells (fileWhy env n st path) (Ledger.addFromFile env n st path) := by
  induction n generalizing st path with
  | zero => rfl
  | succ n ih =>
    unfold fileWhy Ledger.addFromFile
    cases st.2.read path with
    | none => rfl
    | some s => exact tells_lines _ (fun _ _ => ih _ _) _ _ _

theorem tells_asParsable (env : Env) (e : Entry M) (fmt : Str) :
    Tells none (e.asParsable env fmt) :=
  Tells.bindNone (tells_unwrap _) fun _ _ => rfl

theorem tells_append (env : Env) (w : World) (l : Ledger M) (e : Entry M) :
    Tells (appendWhy env w l e) (Ledger.appendEntry env w l e).2 := by
  unfold appendWhy Ledger.appendEntry
  split
  · rfl
  · have hp := tells_asParsable env e l.dateFormat
    cases hq : e.asParsable env l.dateFormat with
    | error f =>
      rw [hq] at hp
      cases f with
      | panic => rfl
      | err k => cases hp
    | ok text =>
      simp only [whyThen]
      cases w.append l.filePath ('\n' :: text) with
      | none => rfl
      | some w' => exact tells_addEntry _ _ _

theorem tells_envNextDue (t : Date) (e : Envelope M) : Tells none (e.nextDue t) := by
  unfold Envelope.nextDue
  split
  · exact tells_nextDue _ _
  · refine Tells.bindNone (tells_nextDue _ _) fun o _ => ?_
    cases o <;> rfl

theorem tells_fillingAmount (t : Date) (e : Envelope M) (a : Amount M) :
    Tells none (e.fillingAmount t a) := by
  unfold Envelope.fillingAmount
  split
  · rfl
  · refine Tells.bindNone (tells_envNextDue _ _) fun o _ => ?_
    cases o with
    | none => rfl
    | some due =>
      refine Tells.bindNone (tells_add _ _) fun _ _ => ?_
      split
      · rfl
      · split <;> rfl

theorem tells_fillLoop (t : Date) (es : List (Envelope M)) (p : Pool M) :
    Tells none (Account.fillLoop t es p) := by
  induction es generalizing p with
  | nil => rfl
  | cons e es ih =>
    exact Tells.bindNone (Tells.bindNone (tells_fillingAmount _ _ _) fun _ _ => rfl) fun _ _ =>
      Tells.bindNone (ih _) fun _ _ => rfl

theorem tells_fillAll (t : Date) (as : List (Str × Account M)) :
    Tells none (Ledger.fillAll t as) := by
  induction as with
  | nil => rfl
  | cons ka as ih =>
    obtain ⟨k, a⟩ := ka
    exact Tells.bindNone (tells_fillLoop _ _ _) fun _ _ => Tells.bindNone ih fun _ _ => rfl

theorem tells_fill (env : Env) (w : World) (l : Ledger M) :
    Tells (fillWhy env w l) (l.fillEnvelopes env w).2 := by
  unfold fillWhy Ledger.fillEnvelopes
  have hp := tells_fillAll env.today (env.ord l.accounts)
  cases hq : Ledger.fillAll env.today (env.ord l.accounts) with
  | error f =>
    rw [hq] at hp
    cases f with
    | panic => rfl
    | err k => cases hp
  | ok ps =>
    simp only [whyThen]
    split
    · rfl
    · exact tells_append _ _ _ _

theorem tells_totalsStep (e : Entry M) (p : Posting M) (tot : List (Str × Pool M)) :
    Tells (totalsStepWhy e p tot) (Ledger.totalsStep e p tot) := by
  unfold totalsStepWhy Ledger.totalsStep
  cases mapGet tot p.account with
  | none => cases p.amount <;> rfl
  | some pool =>
    cases p.amount with
    | some a => rfl
    | none =>
      refine Tells.bind (tells_blank e) fun o _ => ?_
      cases o <;> rfl

theorem tells_totalsEntry (e : Entry M) (ps : List (Posting M)) (tot : List (Str × Pool M)) :
    Tells (totalsEntryWhy e ps tot) (Ledger.totalsEntry e ps tot) := by
  induction ps generalizing tot with
  | nil => rfl
  | cons p ps ih => exact Tells.bind (tells_totalsStep _ _ _) fun _ _ => ih _

theorem tells_totals (es : List (Entry M)) (tot : List (Str × Pool M)) :
    Tells (totalsWhy es tot) (Ledger.totalsLoop es tot) := by
  induction es generalizing tot with
  | nil => rfl
  | cons e es ih => exact Tells.bind (tells_totalsEntry _ _ _) fun _ _ => ih _

theorem tells_makeBar (e : Envelope M) (a : Amount M) (n : Nat) : Tells none (e.makeBar a n) := by
  unfold Envelope.makeBar
  simp only
  split <;> rfl

theorem tells_display (t : Date) (e : Envelope M) : Tells none (e.display t) := by
  unfold Envelope.display
  refine Tells.bindNone (tells_envNextDue _ _) fun o _ => ?_
  refine Tells.bindNone (tells_makeBar _ _ _) fun o _ => ?_
  exact Tells.bindNone (tells_makeBar _ _ _) fun o _ => rfl

theorem tells_displayAll (t : Date) (es : List (Envelope M)) :
    Tells none (Account.displayAll t es) := by
  induction es with
  | nil => rfl
  | cons e es ih =>
    exact Tells.bindNone (tells_display _ _) fun _ _ => Tells.bindNone ih fun _ _ => rfl

theorem tells_displayAccount (t : Date) (a : Account M) : Tells none (a.display t) := by
  unfold Account.display
  split
  · rfl
  · exact Tells.bindNone (tells_displayAll _ _) fun _ _ =>
      Tells.bindNone (tells_displayAll _ _) fun _ _ => rfl

theorem tells_displayAccounts (t : Date) (as : List (Str × Account M)) (ks : List Str) :
    Tells none (Ledger.displayAccounts t as ks) := by
  induction ks with
  | nil => rfl
  | cons k ks ih =>
    exact Tells.bindNone (tells_unwrap _) fun _ _ =>
      Tells.bindNone (tells_displayAccount _ _) fun _ _ => Tells.bindNone ih fun _ _ => rfl

theorem Tells.ite {α : Type} {c : Prop} [Decidable c] {w₁ w₂ : Option Err} {r₁ r₂ : Res α}
    (h₁ : Tells w₁ r₁) (h₂ : Tells w₂ r₂) :
    Tells (if c then w₁ else w₂) (if c then r₁ else r₂) := by
  by_cases h : c
  · rw [if_pos h, if_pos h]; exact h₁
  · rw [if_neg h, if_neg h]; exact h₂

theorem tells_indexed {α : Type} (name : Str) {w : Option Err} {r : Res α} {f g : Str → α}
    (h : Tells w r) :
    Tells (match stripPrefix s%"amount" name with
        | some _ => none
        | none =>
          match stripPrefix s%"account" name with
          | some _ => none
          | none => w)
      (match stripPrefix s%"amount" name with
        | some i => .ok (f i)
        | none =>
          match stripPrefix s%"account" name with
          | some i => .ok (g i)
          | none => r) := by
  cases stripPrefix s%"amount" name with
  | some i => rfl
  | none =>
    cases stripPrefix s%"account" name with
    | some i => rfl
    | none => exact h

theorem tells_reset (v : RuleVals) (name line : Str) :
    Tells (resetWhy name line) (v.reset name) := by
  unfold resetWhy RuleVals.reset
  iterate 10 refine Tells.ite rfl ?_
  exact tells_indexed _ rfl

theorem tells_set (T : Texts) (v : RuleVals) (name value line : Str) :
    Tells (setWhy T name value line) (v.set name value) := by
  unfold setWhy RuleVals.set
  iterate 3 refine Tells.ite rfl ?_
  refine Tells.ite (Tells.ite rfl (tells_unwrap _).map) ?_
  iterate 4 refine Tells.ite rfl ?_
  refine Tells.ite ?_ (Tells.ite rfl (tells_indexed _ rfl))
  cases parseI32 value <;> rfl

theorem tells_splitRule (line m : Str) :
    Tells (whyThen (splitRule line) (parseAt (trimStart line) m) fun _ => none) (splitRule line) := by
  unfold splitRule
  simp only
  cases posWs (trimStart line) with
  | none => rfl
  | some i =>
    simp only [bind, Except.bind]
    cases bytesTake i (trimStart line) with
    | none => rfl
    | some a =>
      simp only [unwrap]
      cases bytesDrop (i + 1) (trimStart line) <;> rfl

theorem tells_addLine (T : Texts) {incR : Rules → Str → Res Rules} {inc : Rules → Str → Option Err}
    (hi : ∀ r v, Tells (inc r v) (incR r v)) (r : Rules) (line : Str) :
    Tells (addLineWhy T inc r line) (addLine incR r line) := by
  unfold addLineWhy addLine
  simp only
  have h := tells_splitRule line (s%"this rule has no value. use `-` if you want to discard a \
    value:\n\n" ++ trim (trimStart line) ++ s%" -")
  cases hs : splitRule line with
  | error f =>
    rw [hs] at h
    cases f with
    | panic => rfl
    | err k => exact h
  | ok nv =>
    obtain ⟨name, value⟩ := nv
    simp only [whyThen, bind, Except.bind]
    split
    · exact hi _ _
    · split
      · exact (tells_reset _ _ _).map
      · exact (tells_set _ _ _ _ _).map

theorem tells_openIf (r : Rules) (l : Str) : Tells none (openIf r l) := by
  unfold openIf
  split
  · rfl
  · exact (tells_unwrap _).map

theorem tells_rootLine (T : Texts) {incR : Rules → Str → Res Rules} {inc : Rules → Str → Option Err}
    (hi : ∀ r v, Tells (inc r v) (incR r v)) (r : Rules) (l : Str) :
    Tells (rootLineWhy T inc r l) (rootLine incR r l) := by
  unfold rootLineWhy rootLine
  split
  · exact (tells_openIf _ _).map
  · exact (tells_addLine T hi _ _).map

theorem tells_stepLine (T : Texts) {incR : Rules → Str → Res Rules} {inc : Rules → Str → Option Err}
    (hi : ∀ r v, Tells (inc r v) (incR r v)) (r : Rules) (b : Block) (l : Str) :
    Tells (stepLineWhy T inc r b l) (stepLine incR r b l) := by
  unfold stepLineWhy stepLine
  simp only
  split
  · rfl
  · cases b with
    | root => exact tells_rootLine T hi _ _
    | sub ps s inRules =>
      simp only
      split
      · exact (tells_addLine T hi _ _).map
      · split
        · rfl
        · exact tells_rootLine T hi _ _

theorem tells_ruleLines (T : Texts) {incR : Rules → Str → Res Rules}
    {inc : Rules → Str → Option Err} (hi : ∀ r v, Tells (inc r v) (incR r v)) (ls : List Str)
    (r : Rules) (b : Block) :
    Tells (ruleLinesWhy T incR inc ls r b) (addLines incR ls r b) := by
  induction ls generalizing r b with
  | nil => cases b <;> rfl
  | cons l ls ih => exact Tells.bind (tells_stepLine T hi _ _ _) fun _ _ => ih _ _

theorem tells_rulesFile (T : Texts) (w : World) (n : Nat) (r : Rules) (path : Str) :
    Tells (rulesFileWhy T w n r path) (addRulesFile w n r path) := by
  induction n generalizing r path with
  | zero => rfl
  | succ n ih =>
    unfold rulesFileWhy addRulesFile
    cases w.read path with
    | none => rfl
    | some s => exact tells_ruleLines T (fun _ _ => ih _ _) _ _ _

theorem tells_vars (ps vs : List (Str × Str)) : Tells (varsWhy ps vs) (recordVars ps vs) := by
  induction ps generalizing vs with
  | nil => rfl
  | cons p ps ih =>
    obtain ⟨n, v⟩ := p
    unfold varsWhy recordVars
    split
    · rfl
    · exact ih _

theorem tells_recordPostings (env : Env) (v : RuleVals) (vars : List (Str × Str)) (known : List Str)
    (as : List (Str × Str)) :
    Tells (recordPostingsWhy M env v vars known as)
      (recordPostings env v vars known as : Res (List (Posting M))) := by
  induction as with
  | nil => rfl
  | cons a as ih =>
    obtain ⟨i, acc⟩ := a
    exact Tells.bind (tells_posting _ _ _) fun _ _ => ih.map

theorem tells_complete (ps : List (Posting M)) (record : List Str) :
    Tells (completeWhy ps record) (completePostings ps) := by
  unfold completeWhy completePostings
  rcases ps with _ | ⟨p, _ | ⟨q, ps⟩⟩
  · rfl
  · simp only
    cases p.amount <;> rfl
  · rfl

theorem tells_valsEntry (T : Texts) (env : Env) (v : RuleVals) (record known : List Str) :
    Tells (valsEntryWhy M T env v record known) (v.entry env record known : Res (Entry M)) := by
  unfold valsEntryWhy RuleVals.entry
  simp only
  refine Tells.bind (tells_vars _ _) fun vars _ => ?_
  cases env.parseDate (inject env vars v.withDefaults.dateStr) v.withDefaults.dateFormat with
  | none => rfl
  | some d =>
    refine Tells.bind (tells_status _) fun _ _ => ?_
    refine Tells.bind (tells_recordPostings _ _ _ _ _) fun _ _ => ?_
    exact (tells_complete _ _).map

mutual
theorem tells_rulesEntry (T : Texts) (env : Env) (record known : List Str) (r : Rules) :
    Tells (rulesEntryWhy M T env record known r) (r.entry env record known : Res (Entry M)) := by
  match r with
  | .mk v subs =>
    unfold rulesEntryWhy Rules.entry
    have h := tells_subEntry T env record known subs
    revert h
    cases (SubRules.entry env record known subs : Option (Res (Entry M))) with
    | none =>
      cases subEntryWhy M T env record known subs with
      | none => intro _; exact tells_valsEntry _ _ _ _ _
      | some w => intro h; exact h.elim
    | some x =>
      cases subEntryWhy M T env record known subs with
      | none => intro h; exact h.elim
      | some w => intro h; exact h
theorem tells_subEntry (T : Texts) (env : Env) (record known : List Str) (s : SubRules) :
    match subEntryWhy M T env record known s,
      (SubRules.entry env record known s : Option (Res (Entry M))) with
    | none, none => True
    | some w, some r => Tells w r
    | _, _ => False := by
  match s with
  | .nil =>
    unfold subEntryWhy SubRules.entry
    trivial
  | .cons ps r rest =>
    unfold subEntryWhy SubRules.entry
    by_cases h : appliesTo env ps record = true
    · simp only [if_pos h]
      exact tells_rulesEntry T env record known r
    · simp only [if_neg h]
      exact tells_subEntry T env record known rest
end

theorem tells_records (T : Texts) (csv : Str) (rs : List (Option (List Str))) :
    Tells (recordsWhy T csv rs) (readRecords rs) := by
  induction rs with
  | nil => rfl
  | cons r rs ih =>
    cases r with
    | none => rfl
    | some r => exact ih.map

theorem tells_importer (T : Texts) (env : Env) (w : World) (fuel : Nat) (csv : Str)
    (rules : Option Str) :
    Tells (importerWhy T env w fuel csv rules) (importerFromFile env w fuel csv rules) := by
  unfold importerWhy importerFromFile
  cases w.read csv with
  | none => rfl
  | some c =>
    simp only
    cases w.read (rules.getD (csv ++ s%".rules")) with
    | none => rfl
    | some r =>
      refine Tells.bind (tells_ruleLines T (fun _ _ => tells_rulesFile _ _ _ _ _) _ _ _)
        fun _ _ => ?_
      exact (tells_records _ _ _).map

theorem tells_importLoop (T : Texts) (env : Env) (rules : Rules) (known : List Str)
    (rs : List (List Str)) (w : World) (l : Ledger M) :
    Tells (importLoopWhy T env rules known rs w l) (Ledger.importLoop env rules known rs w l).2 := by
  induction rs generalizing w l with
  | nil => rfl
  | cons r rs ih =>
    unfold importLoopWhy Ledger.importLoop
    have h := tells_rulesEntry (M := M) T env r known rules
    cases he : (rules.entry env r known : Res (Entry M)) with
    | error f =>
      rw [he] at h
      cases f with
      | panic => rfl
      | err k => exact h
    | ok e =>
      simp only [whyThen]
      have h2 := tells_append env w l e
      rcases ha : Ledger.appendEntry env w l e with ⟨w', f | l'⟩
      · rw [ha] at h2
        cases f with
        | panic => rfl
        | err k => exact h2
      · exact ih _ _

theorem tells_import (T : Texts) (env : Env) (fuel : Nat) (w : World) (l : Ledger M) (csv : Str)
    (rules : Option Str) :
    Tells (importWhy T env fuel w l csv rules) (l.importCsv env fuel w csv rules).2 := by
  unfold importWhy Ledger.importCsv
  have h := tells_importer T env w fuel csv rules
  cases he : importerFromFile env w fuel csv rules with
  | error f =>
    rw [he] at h
    cases f with
    | panic => rfl
    | err k => exact h
  | ok x => exact tells_importLoop _ _ _ _ _ _ _

theorem tells_runSub (T : Texts) (env : Env) (o : Outside) (f : Flags) (w : World) (l : Ledger M) :
    Tells (runSubWhy T env o f w l) (runSub env o f w l).2 := by
  unfold runSubWhy runSub
  cases f.sub with
  | summary => rfl
  | new => rfl
  | balance => exact (tells_totals _ _).map
  | envelopes => exact tells_displayAccounts _ _ _
  | register =>
    simp only
    cases Register.display env o.terminal l.entries l.dateFormat none none none <;> rfl
  | import_ =>
    simp only
    cases f.csv with
    | none => rfl
    | some c =>
      simp only
      have h := tells_import T env o.fuel w l c f.rules
      revert h
      rcases l.importCsv env o.fuel w c f.rules with ⟨w', x | l'⟩
      · intro h; cases x <;> exact h
      · intro h; exact h

theorem tells_execute (T : Texts) (env : Env) (o : Outside) (f : Flags) (w : World) :
    Tells (executeWhy M T env o f w) (execute M env o f w).2 := by
  unfold executeWhy execute
  cases f.file.or o.file with
  | none => rfl
  | some path =>
    simp only
    have h : Tells (fromFileWhy M env o.fuel w path)
      (Ledger.fromFile env o.fuel w path : Res (Ledger M × World)) := tells_file _ _ _ _
    cases he : (Ledger.fromFile env o.fuel w path : Res (Ledger M × World)) with
    | error x =>
      rw [he] at h
      cases x with
      | panic => rfl
      | err k => exact h
    | ok lw =>
      obtain ⟨l, w'⟩ := lw
      simp only [whyThen]
      split
      · exact tells_runSub _ _ _ _ _ _
      · have h2 := tells_fill env w' l
        rcases ha : l.fillEnvelopes env w' with ⟨w'', x | l'⟩
        · rw [ha] at h2
          cases x with
          | panic => rfl
          | err k => exact h2
        · exact tells_runSub _ _ _ _ _ _

theorem tells_subcommand (s : Str) : Tells (subcommandWhy s) (Subcommand.parse s) := by
  unfold subcommandWhy Subcommand.parse
  repeat' split
  all_goals first | rfl | (simp_all [fail]; done)

theorem tells_parseFlags : ∀ (args : List Str) (f : Flags),
    Tells (parseFlagsWhy args) (parseFlags args f)
  | [], f => rfl
  | [a], f => by
    unfold parseFlagsWhy parseFlags
    split <;> rfl
  | a :: v :: rest, f => by
    unfold parseFlagsWhy parseFlags
    split
    · exact tells_parseFlags (v :: rest) _
    · iterate 3 (split; · exact tells_parseFlags rest _)
      rfl

theorem tells_flags (args : List Str) : Tells (flagsWhy args) (Flags.parse args) := by
  cases args with
  | nil => rfl
  | cons s rest =>
    exact Tells.bind (tells_subcommand _) fun _ _ => (tells_parseFlags _ _).map

/-- The error value of the program is the error of its outcome. -/
theorem tells_main (T : Texts) (env : Env) (o : Outside) (args : List Str) (w : World) :
    Tells (mainWhy M T env o args w) (mainProgram M env o args w).2 := by
  unfold mainWhy mainProgram
  have h := tells_flags args
  cases he : Flags.parse args with
  | error x =>
    rw [he] at h
    cases x with
    | panic => rfl
    | err k => exact h
  | ok x =>
    cases x with
    | none => rfl
    | some f => exact tells_execute _ _ _ _ _

end

end Silverfox
