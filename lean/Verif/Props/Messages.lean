import Verif.Proofs.Messages
import Verif.Proofs.Check
import Verif.Props.Ledger

/-
What is printed when a command fails (C111).
-/

namespace Silverfox

set_option linter.unusedSectionVars false

/-- A report of an error of kind `k`: one of the texts with a reason in it. -/
def Reported (T : Texts) (k : ErrKind) (t : Str) : Prop :=
  match k with
  | .basic => t ≠ []
  | .parse => ∃ m, m ≠ [] ∧
      ((∃ c, t = s%"silverfox couldn't understand the following:\n\n" ++ c ++ s%"\n\n" ++ m) ∨
        t = s%"silverfox ran across an issue in your journal: " ++ m)
  | .validation => ∃ m, m ≠ [] ∧
      ((∃ c, t = s%"the following is invalid to silverfox:\n\n" ++ c ++ s%"\n\n" ++ m) ∨
        t = s%"silverfox flagged your journal file as invalid: " ++ m)
  | .processing => ∃ c m, m ≠ [] ∧
      t = s%"looks like your journal is all valid, but this couldn't be processed:\n\n" ++ c ++
        s%"\n\n" ++ m
  | .file => ∃ p,
      t = s%"silverfox encountered an i/o error: " ++ T.io p ++ s%"\n(file: " ++ p ++ s%")"
  | .csv => False

/-- The error value says what is wrong. -/
def Told : Err → Prop
  | .basic s => s.isEmpty = false
  | .parse i => ∃ m, m.isEmpty = false ∧ i.message = some m
  | .validation i => ∃ m, m.isEmpty = false ∧ i.message = some m
  | .processing i => i.context.isSome ∧ ∃ m, m.isEmpty = false ∧ i.message = some m
  | .file _ => True

/-- If there is an error, it satisfies `P`. -/
def AllErr (P : Err → Prop) (w : Option Err) : Prop := ∀ e, w = some e → P e

theorem AllErr.none {P : Err → Prop} : AllErr P none := fun _ h => by cases h

theorem AllErr.some {P : Err → Prop} {e : Err} (h : P e) : AllErr P (some e) :=
  fun _ he => by cases he; exact h

theorem AllErr.then {P : Err → Prop} {α : Type} {r : Res α} {w : Option Err} {k : α → Option Err}
    (h : AllErr P w) (hk : ∀ a, r = .ok a → AllErr P (k a)) : AllErr P (whyThen r w k) := by
  match r, hk with
  | .ok a, hk => exact hk a rfl
  | .error (.err _), _ => exact h
  | .error .panic, _ => exact AllErr.none

theorem AllErr.ite {P : Err → Prop} {c : Prop} [Decidable c] {a b : Option Err}
    (h₁ : c → AllErr P a) (h₂ : ¬c → AllErr P b) : AllErr P (if c then a else b) := by
  by_cases h : c
  · rw [if_pos h]; exact h₁ h
  · rw [if_neg h]; exact h₂ h

theorem told_parseAt {c m : Str} (h : m.isEmpty = false) : AllErr Told (parseAt c m) :=
  AllErr.some ⟨m, h, rfl⟩

theorem told_parseErr {m : Str} (h : m.isEmpty = false) : AllErr Told (parseErr m) :=
  AllErr.some ⟨m, h, rfl⟩

theorem told_validation {c : Option Str} {m : Str} (h : m.isEmpty = false) :
    AllErr Told (some (.validation ⟨c, some m⟩)) := AllErr.some ⟨m, h, rfl⟩

theorem told_file (p : Str) : AllErr Told (some (.file p)) := AllErr.some trivial

section
variable {M : Type} [Mag M]

theorem told_processing (e : Entry M) {m : Str} (h : m.isEmpty = false) :
    AllErr Told (processingAt e m) := AllErr.some ⟨rfl, m, h, rfl⟩

/-- Closes the ends of the case distinctions below. -/
macro "told" : tactic => `(tactic| first
  | exact AllErr.none
  | exact told_parseAt rfl
  | exact told_parseErr rfl
  | exact told_validation rfl
  | exact told_processing _ rfl
  | exact told_file _
  | exact AllErr.some rfl)

theorem told_amount (s : Str) (dec : Char) : AllErr Told (amountWhy M s dec) := by
  unfold amountWhy
  simp only
  cases amountClump s with
  | none => told
  | some c =>
    simp only
    cases (Mag.parse (rawMag dec c) : Option M) <;> told

theorem told_envPosting (line : Str) (dec : Char) : AllErr Told (envPostingWhy M line dec) := by
  unfold envPostingWhy
  rcases (splitWs line).drop 1 with _ | ⟨a, _ | ⟨b, r⟩⟩
  · told
  · told
  · exact told_amount _ _

theorem told_extract (toks : List Str) (dec : Char) (want : Str) (stop : Str → Bool) :
    AllErr Told (extractWhy M toks dec want stop) := by
  unfold extractWhy
  cases toks.dropWhile (fun t => t != want) with
  | nil => told
  | cons a l => exact told_amount _ _

theorem told_classic (line : Str) (dec : Char) (accounts : List Str) :
    AllErr Told (classicWhy M line dec accounts) := by
  unfold classicWhy
  cases splitWs (trim (removeComments line)) with
  | nil => told
  | cons a l =>
    refine AllErr.then (AllErr.ite (fun _ => AllErr.none) fun _ => told_amount _ _) fun _ _ => ?_
    refine AllErr.then (told_extract _ _ _ _) fun _ _ => ?_
    refine AllErr.then ?_ fun _ _ => ?_
    · refine AllErr.then (told_extract _ _ _ _) fun o _ => ?_
      cases o with
      | some c => told
      | none => exact told_extract _ _ _ _
    · exact AllErr.ite (fun _ => AllErr.none) fun _ => told_validation rfl

theorem told_posting (line : Str) (dec : Char) (accounts : List Str) :
    AllErr Told (postingWhy M line dec accounts) := by
  unfold postingWhy
  simp only
  cases splitWs (trim (removeComments line)) with
  | nil => told
  | cons a l => exact AllErr.ite (fun _ => told_envPosting _ _) fun _ => told_classic _ _ _

theorem told_status (s : Str) : AllErr Told (statusWhy s) := by
  unfold statusWhy
  cases Status.parse s <;> told

theorem told_description (s h : Str) : AllErr Told (descriptionWhy s h) := by
  unfold descriptionWhy
  cases find s%"[" s with
  | none => told
  | some i =>
    simp only
    cases rfind s%"]" s <;> told

theorem told_header (env : Env) (h fmt : Str) : AllErr Told (headerWhy env h fmt) := by
  unfold headerWhy
  cases splitWs (removeComments h) with
  | nil => told
  | cons t l =>
    simp only
    cases env.parseDate t fmt with
    | none => told
    | some d =>
      cases l with
      | nil => told
      | cons u l => exact AllErr.then (told_status _) fun _ _ => told_description _ _

theorem told_postings (dec : Char) (accounts : List Str) (ls : List Str) :
    AllErr Told (postingsWhy M dec accounts ls) := by
  induction ls with
  | nil => told
  | cons l ls ih =>
    exact AllErr.ite (fun _ => ih) fun _ => AllErr.then (told_posting _ _ _) fun _ _ => ih

theorem told_validate (e : Entry M) (c : Str) : AllErr Told (validateWhy M e c) :=
  AllErr.then (told_validation rfl) fun _ _ =>
    AllErr.ite (fun _ => told_validation rfl) fun _ => AllErr.none

theorem told_entry (env : Env) (chunk fmt : Str) (dec : Char) (accounts : List Str) :
    AllErr Told (entryWhy M env chunk fmt dec accounts) := by
  unfold entryWhy
  refine AllErr.ite (fun _ => told_parseErr rfl) fun _ => ?_
  cases lines (trim chunk) with
  | nil => told
  | cons l ls =>
    exact AllErr.then (told_header _ _ _) fun _ _ => AllErr.then (told_postings _ _ _) fun _ _ =>
      told_validate _ _

theorem told_blank (e : Entry M) : AllErr Told (blankWhy e) :=
  AllErr.ite (fun _ => AllErr.none) fun _ => AllErr.ite
    (fun _ => AllErr.then (told_processing _ rfl) fun _ _ => AllErr.none) fun _ => AllErr.none

theorem told_kind (s : Str) : AllErr Told (kindWhy s) := by
  unfold kindWhy
  cases EnvelopeKind.parse s <;> told

theorem told_funding (s : Str) : AllErr Told (fundingWhy s) := by
  unfold fundingWhy
  cases Funding.parse s <;> told

theorem told_frequency (env : Env) (s fmt : Str) (st : Option Date) :
    AllErr Told (frequencyWhy env s fmt st) := by
  unfold frequencyWhy
  cases stripPrefix s%"every other " s with
  | some what =>
    cases st with
    | none => told
    | some d =>
      exact AllErr.ite (fun _ => AllErr.none) fun _ =>
        AllErr.ite (fun _ => AllErr.none) fun _ => told_parseAt rfl
  | none =>
    simp only
    cases stripPrefix s%"every " s with
    | some what =>
      simp only
      cases Weekday.parse what with
      | some _ => told
      | none =>
        simp only
        cases Frequency.parseDayOfMonth what with
        | some _ => told
        | none =>
          refine AllErr.ite (fun _ => ?_) fun _ => told_parseAt rfl
          cases st <;> told
    | none =>
      simp only
      cases env.parseDate s fmt <;> told

theorem told_starting (env : Env) (s fmt : Str) : AllErr Told (startingWhy env s fmt) := by
  unfold startingWhy
  cases find s%" starting " s with
  | none => told
  | some i =>
    simp only
    cases env.parseDate (s.drop (i + 10)) fmt <;> told

theorem told_extractFrequency (env : Env) (h fmt : Str) (st : Option Date) :
    AllErr Told (extractFrequencyWhy env h fmt st) := by
  unfold extractFrequencyWhy
  refine AllErr.ite (fun _ => AllErr.none) fun _ => ?_
  cases rfind s%" by " (removeComments h) with
  | some i => exact told_frequency _ _ _ _
  | none =>
    simp only
    cases rfind s%" due " (removeComments h) with
    | some i => exact told_frequency _ _ _ _
    | none => told

theorem told_envelopeHeader (env : Env) (h fmt : Str) :
    AllErr Told (envelopeHeaderWhy env h fmt) := by
  unfold envelopeHeaderWhy
  rcases splitWs (removeComments h) with _ | ⟨t, _ | ⟨u, l⟩⟩
  · told
  · told
  · refine AllErr.then (told_kind _) fun _ _ => AllErr.then (told_starting _ _ _) fun st _ => ?_
    rcases st with _ | ⟨d, i⟩ <;> exact told_extractFrequency _ _ _ _

theorem told_addAccount (s : Str) : AllErr Told (addAccountWhy s) := by
  unfold addAccountWhy
  rcases splitWs s with _ | ⟨t, _ | ⟨u, l⟩⟩ <;> told

theorem told_bodyLine (name acc : Str) (dec : Char) (line : Str) :
    AllErr Told (bodyLineWhy M name acc dec line) := by
  unfold bodyLineWhy
  simp only
  cases splitWs (trim (removeComments line)) with
  | nil => told
  | cons key more =>
    simp only
    cases find s%" " (trim (removeComments line)) with
    | none => told
    | some i =>
      refine AllErr.ite (fun _ => AllErr.none) fun _ => ?_
      refine AllErr.ite (fun _ => told_addAccount _) fun _ => ?_
      refine AllErr.ite (fun _ => told_amount _ _) fun _ => ?_
      exact AllErr.ite (fun _ => told_funding _) fun _ => told_parseErr rfl

theorem told_body (acc : Str) (dec : Char) (ls : List Str) (e : Envelope M) :
    AllErr Told (bodyWhy acc dec ls e) := by
  induction ls generalizing e with
  | nil => told
  | cons l ls ih => exact AllErr.then (told_bodyLine _ _ _ _) fun _ _ => ih _

theorem told_envelope (env : Env) (chunk acc : Str) (dec : Char) (fmt : Str) :
    AllErr Told (envelopeWhy M env chunk acc dec fmt) := by
  unfold envelopeWhy
  cases lines (trim chunk) with
  | nil => told
  | cons l ls => exact AllErr.then (told_envelopeHeader _ _ _) fun _ _ => told_body _ _ _ _

theorem told_accountHeader (line : Str) : AllErr Told (accountHeaderWhy line) := by
  unfold accountHeaderWhy
  rcases splitWs (removeComments line) with _ | ⟨t, _ | ⟨u, _ | ⟨v, l⟩⟩⟩ <;> told

theorem told_addEnvelope (a : Account M) (e : Envelope M) : AllErr Told (addEnvelopeWhy a e) := by
  unfold addEnvelopeWhy
  cases a.addEnvelope e <;> told

theorem told_flush (env : Env) (a : Account M) (chunk : Str) (dec : Char) (fmt : Str) :
    AllErr Told (flushWhy env a chunk dec fmt) :=
  AllErr.ite (fun _ => AllErr.none) fun _ =>
    AllErr.then (told_envelope _ _ _ _ _) fun _ _ => told_addEnvelope _ _

theorem told_accountLines (env : Env) (dec : Char) (fmt : Str) (ls : List Str) (a : Account M)
    (chunk : Str) : AllErr Told (accountLinesWhy env dec fmt ls a chunk) := by
  induction ls generalizing a chunk with
  | nil => exact told_flush _ _ _ _ _
  | cons l ls ih =>
    exact AllErr.ite (fun _ => AllErr.then (told_flush _ _ _ _ _) fun _ _ => ih _ _) fun _ => ih _ _

theorem told_account (env : Env) (chunk : Str) (dec : Char) (fmt : Str) :
    AllErr Told (accountWhy M env chunk dec fmt) := by
  unfold accountWhy
  cases lines chunk with
  | nil => told
  | cons h ls => exact AllErr.then (told_accountHeader _) fun _ _ => told_accountLines _ _ _ _ _ _

theorem told_convert (e : Envelope M) (entry : Entry M) (p : Posting M) (a : Amount M) :
    AllErr Told (convertWhy e entry p a) := by
  unfold convertWhy
  refine AllErr.ite (fun _ => AllErr.none) fun _ => ?_
  refine AllErr.ite (fun _ => told_processing _ rfl) fun _ => ?_
  cases p.nativeValue <;> told

theorem told_inferAmount (e : Envelope M) (entry : Entry M) (p : Posting M) :
    AllErr Told (inferAmountWhy e entry p) := by
  unfold inferAmountWhy
  cases p.amount with
  | some a => exact told_convert _ _ _ _
  | none =>
    exact AllErr.then (told_blank _) fun _ _ => AllErr.then AllErr.none fun _ _ => told_convert _ _ _ _

theorem told_inferLoop (e : Envelope M) (entry : Entry M) (ps : List (Posting M))
    (self auto : Amount M) : AllErr Told (inferLoopWhy e entry ps self auto) := by
  induction ps generalizing self auto with
  | nil => told
  | cons p ps ih =>
    refine AllErr.then (told_inferAmount _ _ _) fun _ _ => ?_
    refine AllErr.ite (fun _ => AllErr.then AllErr.none fun _ _ => ih _ _) fun _ => ?_
    exact AllErr.ite (fun _ => AllErr.then AllErr.none fun _ _ => ih _ _) fun _ => ih _ _

theorem told_envelopeEntry (e : Envelope M) (entry : Entry M) :
    AllErr Told (envelopeEntryWhy e entry) :=
  AllErr.ite (fun _ => AllErr.none) fun _ =>
    AllErr.ite (fun _ => AllErr.none) fun _ => told_inferLoop _ _ _ _ _

theorem told_envelopesEntry (t : Date) (entry : Entry M) (es : List (Envelope M)) :
    AllErr Told (envelopesEntryWhy t entry es) := by
  induction es with
  | nil => told
  | cons e es ih => exact AllErr.then (told_envelopeEntry _ _) fun _ _ => ih

theorem told_real (name : Str) (entry : Entry M) (ps : List (Posting M)) :
    AllErr Told (realWhy name entry ps) := by
  induction ps with
  | nil => told
  | cons p ps ih =>
    exact AllErr.ite (fun _ => AllErr.then (told_blank _) fun _ _ => ih) fun _ => ih

theorem told_processAll (t : Date) (e : Entry M) (as : List (Str × Account M)) :
    AllErr Told (processAllWhy t e as) := by
  induction as with
  | nil => told
  | cons ka as ih =>
    obtain ⟨k, a⟩ := ka
    refine AllErr.then ?_ fun _ _ => ih
    exact AllErr.then (told_envelopesEntry _ _ _) fun _ _ =>
      AllErr.then (told_envelopesEntry _ _ _) fun _ _ => told_real _ _ _

theorem told_addEntry (env : Env) (l : Ledger M) (e : Entry M) :
    AllErr Told (addEntryWhy env l e) :=
  AllErr.then (told_processAll _ _ _) fun _ _ => told_processAll _ _ _

theorem told_chunk (env : Env) {inc : Ledger M × World → Str → Option Err}
    (hi : ∀ st v, AllErr Told (inc st v)) (st : Ledger M × World) (chunk : Str) :
    AllErr Told (chunkWhy env inc st chunk) := by
  unfold chunkWhy
  refine AllErr.ite (fun _ => AllErr.none) fun _ => ?_
  cases splitWs chunk with
  | nil => told
  | cons kw rest =>
    refine AllErr.ite (fun _ => told_account _ _ _ _) fun _ => ?_
    refine AllErr.ite (fun _ => ?_) fun _ => AllErr.ite (fun _ => ?_) fun _ =>
      AllErr.ite (fun _ => ?_) fun _ => ?_
    · cases rest <;> told
    · cases rest <;> told
    · cases rest with
      | nil => told
      | cons v l => exact hi _ _
    · exact AllErr.then (told_entry _ _ _ _ _) fun _ _ => told_addEntry _ _ _

theorem told_lines (env : Env) {incR : Ledger M × World → Str → Res (Ledger M × World)}
    {inc : Ledger M × World → Str → Option Err} (hi : ∀ st v, AllErr Told (inc st v))
    (ls : List Str) (st : Ledger M × World) (chunk : Str) :
    AllErr Told (linesWhy env incR inc ls st chunk) := by
  induction ls generalizing st chunk with
  | nil => exact told_chunk _ hi _ _
  | cons l ls ih =>
    unfold linesWhy
    simp only
    cases removeComments (trimEnd l) with
    | nil => exact ih _ _
    | cons c cs =>
      exact AllErr.ite (fun _ => ih _ _) fun _ => AllErr.then (told_chunk _ hi _ _) fun _ _ => ih _ _

theorem told_load (env : Env) (n : Nat) (st : Ledger M × World) (path : Str) :
    AllErr Told (fileWhy env n st path) := by
  induction n generalizing st path with
  | zero => told
  | succ n ih =>
    unfold fileWhy
    cases st.2.read path with
    | none => told
    | some s => exact told_lines _ (fun _ _ => ih _ _) _ _ _

theorem told_append (env : Env) (w : World) (l : Ledger M) (e : Entry M) :
    AllErr Told (appendWhy env w l e) := by
  refine AllErr.ite (fun _ => told_file _) fun _ => AllErr.then AllErr.none fun text _ => ?_
  cases w.append l.filePath ('\n' :: text) with
  | none => told
  | some w' => exact told_addEntry _ _ _

theorem told_fill (env : Env) (w : World) (l : Ledger M) : AllErr Told (fillWhy env w l) :=
  AllErr.then AllErr.none fun _ _ => AllErr.ite (fun _ => AllErr.none) fun _ => told_append _ _ _ _

theorem told_totals (es : List (Entry M)) (tot : List (Str × Pool M)) :
    AllErr Told (totalsWhy es tot) := by
  induction es generalizing tot with
  | nil => told
  | cons e es ih =>
    refine AllErr.then ?_ fun _ _ => ih _
    generalize e.postings = ps
    induction ps generalizing tot with
    | nil => told
    | cons p ps ih2 =>
      refine AllErr.then ?_ fun _ _ => ih2 _
      unfold totalsStepWhy
      cases mapGet tot p.account with
      | none => told
      | some pool =>
        cases p.amount with
        | some a => told
        | none => exact AllErr.then (told_blank _) fun _ _ => AllErr.none

theorem told_indexed (name : Str) {w : Option Err} (h : AllErr Told w) :
    AllErr Told (match stripPrefix s%"amount" name with
      | some _ => none
      | none =>
        match stripPrefix s%"account" name with
        | some _ => none
        | none => w) := by
  cases stripPrefix s%"amount" name with
  | some i => told
  | none =>
    cases stripPrefix s%"account" name with
    | some i => told
    | none => exact h

theorem told_reset (name line : Str) : AllErr Told (resetWhy name line) := by
  unfold resetWhy
  iterate 10 refine AllErr.ite (fun _ => by told) fun _ => ?_
  exact told_indexed _ (told_parseAt rfl)

theorem told_set (T : Texts) (name value line : Str) : AllErr Told (setWhy T name value line) := by
  unfold setWhy
  iterate 3 refine AllErr.ite (fun _ => by told) fun _ => ?_
  refine AllErr.ite (fun _ => AllErr.ite (fun _ => told_parseAt rfl) fun _ => AllErr.none) fun _ => ?_
  iterate 4 refine AllErr.ite (fun _ => by told) fun _ => ?_
  refine AllErr.ite (fun _ => ?_) fun _ =>
    AllErr.ite (fun _ => AllErr.none) fun _ => told_indexed _ (told_parseAt rfl)
  cases parseI32 value <;> told

theorem told_addLine (T : Texts) {inc : Rules → Str → Option Err}
    (hi : ∀ r v, AllErr Told (inc r v)) (r : Rules) (line : Str) :
    AllErr Told (addLineWhy T inc r line) :=
  AllErr.then (told_parseAt rfl) fun _ _ => AllErr.ite (fun _ => hi _ _) fun _ =>
    AllErr.ite (fun _ => told_reset _ _) fun _ => told_set _ _ _ _

theorem told_rootLine (T : Texts) {inc : Rules → Str → Option Err}
    (hi : ∀ r v, AllErr Told (inc r v)) (r : Rules) (l : Str) :
    AllErr Told (rootLineWhy T inc r l) :=
  AllErr.ite (fun _ => AllErr.none) fun _ => told_addLine T hi _ _

theorem told_ruleLines (T : Texts) {incR : Rules → Str → Res Rules}
    {inc : Rules → Str → Option Err} (hi : ∀ r v, AllErr Told (inc r v)) (ls : List Str)
    (r : Rules) (b : Block) : AllErr Told (ruleLinesWhy T incR inc ls r b) := by
  induction ls generalizing r b with
  | nil => told
  | cons l ls ih =>
    refine AllErr.then ?_ fun _ _ => ih _ _
    refine AllErr.ite (fun _ => AllErr.none) fun _ => ?_
    cases b with
    | root => exact told_rootLine T hi _ _
    | sub ps s inRules =>
      exact AllErr.ite (fun _ => told_addLine T hi _ _) fun _ =>
        AllErr.ite (fun _ => AllErr.none) fun _ => told_rootLine T hi _ _

theorem told_rulesFile (T : Texts) (w : World) (n : Nat) (r : Rules) (path : Str) :
    AllErr Told (rulesFileWhy T w n r path) := by
  induction n generalizing r path with
  | zero => told
  | succ n ih =>
    unfold rulesFileWhy
    cases w.read path with
    | none => told
    | some s => exact told_ruleLines T (fun _ _ => ih _ _) _ _ _

theorem told_vars (ps vs : List (Str × Str)) : AllErr Told (varsWhy ps vs) := by
  induction ps generalizing vs with
  | nil => told
  | cons p ps ih =>
    obtain ⟨n, v⟩ := p
    exact AllErr.ite (fun _ => told_parseErr rfl) fun _ => ih _

theorem told_recordPostings (env : Env) (v : RuleVals) (vars : List (Str × Str)) (known : List Str)
    (as : List (Str × Str)) : AllErr Told (recordPostingsWhy M env v vars known as) := by
  induction as with
  | nil => told
  | cons a as ih =>
    obtain ⟨i, acc⟩ := a
    exact AllErr.then (told_posting _ _ _) fun _ _ => ih

theorem told_complete (ps : List (Posting M)) (record : List Str) :
    AllErr Told (completeWhy ps record) := by
  unfold completeWhy
  rcases ps with _ | ⟨p, _ | ⟨q, ps⟩⟩
  · told
  · simp only
    cases p.amount <;> told
  · told

theorem told_valsEntry (T : Texts) (env : Env) (v : RuleVals) (record known : List Str) :
    AllErr Told (valsEntryWhy M T env v record known) := by
  unfold valsEntryWhy
  refine AllErr.then (told_vars _ _) fun vars _ => ?_
  simp only
  cases env.parseDate (inject env vars v.withDefaults.dateStr) v.withDefaults.dateFormat with
  | none => told
  | some d =>
    exact AllErr.then (told_status _) fun _ _ => AllErr.then (told_recordPostings _ _ _ _ _)
      fun _ _ => told_complete _ _

mutual
theorem told_rulesEntry (T : Texts) (env : Env) (record known : List Str) (r : Rules) :
    AllErr Told (rulesEntryWhy M T env record known r) := by
  match r with
  | .mk v subs =>
    unfold rulesEntryWhy
    have h := told_subEntry T env record known subs
    revert h
    cases subEntryWhy M T env record known subs with
    | none => intro _; exact told_valsEntry _ _ _ _ _
    | some w => intro h; exact h w rfl
theorem told_subEntry (T : Texts) (env : Env) (record known : List Str) (s : SubRules) :
    ∀ w, subEntryWhy M T env record known s = some w → AllErr Told w := by
  match s with
  | .nil =>
    unfold subEntryWhy
    intro w h
    cases h
  | .cons ps r rest =>
    unfold subEntryWhy
    intro w
    by_cases h : appliesTo env ps record = true
    · rw [if_pos h]
      intro hw
      cases hw
      exact told_rulesEntry T env record known r
    · rw [if_neg h]
      exact told_subEntry T env record known rest w
end

theorem told_records (T : Texts) (csv : Str) (rs : List (Option (List Str))) :
    AllErr Told (recordsWhy T csv rs) := by
  induction rs with
  | nil => told
  | cons r rs ih =>
    cases r with
    | none => told
    | some r => exact ih

theorem told_importer (T : Texts) (env : Env) (w : World) (fuel : Nat) (csv : Str)
    (rules : Option Str) : AllErr Told (importerWhy T env w fuel csv rules) := by
  unfold importerWhy
  cases w.read csv with
  | none => told
  | some c =>
    simp only
    cases w.read (rules.getD (csv ++ s%".rules")) with
    | none => told
    | some r =>
      exact AllErr.then (told_ruleLines T (fun _ _ => told_rulesFile _ _ _ _ _) _ _ _)
        fun _ _ => told_records _ _ _

theorem told_importLoop (T : Texts) (env : Env) (rules : Rules) (known : List Str)
    (rs : List (List Str)) (w : World) (l : Ledger M) :
    AllErr Told (importLoopWhy T env rules known rs w l) := by
  induction rs generalizing w l with
  | nil => told
  | cons r rs ih =>
    exact AllErr.then (told_rulesEntry _ _ _ _ _) fun _ _ =>
      AllErr.then (told_append _ _ _ _) fun _ _ => ih _ _

theorem told_runSub (T : Texts) (env : Env) (o : Outside) (f : Flags) (w : World) (l : Ledger M) :
    AllErr Told (runSubWhy T env o f w l) := by
  unfold runSubWhy
  cases f.sub with
  | summary => told
  | new => told
  | balance => exact told_totals _ _
  | envelopes => told
  | register => told
  | import_ =>
    simp only
    cases f.csv with
    | none => told
    | some c =>
      exact AllErr.then (told_importer _ _ _ _ _ _) fun _ _ => told_importLoop _ _ _ _ _ _ _

theorem told_parseFlags : ∀ args : List Str, AllErr Told (parseFlagsWhy args)
  | [] => AllErr.none
  | [a] => by
    unfold parseFlagsWhy
    exact AllErr.ite (fun _ => AllErr.none) fun _ => AllErr.some rfl
  | a :: v :: rest => by
    unfold parseFlagsWhy
    refine AllErr.ite (fun _ => told_parseFlags (v :: rest)) fun _ => ?_
    iterate 3 refine AllErr.ite (fun _ => told_parseFlags rest) fun _ => ?_
    exact AllErr.some rfl

theorem told_main (T : Texts) (env : Env) (o : Outside) (args : List Str) (w : World) :
    AllErr Told (mainWhy M T env o args w) := by
  refine AllErr.then ?_ fun x _ => ?_
  · cases args with
    | nil => told
    | cons s rest =>
      refine AllErr.then ?_ fun _ _ => told_parseFlags _
      unfold subcommandWhy
      cases Subcommand.parse s <;> told
  · cases x with
    | none => told
    | some f =>
      simp only
      unfold executeWhy
      cases f.file.or o.file with
      | none => told
      | some path =>
        refine AllErr.then (told_load _ _ _ _) fun lw _ => ?_
        exact AllErr.ite (fun _ => told_runSub _ _ _ _ _ _) fun _ =>
          AllErr.then (told_fill _ _ _) fun _ _ => told_runSub _ _ _ _ _ _

end

theorem Told.reported (T : Texts) {e : Err} (h : Told e) : Reported T e.kind (e.display T) := by
  cases e with
  | basic s =>
    cases s with
    | nil => cases h
    | cons c s => exact List.cons_ne_nil _ _
  | parse i =>
    obtain ⟨c, m⟩ := i
    obtain ⟨m', h, hm⟩ := h
    cases hm
    refine ⟨m', And.intro (fun hn => by rw [hn] at h; cases h) ?_⟩
    cases c with
    | none => exact .inr rfl
    | some c => exact .inl ⟨c, rfl⟩
  | validation i =>
    obtain ⟨c, m⟩ := i
    obtain ⟨m', h, hm⟩ := h
    cases hm
    refine ⟨m', And.intro (fun hn => by rw [hn] at h; cases h) ?_⟩
    cases c with
    | none => exact .inr rfl
    | some c => exact .inl ⟨c, rfl⟩
  | processing i =>
    obtain ⟨c, m⟩ := i
    obtain ⟨hc, m', h, hm⟩ := h
    cases hm
    cases c with
    | none => cases hc
    | some c => exact ⟨c, m', And.intro (fun hn => by rw [hn] at h; cases h) rfl⟩
  | file p => exact ⟨p, rfl⟩

/-- C111. A command that fails with an error prints a report in which a reason is given; a command
that does not fail with an error prints no report. -/
theorem C111_reason_given (M : Type) [Mag M] (T : Texts) (env : Env) (o : Outside)
    (args : List Str) (w : World) :
    match (mainProgram M env o args w).2 with
    | .error (.err k) => ∃ t, stderrText M T env o args w = some t ∧ Reported T k t
    | _ => stderrText M T env o args w = none := by
  have h := tells_main (M := M) T env o args w
  have ht := told_main (M := M) T env o args w
  unfold Tells at h
  unfold stderrText
  cases hw : mainWhy M T env o args w with
  | none =>
    rw [hw] at h
    split
    · rename_i k hk
      rw [hk] at h
      cases h
    · rfl
  | some e =>
    rw [hw] at h
    split
    · rename_i k hk
      rw [hk] at h
      cases h
      exact ⟨_, rfl, (ht e hw).reported T⟩
    · rename_i hk
      revert h hk
      cases (mainProgram M env o args w).2 with
      | ok x => intro h; cases h
      | error f =>
        cases f with
        | panic => intro h; cases h
        | err k => intro _ hk; exact (hk k rfl).elim

/-- Some library texts. -/
def exTexts : Texts := ⟨fun _ => s%"(io)", fun _ _ => s%"(date)", fun _ => s%"(int)", fun _ => s%"(csv)"⟩

/-- What the command `balance` prints as an error for the journal `t`. -/
def exReport (t : String) : Option Str :=
  stderrText F64 exTexts (stdEnv june15) ⟨none, none, true, 9⟩ [s%"balance", s%"-f", s%"/h/j"]
    (disk [("j", t)])

example : exReport "account a\n2024/01/02 * x\n  a  3\n  b\n" =
    some s%"silverfox flagged your journal file as invalid: the account `b` is not defined in your journal" := by
  decide +kernel

example : exReport "account a\naccount b\n2024/01/02 * x\n  a\n  b\n" =
    some s%"the following is invalid to silverfox:\n\n2024/01/02 * x\n  a\n  b\n\na single entry can't have more than one blank posting" := by
  decide +kernel

example : exReport "include k" = some s%"silverfox encountered an i/o error: (io)\n(file: k)" := by
  decide +kernel

example : exReport "account a\naccount b\n2024/01/02 * x\n  a  3\n  b\n" = none := by decide +kernel

end Silverfox
