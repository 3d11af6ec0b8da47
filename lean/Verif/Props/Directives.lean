import Verif.Props.Ledger

/-
C56 (directives) and C57 (balance assertions).
-/

namespace Silverfox

set_option linter.unusedSectionVars false
variable {M : Type} [Mag M]

/-! ### C56: `date_format` -/

/-- Specification: the date format in force after some items: that of the last `date_format`. -/
def formatAfter (start : Str) (is : List (Item M)) : Str :=
  is.foldl (fun f i => match i with
    | .dateFormat v => v
    | _ => f) start

theorem steps_format (env : Env) (l l' : Ledger M) (is : List (Item M)) (h : Steps env l is l') :
    l'.dateFormat = formatAfter l.dateFormat is := by
  induction h with
  | refl => rfl
  | tail _ hs ih =>
    unfold formatAfter at ih ⊢
    rw [List.foldl_append, ← ih]
    cases hs with
    | account => rfl
    | entry _ _ _ _ h' =>
      obtain ⟨_, _, rfl, _⟩ := addEntry_ok _ _ _ _ h'
      rfl
    | currency => rfl
    | dateFormat => rfl

theorem steps_split (env : Env) (l l' : Ledger M) (is : List (Item M)) (h : Steps env l is l')
    (pre post : List (Item M)) (i : Item M) (hs : is = pre ++ i :: post) :
    ∃ l1 l2, Steps env l pre l1 ∧ Step env l1 i l2 := by
  induction h generalizing post with
  | refl => simp at hs
  | @tail is j l1 l2 hsteps hstep ih =>
    rcases List.eq_nil_or_concat post with rfl | ⟨post', x, rfl⟩
    · have := List.append_inj' hs rfl
      obtain ⟨rfl, h2⟩ := this
      simp only [List.cons.injEq, and_true] at h2
      subst h2
      exact ⟨l1, l2, hsteps, hstep⟩
    · have hs' : is ++ [j] = (pre ++ i :: post') ++ [x] := by
        rw [hs]; simp
      obtain ⟨h1, _⟩ := List.append_inj' hs' rfl
      exact ih post' h1

/-- C56: every entry is read with the format of the last `date_format` line before it, `%Y/%m/%d` if
there is none. -/
theorem C56_entry_uses_last_format (env : Env) (path : Str) (is pre post : List (Item M))
    (l : Ledger M) (e : Entry M) (h : Steps env (Ledger.new path) is l)
    (hs : is = pre ++ .entry e :: post) :
    ∃ chunk accs, Entry.parse env chunk (formatAfter s%"%Y/%m/%d" pre) '.' accs = .ok e := by
  obtain ⟨l1, l2, h1, h2⟩ := steps_split env _ _ is h pre post _ hs
  cases h2 with
  | entry _ chunk _ hp _ =>
    refine ⟨chunk, l1.accountNames, ?_⟩
    rw [steps_format env _ _ pre h1, h1.filePath.2] at hp
    exact hp

/-- C56: so is every account, with its envelopes' dates. -/
theorem C56_account_uses_last_format (env : Env) (path : Str) (is pre post : List (Item M))
    (l : Ledger M) (a : Account M) (h : Steps env (Ledger.new path) is l)
    (hs : is = pre ++ .account a :: post) :
    ∃ chunk, Account.parse env chunk '.' (formatAfter s%"%Y/%m/%d" pre) = .ok a := by
  obtain ⟨l1, l2, h1, h2⟩ := steps_split env _ _ is h pre post _ hs
  cases h2 with
  | account chunk _ hp =>
    refine ⟨chunk, ?_⟩
    rw [steps_format env _ _ pre h1, h1.filePath.2] at hp
    exact hp

/-- C56: a `date_format` line sets the format and nothing else, so what was read before stays. -/
theorem C56_date_format_line (env : Env) (inc : Ledger M × World → Str → Res (Ledger M × World))
    (l : Ledger M) (w : World) (chunk v : Str) (rest : List Str)
    (h : splitWs chunk = s%"date_format" :: v :: rest) :
    Ledger.parseChunk env inc (l, w) chunk = .ok ({ l with dateFormat := v }, w) := by
  unfold Ledger.parseChunk
  have hc : chunk.isEmpty = false := by
    cases chunk with
    | nil => simp [splitWs] at h
    | cons => rfl
  simp [hc, h]

/-- Two formats in one journal. -/
example : ∃ l, loadText Rat "account a\n2024/01/05 * x\n a 1\ndate_format %d.%m.%Y\n04.01.2024 * y\n a 2\n" = .ok l ∧
    l.entries.map (fun e => (e.description, e.date.d)) = [(s%"y", 4), (s%"x", 5)] := by decide +kernel

/-! ### C56: `currency` -/

/-- Equal but for the currency. -/
def SameButCurrency (l l' : Ledger M) : Prop :=
  l.filePath = l'.filePath ∧ l.entries = l'.entries ∧ l.dateFormat = l'.dateFormat ∧
  l.accounts = l'.accounts ∧ l.decimal = l'.decimal

/-- Equal outcomes but for the currency. -/
def SameRes (r r' : Res (Ledger M × World)) : Prop :=
  match r, r' with
  | .ok a, .ok b => SameButCurrency a.1 b.1 ∧ a.2 = b.2
  | .error f, .error g => f = g
  | _, _ => False

theorem SameRes.trans {a b c : Res (Ledger M × World)} (h : SameRes a b) (h' : SameRes b c) :
    SameRes a c := by
  unfold SameRes SameButCurrency at *
  cases a <;> cases b <;> cases c <;> simp_all

theorem parseChunk_currency (env : Env) (inc inc' : Ledger M × World → Str → Res (Ledger M × World))
    (hinc : ∀ l l' w p, SameButCurrency l l' → SameRes (inc (l, w) p) (inc' (l', w) p))
    (l l' : Ledger M) (w : World) (hl : SameButCurrency l l') (chunk : Str) :
    SameRes (Ledger.parseChunk env inc (l, w) chunk) (Ledger.parseChunk env inc' (l', w) chunk) := by
  have hrefl : SameRes (.ok (l, w)) (.ok (l', w)) := ⟨hl, rfl⟩
  have hl' := hl
  obtain ⟨h1, h2, h3, h4, h5⟩ := hl'
  unfold Ledger.parseChunk
  split
  · exact hrefl
  · split
    · exact hrefl
    · split
      · simp only [Ledger.parseAccount, h3, h4, h5, bind, Except.bind, pure, Except.pure]
        split
        · rename_i f hf
          split at hf
          · cases hf; rfl
          · cases hf
        · rename_i x hx
          split at hx
          · cases hx
          · cases hx
            exact ⟨⟨h1, h2, rfl, rfl, rfl⟩, rfl⟩
      · split
        · split
          · exact ⟨⟨h1, h2, h3, h4, h5⟩, rfl⟩
          · rfl
        · split
          · split
            · exact ⟨⟨h1, h2, rfl, h4, h5⟩, rfl⟩
            · rfl
          · split
            · split
              · exact hinc l l' w _ hl
              · rfl
            · simp only [Ledger.parseEntry, Ledger.accountNames, Ledger.addEntry, h2, h3, h4, h5, bind,
                Except.bind, pure, Except.pure]
              generalize (Entry.parse env chunk l'.dateFormat l'.decimal (l'.accounts.map Prod.fst) : Res (Entry M)) = r
              cases r with
              | error f => rfl
              | ok e =>
                simp only
                generalize Ledger.processAll env.today e (env.ord l'.accounts) = r1
                generalize Ledger.processAll env.today e l'.accounts = r2
                cases r1 with
                | error f => rfl
                | ok a =>
                  cases r2 with
                  | error f => rfl
                  | ok b => exact ⟨⟨h1, rfl, rfl, rfl, rfl⟩, rfl⟩

theorem addLinesFrom_currency (env : Env) (inc inc' : Ledger M × World → Str → Res (Ledger M × World))
    (hinc : ∀ l l' w p, SameButCurrency l l' → SameRes (inc (l, w) p) (inc' (l', w) p)) (ls : List Str)
    (l l' : Ledger M) (w : World) (hl : SameButCurrency l l') (chunk : Str) :
    SameRes (Ledger.addLinesFrom env inc ls (l, w) chunk) (Ledger.addLinesFrom env inc' ls (l', w) chunk) := by
  induction ls generalizing l l' w chunk with
  | nil => exact parseChunk_currency env inc inc' hinc l l' w hl chunk
  | cons x ls ih =>
    simp only [Ledger.addLinesFrom]
    split
    · exact ih l l' w hl chunk
    · split
      · exact ih l l' w hl _
      · have := parseChunk_currency env inc inc' hinc l l' w hl chunk
        simp only [bind, Except.bind]
        revert this
        generalize Ledger.parseChunk env inc (l, w) chunk = r
        generalize Ledger.parseChunk env inc' (l', w) chunk = r'
        intro h
        cases r with
        | error f => cases r' with
          | error g => exact h
          | ok b => exact h.elim
        | ok a => cases r' with
          | error g => exact h.elim
          | ok b =>
            obtain ⟨a1, a2⟩ := a
            obtain ⟨b1, b2⟩ := b
            obtain ⟨h1, h2⟩ := h
            simp only at h2
            subst h2
            exact ih a1 b1 a2 h1 _

/-- C56: the currency set so far has no influence on what is read later. -/
theorem C56_currency_not_used_in_loading (env : Env) (fuel : Nat) (l l' : Ledger M) (w : World)
    (hl : SameButCurrency l l') (path : Str) :
    SameRes (Ledger.addFromFile env fuel (l, w) path) (Ledger.addFromFile env fuel (l', w) path) := by
  induction fuel generalizing l l' w path with
  | zero => rfl
  | succ f ih =>
    simp only [Ledger.addFromFile]
    split
    · rfl
    · exact addLinesFrom_currency env _ _ (fun l l' w p h => ih l l' w h p) _ l l' _ hl []

/-- C56 is false for `currency`, in every journal: a `currency` line before an item, or at the end of
the file, changes nothing that is loaded but the name of the currency, which nothing reads. -/
theorem C56_currency_line_has_no_effect (env : Env) (fuel : Nat) (pre post : List Str)
    (line v : Str) (more : List Str) (c : Char) (r : Str)
    (hline : removeComments (trimEnd line) = c :: r) (hc : isWs c = false)
    (htok : splitWs (c :: r) = s%"currency" :: v :: more)
    (hpost : post = [] ∨ ∃ x ls d s, post = x :: ls ∧ removeComments (trimEnd x) = d :: s ∧ isWs d = false)
    (l : Ledger M) (w : World) (chunk : Str) :
    SameRes (Ledger.addLinesFrom env (Ledger.addFromFile env fuel) (pre ++ line :: post) (l, w) chunk)
      (Ledger.addLinesFrom env (Ledger.addFromFile env fuel) (pre ++ post) (l, w) chunk) := by
  have hinc := fun l l' w p h => C56_currency_not_used_in_loading (M := M) env fuel l l' w h p
  have hcur : ∀ (l : Ledger M) (w : World),
      Ledger.parseChunk env (Ledger.addFromFile env fuel) (l, w) (c :: r)
        = .ok ({ l with currency := v }, w) := by
    intro l w
    unfold Ledger.parseChunk
    simp [htok]
  have hsame : ∀ l : Ledger M, SameButCurrency { l with currency := v } l :=
    fun l => ⟨rfl, rfl, rfl, rfl, rfl⟩
  have hself : ∀ l : Ledger M, SameButCurrency l l := fun l => ⟨rfl, rfl, rfl, rfl, rfl⟩
  induction pre generalizing l w chunk with
  | nil =>
    simp only [List.nil_append, Ledger.addLinesFrom, hline, hc, Bool.false_eq_true, if_false]
    rcases hpost with rfl | ⟨x, ls, d, s, rfl, hx, hd⟩
    · simp only [Ledger.addLinesFrom, bind, Except.bind]
      cases h : Ledger.parseChunk env (Ledger.addFromFile env fuel) (l, w) chunk with
      | error f => rfl
      | ok st =>
        obtain ⟨l1, w1⟩ := st
        simp only [hcur]
        exact ⟨hsame l1, rfl⟩
    · simp only [Ledger.addLinesFrom, hx, hd, Bool.false_eq_true, if_false, bind, Except.bind]
      cases h : Ledger.parseChunk env (Ledger.addFromFile env fuel) (l, w) chunk with
      | error f => rfl
      | ok st =>
        obtain ⟨l1, w1⟩ := st
        simp only [hcur]
        exact addLinesFrom_currency env _ _ hinc ls _ _ w1 (hsame l1) _
  | cons y pre ih =>
    simp only [List.cons_append, Ledger.addLinesFrom]
    split
    · exact ih l w chunk
    · split
      · exact ih l w _
      · simp only [bind, Except.bind]
        cases h : Ledger.parseChunk env (Ledger.addFromFile env fuel) (l, w) chunk with
        | error f => rfl
        | ok st => exact ih st.1 st.2 _

/-- C56: nothing that is shown or written depends on the currency. -/
theorem C56_currency_not_shown (env : Env) (o : Outside) (f : Flags) (w : World) (l l' : Ledger M)
    (h : SameButCurrency l l') :
    (l.displayBalance env = l'.displayBalance env) ∧ (l.displayEnvelopes env = l'.displayEnvelopes env) ∧
    (f.sub ≠ .import_ → runSub env o f w l = runSub env o f w l') := by
  obtain ⟨h1, h2, h3, h4, h5⟩ := h
  have hb : l.displayBalance env = l'.displayBalance env := by
    unfold Ledger.displayBalance Ledger.totals; rw [h2]
  have he : l.displayEnvelopes env = l'.displayEnvelopes env := by
    unfold Ledger.displayEnvelopes Ledger.accountNames; rw [h4]
  refine ⟨hb, he, fun hi => ?_⟩
  unfold runSub
  cases hs : f.sub with
  | import_ => exact absurd hs hi
  | balance => simp only [hb]
  | envelopes => simp only [he]
  | register => simp only [h2, h3]
  | summary => rfl
  | new => rfl

/-- C56 is false for `currency`: after `currency $` an amount without symbol has no symbol. -/
theorem C56_currency_is_ignored :
    ∃ l, loadText Rat "currency $\naccount a\n2024/01/05 * x\n a 1\n" = .ok l ∧
      l.currency = s%"$" ∧
      l.entries.map (fun e => e.postings.map Posting.amount) = [[some ⟨1, none⟩]] := by decide +kernel

/-! ### C57 -/

theorem takeWhile_all {α : Type} {p : α → Bool} {l : List α} (h : ∀ a ∈ l, p a = true) :
    l.takeWhile p = l := by
  induction l with
  | nil => rfl
  | cons a l ih => simp [h a (by simp), ih fun b hb => h b (by simp [hb])]

theorem dropWhile_all {α : Type} {p : α → Bool} {l : List α} (h : ∀ a ∈ l, p a = true) :
    l.dropWhile p = [] := by
  induction l with
  | nil => rfl
  | cons a l ih => simp [h a (by simp), ih fun b hb => h b (by simp [hb])]

/-- A posting without its balance assertion. -/
def Posting.noAssert : Posting M → Posting M
  | .classic c => .classic { c with balance := none }
  | .envelope e => .envelope e

/-- An entry without balance assertions. -/
def Entry.noAssert (e : Entry M) : Entry M := { e with postings := e.postings.map Posting.noAssert }

@[simp] theorem noAssert_amount (p : Posting M) : p.noAssert.amount = p.amount := by cases p <;> rfl
@[simp] theorem noAssert_account (p : Posting M) : p.noAssert.account = p.account := by cases p <;> rfl
@[simp] theorem noAssert_isEnvelope (p : Posting M) : p.noAssert.isEnvelope = p.isEnvelope := by
  cases p <;> rfl
@[simp] theorem noAssert_nativeValue (p : Posting M) : p.noAssert.nativeValue = p.nativeValue := by
  cases p <;> rfl

theorem noAssert_dropWhile (ps : List (Posting M)) :
    (ps.map Posting.noAssert).dropWhile (fun p => p.amount.isNone)
      = (ps.dropWhile fun p => p.amount.isNone).map Posting.noAssert := by
  induction ps with
  | nil => rfl
  | cons p ps ih =>
    simp only [List.map_cons, List.dropWhile_cons, noAssert_amount]
    split
    · exact ih
    · rfl

theorem noAssert_blankMixed (ps : List (Posting M)) (m : M) :
    blankMixed (ps.map Posting.noAssert) m = blankMixed ps m := by
  induction ps generalizing m with
  | nil => rfl
  | cons p ps ih => simp only [List.map_cons, blankMixed, noAssert_nativeValue, noAssert_amount, ih]

theorem noAssert_blankRest (ps : List (Posting M)) (b : Amount M) :
    blankRest (ps.map Posting.noAssert) b = blankRest ps b := by
  induction ps generalizing b with
  | nil => rfl
  | cons p ps ih => simp only [List.map_cons, blankRest, noAssert_amount, ih]

theorem noAssert_blankAmount (e : Entry M) : e.noAssert.blankAmount = e.blankAmount := by
  unfold Entry.blankAmount Entry.hasBlank Entry.hasMixed Entry.noAssert
  simp only [noAssert_dropWhile, noAssert_blankMixed, List.any_map]
  have hb : (e.postings.any ((fun p => p.amount.isNone) ∘ Posting.noAssert))
      = e.postings.any fun p => p.amount.isNone := by
    congr 1; funext p; simp
  rw [hb]
  split
  · rfl
  · cases hd : e.postings.dropWhile (fun p => p.amount.isNone) with
    | nil => rfl
    | cons p rest =>
      simp only [List.map_cons, noAssert_amount, List.any_map, Function.comp_def, noAssert_blankRest]

theorem noAssert_inferLoop (e : Envelope M) (x : Entry M) (ps : List (Posting M)) (s a : Amount M) :
    e.inferLoop x.noAssert (ps.map Posting.noAssert) s a = e.inferLoop x ps s a := by
  induction ps generalizing s a with
  | nil => rfl
  | cons p ps ih =>
    have hi : e.inferAmount x.noAssert p.noAssert = e.inferAmount x p := by
      unfold Envelope.inferAmount
      rw [noAssert_blankAmount, noAssert_amount, noAssert_nativeValue]
    simp only [List.map_cons, Envelope.inferLoop, noAssert_account, hi, ih]

theorem noAssert_processReal (n : Str) (x : Entry M) (ps : List (Posting M)) (r : Pool M) :
    Account.processReal n x.noAssert (ps.map Posting.noAssert) r = Account.processReal n x ps r := by
  induction ps generalizing r with
  | nil => rfl
  | cons p ps ih =>
    simp only [List.map_cons, Account.processReal, noAssert_account, noAssert_isEnvelope, noAssert_amount,
      noAssert_blankAmount, ih]

theorem noAssert_envelopePostings (x : Entry M) : x.noAssert.envelopePostings = x.envelopePostings := by
  unfold Entry.envelopePostings Entry.noAssert
  simp only [List.filterMap_map]
  congr 1
  funext p
  cases p <;> rfl

theorem noAssert_envelope (today : Date) (e : Envelope M) (x : Entry M) :
    e.processEntry today x.noAssert = e.processEntry today x := by
  unfold Envelope.processEntry
  have h1 : x.noAssert.hasEnvelopePosting = x.hasEnvelopePosting := by
    unfold Entry.hasEnvelopePosting Entry.noAssert
    rw [List.any_map]; congr 1; funext p; simp
  rw [h1, noAssert_envelopePostings]
  have h2 : e.infer today x.noAssert = e.infer today x := by
    unfold Envelope.infer
    have h3 : x.noAssert.postings = x.postings.map Posting.noAssert := rfl
    have h4 : x.noAssert.date = x.date := rfl
    simp only [h3, h4, List.countP_map, Function.comp_def, noAssert_account, noAssert_inferLoop]
  rw [h2]; rfl

theorem noAssert_processEnvelopes (today : Date) (x : Entry M) (es : List (Envelope M)) :
    Account.processEnvelopes today x.noAssert es = Account.processEnvelopes today x es := by
  induction es with
  | nil => rfl
  | cons e es ih => simp only [Account.processEnvelopes, noAssert_envelope, ih]

/-- C57 is false, for every entry: no account is ever treated differently because of a balance
assertion. -/
theorem C57_assertions_do_not_matter (today : Date) (a : Account M) (x : Entry M) :
    a.processEntry today x.noAssert = a.processEntry today x := by
  unfold Account.processEntry
  rw [noAssert_processEnvelopes, noAssert_processEnvelopes]
  have h3 : x.noAssert.postings = x.postings.map Posting.noAssert := rfl
  rw [h3, noAssert_processReal]

theorem noAssert_processAll (today : Date) (x : Entry M) (as : List (Str × Account M)) :
    Ledger.processAll today x.noAssert as = Ledger.processAll today x as := by
  induction as with
  | nil => rfl
  | cons p as ih =>
    obtain ⟨k, a⟩ := p
    simp only [Ledger.processAll, C57_assertions_do_not_matter, ih]

/-- C57 is false: an entry is accepted by the ledger, whatever balance it asserts, exactly if it is
accepted without assertion, and the accounts are then the same. -/
theorem C57_accepted_regardless (env : Env) (l : Ledger M) (x : Entry M) :
    (l.addEntry env x.noAssert).map Ledger.accounts = (l.addEntry env x).map Ledger.accounts := by
  unfold Ledger.addEntry
  simp only [noAssert_processAll, bind, Except.bind, pure, Except.pure]
  split
  · rfl
  · split <;> rfl

/-! ### Whole journals -/

/-- An item of a journal without balance assertions. -/
def Item.noAssert : Item M → Item M
  | .entry e => .entry e.noAssert
  | i => i

/-- The items of a journal, one after the other, up to the first that fails. -/
def runItems (env : Env) : List (Item M) → Ledger M → Res (Ledger M)
  | [], l => .ok l
  | i :: is, l => do
    let l ← i.run env l
    runItems env is l

/-- Two ledgers with the same accounts and settings. -/
def Ledger.SameAccounts (l l' : Ledger M) : Prop :=
  l'.accounts = l.accounts ∧ l'.dateFormat = l.dateFormat ∧ l'.decimal = l.decimal ∧ l'.currency = l.currency

/-- Both fail alike, or both give ledgers with the same accounts. -/
def SameOutcome : Res (Ledger M) → Res (Ledger M) → Prop
  | .ok l, .ok l' => l.SameAccounts l'
  | .error x, .error y => x = y
  | _, _ => False

theorem addEntry_sameOutcome (env : Env) (l l' : Ledger M) (x : Entry M) (h : l.SameAccounts l') :
    SameOutcome (l.addEntry env x) (l'.addEntry env x.noAssert) := by
  obtain ⟨h1, h2, h3, h4⟩ := h
  unfold Ledger.addEntry
  simp only [noAssert_processAll, bind, Except.bind, pure, Except.pure, h1]
  cases Ledger.processAll env.today x (env.ord l.accounts) with
  | error => exact rfl
  | ok =>
    cases Ledger.processAll env.today x l.accounts with
    | error => exact rfl
    | ok => exact ⟨rfl, h2, h3, h4⟩

/-- C57 is false, for whole journals: whatever balances are asserted in a journal, it is accepted or
refused, and the accounts come out, as if none were. -/
theorem C57_journal_regardless (env : Env) (is : List (Item M)) (l l' : Ledger M) (h : l.SameAccounts l') :
    SameOutcome (runItems env is l) (runItems env (is.map Item.noAssert) l') := by
  induction is generalizing l l' with
  | nil => exact h
  | cons i is ih =>
    have hi : SameOutcome (i.run env l) (i.noAssert.run env l') := by
      obtain ⟨h1, h2, h3, h4⟩ := h
      cases i with
      | account a => exact ⟨by simp only [h1], h2, h3, h4⟩
      | entry e => exact addEntry_sameOutcome env l l' e ⟨h1, h2, h3, h4⟩
      | currency v => exact ⟨h1, h2, h3, rfl⟩
      | dateFormat v => exact ⟨h1, rfl, h3, h4⟩
    simp only [List.map_cons, runItems, bind, Except.bind]
    generalize i.run env l = a at hi ⊢
    generalize i.noAssert.run env l' = b at hi ⊢
    cases a with
    | error x =>
      cases b with
      | error y => exact hi
      | ok _ => exact hi.elim
    | ok m =>
      cases b with
      | error y => exact hi.elim
      | ok m' => exact ih m m' hi

theorem runItems_snoc (env : Env) (is : List (Item M)) (i : Item M) (l : Ledger M) :
    runItems env (is ++ [i]) l = (runItems env is l).bind (i.run env) := by
  induction is generalizing l with
  | nil => simp only [List.nil_append, runItems, bind, Except.bind]; split <;> simp_all
  | cons j is ih =>
    simp only [List.cons_append, runItems, bind, Except.bind]
    cases j.run env l with
    | error => rfl
    | ok m => exact ih m

theorem steps_runItems (env : Env) (l l' : Ledger M) (is : List (Item M)) (h : Steps env l is l') :
    runItems env is l = .ok l' := by
  induction h with
  | refl => rfl
  | tail _ hs ih =>
    rw [runItems_snoc, ih]
    cases hs with
    | account => rfl
    | entry _ _ _ _ h' => exact h'
    | currency => rfl
    | dateFormat => rfl

/-- C57 is false, for every journal file that is loaded: the accounts are those of its items without the
assertions. -/
theorem C57_loaded_regardless (env : Env) (fuel : Nat) (w w' : World) (path : Str) (l : Ledger M)
    (h : Ledger.fromFile env fuel w path = .ok (l, w')) :
    ∃ is l', Steps env (Ledger.new path) is l ∧
      runItems env (is.map Item.noAssert) (Ledger.new path) = .ok l' ∧ l'.accounts = l.accounts := by
  obtain ⟨⟨is, hs⟩, _⟩ := addFromFile_sound env fuel _ _ path h
  refine ⟨is, ?_⟩
  have := C57_journal_regardless env is (Ledger.new path : Ledger M) (Ledger.new path) ⟨rfl, rfl, rfl, rfl⟩
  rw [steps_runItems env _ _ is hs] at this
  cases hr : runItems env (is.map Item.noAssert) (Ledger.new path : Ledger M) with
  | error x => rw [hr] at this; exact this.elim
  | ok l' => rw [hr] at this; exact ⟨l', hs, rfl, this.1⟩

/-- C57 is false: any amount that can be read may be asserted. `acc am ! b` is accepted with the
amount `am`, for every `b`. -/
theorem C57_any_assertion_is_read (line : Str) (dec : Char) (accs : List Str) (acc : Str)
    (am b : List Str) (v : Amount M)
    (hline : splitWs (trim (removeComments line)) = acc :: (am ++ s%"!" :: b))
    (ham : ∀ t ∈ am, isOp t = false) (hb : ∀ t ∈ b, isOp t = false) (hacc : acc ∈ accs)
    (hv : Amount.parse (joinWith [' '] b) dec = .ok v)
    (a : Option (Amount M)) (ha : Classic.parseAmount am dec = .ok a) :
    Classic.parse line dec accs = .ok ⟨acc, a, none, some v⟩ := by
  have hne : ∀ (ts : List Str), (∀ t ∈ ts, isOp t = false) → ∀ t ∈ ts,
      t ≠ s%"!" ∧ t ≠ s%"!!" ∧ t ≠ s%"@" ∧ t ≠ s%"=" := by
    intro ts h t ht
    have := h t ht
    simp only [isOp, Bool.or_eq_false_iff, beq_eq_false_iff_ne] at this
    tauto
  have ham' := hne am ham
  have hb' := hne b hb
  have htake : (am ++ s%"!" :: b).takeWhile (fun t => !isOp t) = am := by
    rw [List.takeWhile_append_of_pos (fun t ht => by simp [ham t ht])]
    simp [isOp]
  have htake0 : am.takeWhile (fun t => !isOp t) = am :=
    takeWhile_all (fun t ht => by simp [ham t ht])
  have h1 : Classic.parseAmount (am ++ s%"!" :: b) dec = .ok a := by
    unfold Classic.parseAmount at ha ⊢
    rw [htake]; rw [htake0] at ha; exact ha
  have hdrop : ∀ (want : Str), want ≠ s%"!" → (∀ t ∈ am, t ≠ want) → (∀ t ∈ b, t ≠ want) →
      (am ++ s%"!" :: b).dropWhile (fun t => t != want) = [] := by
    intro want hw h1 h2
    apply dropWhile_all
    intro t ht
    rw [List.mem_append, List.mem_cons] at ht
    rcases ht with ht | rfl | ht
    · simp [h1 t ht]
    · simp only [bne_iff_ne]; exact fun e => hw e.symm
    · simp [h2 t ht]
  have h2 : Classic.parseBalance (am ++ s%"!" :: b) dec = .ok (some v) := by
    unfold Classic.parseBalance extractAmount
    rw [List.dropWhile_append_of_pos (fun t ht => by simp [(ham' t ht).1])]
    simp only [List.dropWhile_cons, bne_self_eq_false, Bool.false_eq_true, if_false]
    rw [takeWhile_all (fun t ht => by simp [hb' t ht]), hv]
    rfl
  have h3 : (Classic.parseCost (am ++ s%"!" :: b) dec : Res (Option (Cost M))) = .ok none := by
    unfold Classic.parseCost Classic.parsePrice Classic.parseTotal extractAmount
    rw [hdrop s%"@" (by decide) (fun t ht => (ham' t ht).2.2.1) (fun t ht => (hb' t ht).2.2.1),
      hdrop s%"=" (by decide) (fun t ht => (ham' t ht).2.2.2) (fun t ht => (hb' t ht).2.2.2)]
    rfl
  unfold Classic.parse
  rw [hline]
  simp only [h1, h2, h3, bind, Except.bind, pure, Except.pure, List.contains_iff_mem.2 hacc, if_true]

/-- C57 is false: the account holds 10, the journal says it should be 99, and is loaded. -/
theorem C57_wrong_assertion_is_loaded :
    ∃ l, loadText Rat "account a\naccount b\n2024/01/05 * x\n a 10 ! 99\n b -10\n" = .ok l ∧
      (∃ a, mapGet l.accounts s%"a" = some a ∧ a.real = [⟨10, none⟩]) ∧
      l.entries.map (fun e => e.postings) = [[.classic ⟨s%"a", some ⟨10, none⟩, none, some ⟨99, none⟩⟩,
        .classic ⟨s%"b", some ⟨-10, none⟩, none, none⟩]] := by decide +kernel

end Silverfox
