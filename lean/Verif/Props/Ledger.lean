import Verif.Proofs.Loading
import Verif.Proofs.Check
import Verif.Props.Accounts
import Verif.Codec

/-
The ledger: C47, C51, C52, C55.
-/

namespace Silverfox

set_option linter.unusedSectionVars false
variable {M : Type} [Mag M]

/-! ### Journals for the examples -/

/-- A disk with one directory `/h`, where silverfox is started. -/
def disk (files : List (String × String)) : World where
  file := fun p => match p with
    | [d, n] => if d = s%"h" then
        (files.find? fun f => f.1.toList == n).map fun f => f.2.toList else none
    | _ => none
  canAppend := fun _ => true
  cwd := [s%"h"]

/-- The ledger loaded from the journal `j` in `/h`. -/
def loadText (M : Type) [Mag M] (text : String) : Res (Ledger M) :=
  (Ledger.fromFile (stdEnv june15) 9 (disk [("j", text)]) s%"j").map Prod.fst

/-! ### C47 -/

/-- Insert several entries. -/
def Ledger.addEntries (env : Env) : List (Entry M) → Ledger M → Res (Ledger M)
  | [], l => .ok l
  | e :: es, l => do
    let l ← l.addEntry env e
    addEntries env es l

/-- Specification: `es` is `given` put in order of date, entries of one date staying in the order
in which they were given. -/
structure DateOrdered (given es : List (Entry M)) : Prop where
  /-- no entry comes before one of an earlier date -/
  sorted : es.Pairwise fun a b => Date.lt b.date a.date = false
  /-- none is lost, none is added -/
  same : es.Perm given
  /-- those of one date keep their order -/
  stable : ∀ d : Date, (es.filter fun e => e.date = d) = given.filter fun e => e.date = d

theorem DateOrdered.snoc {given es : List (Entry M)} (h : DateOrdered given es) (e : Entry M) :
    DateOrdered (given ++ [e]) (stableSort (fun a b => Date.lt a.date b.date) (es ++ [e])) := by
  refine ⟨?_, ?_, ?_⟩
  · apply stableSort_sorted
    · intro a b c h1 h2
      rw [Date.lt_false_iff_dayNum] at h1 h2 ⊢
      omega
    · intro a b h1
      rw [Date.lt_iff_dayNum] at h1
      rw [Date.lt_false_iff_dayNum]
      omega
  · exact (stableSort_perm _ _).trans (h.same.append_right [e])
  · intro d
    rw [stableSort_filter, List.filter_append, List.filter_append, h.stable]
    intro a b ha hb
    simp only [decide_eq_true_eq] at ha hb
    rw [Date.lt_false_iff_dayNum, ha, hb]

theorem addEntries_dateOrdered (env : Env) (es given : List (Entry M)) (l l' : Ledger M)
    (h : Ledger.addEntries env es l = .ok l') (hl : DateOrdered given l.entries) :
    DateOrdered (given ++ es) l'.entries := by
  induction es generalizing l given with
  | nil => cases h; simpa using hl
  | cons e es ih =>
    simp only [Ledger.addEntries, bind, Except.bind] at h
    split at h
    · cases h
    · rename_i l1 h1
      obtain ⟨_, _, rfl, _⟩ := addEntry_ok _ _ _ _ h1
      have := ih (given ++ [e]) _ h (hl.snoc e)
      simpa using this

/-- C47: after any sequence of insertions into an empty ledger, the entries are sorted by date,
those of one date in order of insertion, and none is lost or duplicated. -/
theorem C47_date_order (env : Env) (path : Str) (es : List (Entry M)) (l : Ledger M)
    (h : Ledger.addEntries env es (Ledger.new path) = .ok l) : DateOrdered es l.entries := by
  have := addEntries_dateOrdered env es [] (Ledger.new path) l h ⟨List.Pairwise.nil, .refl _, fun _ => rfl⟩
  simpa using this

/-- The entries among some items. -/
def entriesOf (is : List (Item M)) : List (Entry M) :=
  is.filterMap fun i => match i with
    | .entry e => some e
    | _ => none

theorem entriesOf_snoc_entry (is : List (Item M)) (e : Entry M) :
    entriesOf (is ++ [.entry e]) = entriesOf is ++ [e] := by simp [entriesOf]

theorem steps_dateOrdered (env : Env) (l l' : Ledger M) (is : List (Item M))
    (h : Steps env l is l') (hl : l.entries = []) : DateOrdered (entriesOf is) l'.entries := by
  induction h with
  | refl => rw [hl]; exact ⟨List.Pairwise.nil, .refl _, fun _ => rfl⟩
  | tail _ hs ih =>
    cases hs with
    | account => simpa [entriesOf] using ih
    | entry _ _ _ _ h' =>
      obtain ⟨_, _, rfl, _⟩ := addEntry_ok _ _ _ _ h'
      rw [entriesOf_snoc_entry]
      exact ih.snoc _
    | currency => simpa [entriesOf] using ih
    | dateFormat => simpa [entriesOf] using ih

/-- C47, for a journal read from files: the items of the journal are read one after the other, and
the entries of the ledger are those of the journal in order of date. -/
theorem C47_loaded (env : Env) (fuel : Nat) (w w' : World) (path : Str) (l : Ledger M)
    (h : Ledger.fromFile env fuel w path = .ok (l, w')) :
    ∃ is, Steps env (Ledger.new path) is l ∧ DateOrdered (entriesOf is) l.entries := by
  obtain ⟨⟨is, hs⟩, _⟩ := fromFile_sound env fuel w w' path l h
  exact ⟨is, hs, steps_dateOrdered env _ _ is hs rfl⟩

/-- The three facts pin the list down. -/
theorem C47_order_is_determined (given es es' : List (Entry M)) (h : DateOrdered given es)
    (h' : DateOrdered given es') : es = es' := by
  obtain ⟨h1, h2, h3⟩ := h
  obtain ⟨h1', h2', h3'⟩ := h'
  have hp : es.Perm es' := h2.trans h2'.symm
  have hf : ∀ d : Date, (es.filter fun e => e.date = d) = es'.filter fun e => e.date = d :=
    fun d => (h3 d).trans (h3' d).symm
  clear h2 h2' h3 h3' given
  induction es generalizing es' with
  | nil => exact (hp.nil_eq)
  | cons a es ih =>
    cases es' with
    | nil => exact absurd hp.symm.nil_eq (by simp)
    | cons b es' =>
      rw [List.pairwise_cons] at h1 h1'
      have hab : a.date = b.date := by
        have ha : a = b ∨ a ∈ es' := List.mem_cons.1 (hp.mem_iff.1 (by simp))
        have hb : b = a ∨ b ∈ es := List.mem_cons.1 (hp.symm.mem_iff.1 (by simp))
        rcases ha with rfl | ha
        · rfl
        · rcases hb with rfl | hb
          · rfl
          · have h4 := h1.1 b hb
            have h5 := h1'.1 a ha
            rcases Date.trichotomy a.date b.date with h | h | h
            · rw [h] at h5; cases h5
            · exact h
            · rw [h] at h4; cases h4
      have h6 := hf a.date
      rw [List.filter_cons, List.filter_cons] at h6
      simp only [decide_true, if_true, hab.symm, List.cons.injEq] at h6
      have h7 := h6.1
      subst h7
      rw [ih es' h1.2 h1'.2 (hp.cons_inv) ?_]
      intro d
      have h8 := hf d
      rw [List.filter_cons, List.filter_cons] at h8
      split at h8
      · exact (List.cons.inj h8).2
      · exact h8

/-- Four entries, given out of order, two of one day. -/
example : ∃ l, loadText Rat "account a\naccount b\n2024/01/05 * x\n a 1\n b\n2024/01/02 * y\n a 2\n b
2024/01/05 * z\n a 3\n b\n2024/01/03 * w\n a 4\n b\n" = .ok l ∧
    l.entries.map Entry.description = [s%"y", s%"w", s%"x", s%"z"] := by decide +kernel

/-! ### C51 -/

/-- Specification: what silverfox counts for account `k` when it meets posting `p`; `none`: nothing
so far. -/
def countStep (k : Str) (x : Entry M) (t : Option (Pool M)) (p : Posting M) : Option (Pool M) :=
  if p.account = k then
    match t, p.amount with
    | some pool, some a => some (Pool.add pool a)
    | some pool, none => match x.blankAmount with
      | .ok (some b) => some (Pool.add pool b)
      | _ => some pool
    | none, some a => some (Pool.add [] a)
    | none, none => some (Pool.add [] Amount.zero)
  else t

/-- The same over all postings of all entries. -/
def countAll (k : Str) (es : List (Entry M)) (t : Option (Pool M)) : Option (Pool M) :=
  es.foldl (fun t x => x.postings.foldl (countStep k x) t) t

theorem totalsStep_ok (x : Entry M) (p : Posting M) (tot tot' : List (Str × Pool M)) (k : Str)
    (h : Ledger.totalsStep x p tot = .ok tot') :
    mapGet tot' k = countStep k x (mapGet tot k) p := by
  unfold Ledger.totalsStep at h
  unfold countStep
  cases hg : mapGet tot p.account with
  | some pool =>
    simp only [hg] at h
    cases ha : p.amount with
    | some a =>
      simp only [ha] at h
      cases h
      rw [mapGet_insert]
      by_cases hk : p.account = k
      · subst hk; simp [hg]
      · have : ¬ k = p.account := fun e => hk e.symm
        simp [hk, this]
    | none =>
      simp only [ha, bind, Except.bind, pure, Except.pure] at h
      cases hb : x.blankAmount with
      | error f => simp [hb] at h
      | ok b =>
        simp only [hb] at h
        cases b with
        | none =>
          cases h
          by_cases hk : p.account = k
          · subst hk; simp [hg]
          · simp [hk]
        | some b =>
          cases h
          rw [mapGet_insert]
          by_cases hk : p.account = k
          · subst hk; simp [hg]
          · have : ¬ k = p.account := fun e => hk e.symm
            simp [hk, this]
  | none =>
    simp only [hg] at h
    cases ha : p.amount with
    | some a =>
      simp only [ha] at h
      cases h
      rw [mapGet_insert]
      by_cases hk : p.account = k
      · subst hk; simp [hg, Pool.add, Pool.ofAmount]
      · have : ¬ k = p.account := fun e => hk e.symm
        simp [hk, this]
    | none =>
      simp only [ha] at h
      cases h
      rw [mapGet_insert]
      by_cases hk : p.account = k
      · subst hk; simp [hg, Pool.add, Pool.ofAmount]
      · have : ¬ k = p.account := fun e => hk e.symm
        simp [hk, this]

theorem totalsEntry_ok (x : Entry M) (ps : List (Posting M)) (tot tot' : List (Str × Pool M)) (k : Str)
    (h : Ledger.totalsEntry x ps tot = .ok tot') :
    mapGet tot' k = ps.foldl (countStep k x) (mapGet tot k) := by
  induction ps generalizing tot with
  | nil => cases h; rfl
  | cons p ps ih =>
    simp only [Ledger.totalsEntry, bind, Except.bind] at h
    split at h
    · cases h
    · rename_i t1 h1
      rw [ih t1 h, totalsStep_ok x p tot t1 k h1]; rfl

theorem totalsLoop_ok (es : List (Entry M)) (tot tot' : List (Str × Pool M)) (k : Str)
    (h : Ledger.totalsLoop es tot = .ok tot') :
    mapGet tot' k = countAll k es (mapGet tot k) := by
  induction es generalizing tot with
  | nil => cases h; rfl
  | cons x es ih =>
    simp only [Ledger.totalsLoop, bind, Except.bind] at h
    split at h
    · cases h
    · rename_i t1 h1
      rw [ih t1 h, totalsEntry_ok x _ tot t1 k h1]; rfl

/-- What the balance report really shows, for every journal and in any arithmetic: all postings
that name the account are counted, envelope postings too; a blank posting counts with the amount
inferred for its entry, but as zero if it is the first of the account. -/
theorem C51_exact_rule (l : Ledger M) (tot : List (Str × Pool M)) (h : l.totals = .ok tot) (k : Str) :
    mapGet tot k = countAll k l.entries none :=
  totalsLoop_ok l.entries [] tot k h

/-- No envelope posting names the account. -/
def NoEnvelopeOf (k : Str) (es : List (Entry M)) : Prop :=
  ∀ x ∈ es, ∀ p ∈ x.postings, p.isEnvelope = true → p.account ≠ k

/-- The first posting of the account, if there is one, has an amount. -/
def FirstHasAmount (k : Str) (es : List (Entry M)) : Prop :=
  ∀ p, (es.flatMap Entry.postings).find? (fun p => p.account == k) = some p → p.amount.isSome = true

theorem count_entry_some (k : Str) (x : Entry M) (ps : List (Posting M)) (pool : Pool M)
    (hne : ∀ p ∈ ps, p.isEnvelope = true → p.account ≠ k) :
    ps.foldl (countStep k x) (some pool) = some ((ps.filterMap fun p => match p with
      | .classic c => if c.account = k then x.worthOf c else none
      | .envelope _ => none).foldl Pool.add pool) := by
  induction ps generalizing pool with
  | nil => rfl
  | cons p ps ih =>
    have hps := fun q hq => hne q (List.mem_cons_of_mem _ hq)
    simp only [List.foldl_cons]
    cases p with
    | envelope e =>
      have : e.account ≠ k := hne (.envelope e) (by simp) rfl
      simp only [countStep, Posting.account, this, if_false, List.filterMap_cons]
      exact ih pool hps
    | classic c =>
      by_cases hc : c.account = k
      · simp only [countStep, Posting.account, hc, if_true, Posting.amount, List.filterMap_cons]
        cases ha : c.amount with
        | some a =>
          have : x.worthOf c = some a := by simp [Entry.worthOf, ha]
          simp only [this, List.foldl_cons]
          exact ih _ hps
        | none =>
          cases hb : x.blankAmount with
          | error f =>
            have : x.worthOf c = none := by simp [Entry.worthOf, ha, hb]
            simp only [this]
            exact ih _ hps
          | ok b =>
            have : x.worthOf c = b := by simp [Entry.worthOf, ha, hb]
            cases b with
            | none => simp only [this]; exact ih _ hps
            | some b => simp only [this, List.foldl_cons]; exact ih _ hps
      · simp only [countStep, Posting.account, hc, if_false, List.filterMap_cons]
        exact ih pool hps

theorem count_entry_none (k : Str) (x : Entry M) (ps : List (Posting M))
    (hne : ∀ p ∈ ps, p.isEnvelope = true → p.account ≠ k)
    (hf : ∀ p, ps.find? (fun p => p.account == k) = some p → p.amount.isSome = true) :
    ps.foldl (countStep k x) none = if ps.any (fun p => p.account == k) then
      some ((ps.filterMap fun p => match p with
      | .classic c => if c.account = k then x.worthOf c else none
      | .envelope _ => none).foldl Pool.add []) else none := by
  induction ps with
  | nil => rfl
  | cons p ps ih =>
    have hps := fun q hq => hne q (List.mem_cons_of_mem _ hq)
    by_cases hk : p.account = k
    · have hs := hf p (by simp [hk])
      cases p with
      | envelope e => exact absurd hk (hne (.envelope e) (by simp) rfl)
      | classic c =>
        simp only [Posting.account] at hk
        simp only [Posting.amount] at hs
        cases ha : c.amount with
        | none => simp [ha] at hs
        | some a =>
          simp only [List.foldl_cons, countStep, Posting.account, hk, if_true, Posting.amount, ha]
          rw [count_entry_some k x ps _ hps]
          simp [hk, Entry.worthOf, ha]
    · have hb : (p.account == k) = false := by simpa using hk
      have : countStep k x none p = none := by simp [countStep, hk]
      rw [List.foldl_cons, this, ih hps (fun q hq => hf q (by simp [hk, hq]))]
      simp only [List.any_cons, hb, Bool.false_or]
      congr 2
      cases p with
      | envelope e => rfl
      | classic c =>
        simp only [Posting.account] at hk
        simp [hk]

theorem countAll_some (k : Str) (es : List (Entry M)) (pool : Pool M) (hne : NoEnvelopeOf k es) :
    countAll k es (some pool) = some ((es.flatMap fun x => x.movesOf k).foldl Pool.add pool) := by
  induction es generalizing pool with
  | nil => rfl
  | cons x es ih =>
    unfold countAll at ih ⊢
    rw [List.foldl_cons, count_entry_some k x _ pool (hne x (by simp)),
      ih _ (fun y hy => hne y (by simp [hy])), List.flatMap_cons, List.foldl_append]
    rfl

theorem countAll_none (k : Str) (es : List (Entry M)) (hne : NoEnvelopeOf k es)
    (hf : FirstHasAmount k es) :
    countAll k es none = if (es.flatMap Entry.postings).any (fun p => p.account == k) then
      some ((es.flatMap fun x => x.movesOf k).foldl Pool.add []) else none := by
  induction es with
  | nil => rfl
  | cons x es ih =>
    have hne' : NoEnvelopeOf k es := fun y hy => hne y (by simp [hy])
    have hx : countAll k (x :: es) none
        = countAll k es (x.postings.foldl (countStep k x) none) := rfl
    rw [hx, count_entry_none k x _ (hne x (by simp))]
    · by_cases ha : x.postings.any (fun p => p.account == k) = true
      · rw [if_pos ha, countAll_some k es _ hne', List.flatMap_cons, List.flatMap_cons, List.any_append,
          ha, List.foldl_append]
        rfl
      · rw [if_neg ha, List.flatMap_cons, List.flatMap_cons, List.any_append,
          Bool.eq_false_iff.2 ha, Bool.false_or, ih hne']
        · have : x.movesOf k = [] := by
            unfold Entry.movesOf
            rw [List.filterMap_eq_nil_iff]
            intro p hp
            cases p with
            | envelope e => rfl
            | classic c =>
              have : c.account ≠ k := by
                rintro rfl
                apply ha
                rw [List.any_eq_true]
                exact ⟨_, hp, by simp [Posting.account]⟩
              simp [this]
          rw [this]; rfl
        · intro p hp
          apply hf
          rw [List.flatMap_cons, List.find?_append]
          have : x.postings.find? (fun p => p.account == k) = none := by
            rw [List.find?_eq_none]
            intro q hq hc
            exact ha (List.any_eq_true.2 ⟨q, hq, hc⟩)
          rw [this]; exact hp
    · intro p hp
      apply hf
      rw [List.flatMap_cons, List.find?_append, hp]; rfl

/-- C51, where it holds. Full statement: the balance report shows for each account the sum of its
ordinary postings, blank ones at their inferred amount. Proved, in any arithmetic and in the order
of the dates, for accounts that no envelope posting names and whose first posting has an amount;
missing are the others, for which `C51_envelope_postings_are_counted` and
`C51_blank_first_posting_counts_zero` show that the report is wrong. -/
theorem C51_sum_of_postings_partial (l : Ledger M) (tot : List (Str × Pool M))
    (h : l.totals = .ok tot) (k : Str) (hne : NoEnvelopeOf k l.entries)
    (hf : FirstHasAmount k l.entries) :
    mapGet tot k = if (l.entries.flatMap Entry.postings).any (fun p => p.account == k) then
      some ((l.entries.flatMap fun x => x.movesOf k).foldl Pool.add []) else none := by
  rw [C51_exact_rule l tot h k, countAll_none k _ hne hf]

/-- Specification: the sum in currency `s` of the ordinary postings to `k`. -/
def sumOf (k : Str) (s : Option Str) (es : List (Entry Rat)) : Rat :=
  ((es.flatMap fun x => x.movesOf k).map fun m => if m.sym = s then m.mag else 0).sum

theorem bal_foldl_add (ms : List (Amount Rat)) (r : Pool Rat) (s : Option Str) :
    Pool.bal (ms.foldl Pool.add r) s
      = Pool.bal r s + (ms.map fun m => if m.sym = s then m.mag else 0).sum := by
  induction ms generalizing r with
  | nil => simp
  | cons m ms ih =>
    rw [List.foldl_cons, ih, Pool.bal_add, List.map_cons, List.sum_cons]
    unfold Amount.inSym
    ring

/-- C51 in exact arithmetic: the reported balance in each currency is the sum of the ordinary
postings in that currency. -/
theorem C51_exact_sum_partial (l : Ledger Rat) (tot : List (Str × Pool Rat)) (h : l.totals = .ok tot)
    (k : Str) (hne : NoEnvelopeOf k l.entries) (hf : FirstHasAmount k l.entries) (s : Option Str)
    (pool : Pool Rat) (hp : mapGet tot k = some pool) :
    (pool.only s).mag = sumOf k s l.entries := by
  rw [C51_sum_of_postings_partial l tot h k hne hf] at hp
  split at hp
  · cases hp
    show Pool.bal _ s = _
    rw [bal_foldl_add]
    show 0 + _ = _
    rw [zero_add]
    rfl
  · cases hp

/-- An account with amounts and, later, a blank posting. -/
example : ∃ l, loadText Rat "account a\naccount b\n2024/01/05 * x\n a 1\n b -1\n2024/01/02 * y\n a 2\n b -2
2024/01/05 * z\n a 3\n b" = .ok l ∧ NoEnvelopeOf s%"b" l.entries ∧
    (l.entries.flatMap Entry.postings).find? (fun p => p.account == s%"b")
      = some (.classic ⟨s%"b", some ⟨-2, none⟩, none, none⟩) ∧
    ∃ tot, l.totals = .ok tot ∧ mapGet tot s%"b" = some [⟨-6, none⟩] := by
  unfold NoEnvelopeOf
  decide +kernel

/-- C51 is false: a movement into an envelope changes the reported balance of its account, although
no money came or went. -/
theorem C51_envelope_postings_are_counted :
    ∃ l, loadText Rat "account a\naccount b\n2024/01/02 * y\n a 10\n b -10\n2024/01/05 * x\n envelope a food 4\n" = .ok l ∧
      sumOf s%"a" none l.entries = 10 ∧
      ∃ tot, l.totals = .ok tot ∧ mapGet tot s%"a" = some [⟨14, none⟩] := by decide +kernel

/-- C51 is false: a blank posting that is the first of its account counts as zero, so that the
report does not add up. -/
theorem C51_blank_first_posting_counts_zero :
    ∃ l, loadText Rat "account a\naccount b\n2024/01/02 * y\n a 10\n b\n" = .ok l ∧
      sumOf s%"b" none l.entries = -10 ∧
      ∃ tot, l.totals = .ok tot ∧ mapGet tot s%"b" = some [⟨0, none⟩] := by decide +kernel

/-! ### What every ledger met by the program satisfies -/

theorem Classic.parse_account (line : Str) (dec : Char) (accs : List Str) (c : Classic M)
    (h : Classic.parse line dec accs = .ok c) : c.account ∈ accs := by
  unfold Classic.parse at h
  split at h
  · cases h
  · simp only [bind, Except.bind, pure, Except.pure] at h
    split at h
    · cases h
    · split at h
      · cases h
      · split at h
        · cases h
        · split at h
          · rename_i hc
            cases h
            exact List.contains_iff_mem.1 hc
          · cases h

theorem Posting.parse_account (line : Str) (dec : Char) (accs : List Str) (p : Posting M)
    (h : Posting.parse line dec accs = .ok p) (hp : p.isEnvelope = false) : p.account ∈ accs := by
  unfold Posting.parse at h
  simp only at h
  split at h
  · cases h
  · split at h
    · simp only [bind, Except.bind, pure, Except.pure] at h
      split at h
      · cases h
      · cases h; cases hp
    · simp only [bind, Except.bind, pure, Except.pure] at h
      split at h
      · cases h
      · rename_i c hc
        cases h
        exact Classic.parse_account _ _ _ _ hc

theorem parsePostings_account (dec : Char) (accs : List Str) (ls : List Str) (ps : List (Posting M))
    (h : Entry.parsePostings dec accs ls = .ok ps) :
    ∀ p ∈ ps, p.isEnvelope = false → p.account ∈ accs := by
  induction ls generalizing ps with
  | nil => cases h; simp
  | cons l ls ih =>
    simp only [Entry.parsePostings] at h
    split at h
    · exact ih ps h
    · simp only [bind, Except.bind, pure, Except.pure] at h
      split at h
      · cases h
      · rename_i p hp
        split at h
        · cases h
        · rename_i qs hq
          cases h
          intro q hm he
          rcases List.mem_cons.1 hm with rfl | hm
          · exact Posting.parse_account _ _ _ _ hp he
          · exact ih qs hq q hm he

theorem Entry.parse_ok (env : Env) (chunk fmt : Str) (dec : Char) (accs : List Str) (e : Entry M)
    (h : Entry.parse env chunk fmt dec accs = .ok e) :
    (∀ p ∈ e.postings, p.isEnvelope = false → p.account ∈ accs) ∧ e.validate = .ok () := by
  unfold Entry.parse at h
  simp only at h
  split at h
  · cases h
  · split at h
    · cases h
    · simp only [bind, Except.bind, pure, Except.pure] at h
      split at h
      · cases h
      · split at h
        · cases h
        · rename_i ps hps
          split at h
          · cases h
          · rename_i u hv
            cases h
            exact ⟨parsePostings_account _ _ _ _ hps, hv⟩

/-- What holds of every ledger that was loaded. -/
structure Ledger.Inv (l : Ledger M) : Prop where
  keys : (l.accounts.map Prod.fst).Nodup
  names : ∀ k a, (k, a) ∈ l.accounts → a.name = k
  wf : ∀ k a, (k, a) ∈ l.accounts → a.WF
  declared : ∀ e ∈ l.entries, ∀ p ∈ e.postings, p.isEnvelope = false → p.account ∈ l.accountNames
  valid : ∀ e ∈ l.entries, e.validate = .ok ()
  blanks : ∀ e ∈ l.entries, ∀ p ∈ e.postings, p.amount = none → ∃ b, e.blankAmount = .ok b

theorem processReal_blank (name : Str) (x : Entry M) (ps : List (Posting M)) (r r' : Pool M)
    (h : Account.processReal name x ps r = .ok r') (p : Posting M) (hp : p ∈ ps)
    (hn : p.account = name) (ha : p.amount = none) : ∃ b, x.blankAmount = .ok b := by
  induction ps generalizing r with
  | nil => cases hp
  | cons q ps ih =>
    simp only [Account.processReal] at h
    rcases List.mem_cons.1 hp with rfl | hp
    · have he : p.isEnvelope = false := by cases p <;> simp_all [Posting.amount, Posting.isEnvelope]
      simp only [hn, he, and_self, if_true, ha, bind, Except.bind] at h
      cases hb : x.blankAmount with
      | ok b => exact ⟨b, rfl⟩
      | error f => simp [hb] at h
    · split at h
      · split at h
        · exact ih _ h hp
        · simp only [bind, Except.bind] at h
          split at h
          · cases h
          · rename_i b hb
            exact ⟨b, hb⟩
      · exact ih _ h hp

theorem processAll_mem (today : Date) (e : Entry M) (as as' : List (Str × Account M))
    (h : Ledger.processAll today e as = .ok as') (k : Str) (a : Account M) (hm : (k, a) ∈ as) :
    ∃ a', (k, a') ∈ as' ∧ a.processEntry today e = .ok a' := by
  induction as generalizing as' with
  | nil => cases hm
  | cons p as ih =>
    obtain ⟨k0, a0⟩ := p
    simp only [Ledger.processAll, bind, Except.bind, pure, Except.pure] at h
    split at h
    · cases h
    · rename_i a1 h1
      split at h
      · cases h
      · rename_i as1 h2
        cases h
        rcases List.mem_cons.1 hm with hm | hm
        · cases hm; exact ⟨a1, by simp, h1⟩
        · obtain ⟨a', h3, h4⟩ := ih as1 h2 hm
          exact ⟨a', by simp [h3], h4⟩

theorem addEntry_inv (env : Env) (l l' : Ledger M) (e : Entry M) (hl : l.Inv)
    (hd : ∀ p ∈ e.postings, p.isEnvelope = false → p.account ∈ l.accountNames)
    (hv : e.validate = .ok ()) (h : l.addEntry env e = .ok l') : l'.Inv := by
  obtain ⟨accs, h1, rfl, _⟩ := addEntry_ok _ _ _ _ h
  obtain ⟨h2, h3⟩ := processAll_ok _ _ _ _ h1
  have hmem : ∀ x, x ∈ stableSort (fun a b => Date.lt a.date b.date) (l.entries ++ [e]) →
      x ∈ l.entries ∨ x = e := by
    intro x hx
    have := (stableSort_perm _ _).mem_iff.1 hx
    simpa using this
  refine ⟨?_, ?_, ?_, ?_, ?_, ?_⟩
  · show (accs.map Prod.fst).Nodup
    rw [h2]; exact hl.keys
  · intro k a' hm
    obtain ⟨a, h4, h5⟩ := h3 k a' hm
    rw [(processEntry_real _ _ _ _ h5).1, hl.names k a h4]
  · intro k a' hm
    obtain ⟨a, h4, h5⟩ := h3 k a' hm
    exact processEntry_wf _ _ _ _ h5 (hl.wf k a h4)
  · intro x hx p hp he
    show p.account ∈ accs.map Prod.fst
    rw [h2]
    rcases hmem x hx with hx | rfl
    · exact hl.declared x hx p hp he
    · exact hd p hp he
  · intro x hx
    rcases hmem x hx with hx | rfl
    · exact hl.valid x hx
    · exact hv
  · intro x hx p hp ha
    rcases hmem x hx with hx | rfl
    · exact hl.blanks x hx p hp ha
    · have he : p.isEnvelope = false := by
        cases p <;> simp_all [Posting.amount, Posting.isEnvelope]
      have hk := hd p hp he
      unfold Ledger.accountNames at hk
      rw [List.mem_map] at hk
      obtain ⟨⟨k, a⟩, h4, h5⟩ := hk
      obtain ⟨a', _, h6⟩ := processAll_mem _ _ _ _ h1 k a h4
      unfold Account.processEntry at h6
      simp only [bind, Except.bind, pure, Except.pure] at h6
      split at h6
      · cases h6
      · split at h6
        · cases h6
        · split at h6
          · cases h6
          · rename_i r hr
            exact processReal_blank _ _ _ _ _ hr p hp ((hl.names k a h4).trans h5).symm ha

theorem step_inv (env : Env) (l l' : Ledger M) (i : Item M) (hl : l.Inv) (h : Step env l i l') :
    l'.Inv := by
  cases h with
  | account chunk a h =>
    refine ⟨mapInsert_nodup _ _ _ hl.keys, ?_, ?_, ?_, hl.valid, hl.blanks⟩
    · intro k b hm
      rcases mapInsert_mem _ _ _ _ hm with h1 | h1
      · cases h1; rfl
      · exact hl.names k b h1
    · intro k b hm
      rcases mapInsert_mem _ _ _ _ hm with h1 | h1
      · cases h1; exact parsed_account_wf _ _ _ _ _ h
      · exact hl.wf k b h1
    · intro e he p hp hpe
      show p.account ∈ (mapInsert l.accounts a.name a).map Prod.fst
      rw [mapInsert_keys]
      have := hl.declared e he p hp hpe
      unfold Ledger.accountNames at this
      split
      · exact this
      · simp [this]
  | entry _ chunk e h h' =>
    obtain ⟨h1, h2⟩ := Entry.parse_ok _ _ _ _ _ _ h
    exact addEntry_inv env l l' e hl h1 h2 h'
  | currency => exact ⟨hl.keys, hl.names, hl.wf, hl.declared, hl.valid, hl.blanks⟩
  | dateFormat => exact ⟨hl.keys, hl.names, hl.wf, hl.declared, hl.valid, hl.blanks⟩

theorem new_inv (path : Str) : (Ledger.new path : Ledger M).Inv := by
  constructor <;> simp [Ledger.new]

theorem steps_inv (env : Env) (l l' : Ledger M) (is : List (Item M)) (hl : l.Inv)
    (h : Steps env l is l') : l'.Inv := by
  induction h with
  | refl => exact hl
  | tail _ hs ih => exact step_inv env _ _ _ ih hs

theorem loaded_inv (env : Env) (fuel : Nat) (w w' : World) (path : Str) (l : Ledger M)
    (h : Ledger.fromFile env fuel w path = .ok (l, w')) : l.Inv := by
  obtain ⟨⟨is, hs⟩, _⟩ := fromFile_sound env fuel w w' path l h
  exact steps_inv env _ _ is (new_inv path) hs

theorem totals_total (es : List (Entry M)) (tot : List (Str × Pool M))
    (h : ∀ e ∈ es, ∀ p ∈ e.postings, p.amount = none → ∃ b, e.blankAmount = .ok b) :
    ∃ tot', Ledger.totalsLoop es tot = .ok tot' := by
  have step : ∀ (e : Entry M) (p : Posting M) (tot : List (Str × Pool M)),
      (p.amount = none → ∃ b, e.blankAmount = .ok b) → ∃ t, Ledger.totalsStep e p tot = .ok t := by
    intro e p tot hb
    unfold Ledger.totalsStep
    cases mapGet tot p.account with
    | some pool =>
      cases ha : p.amount with
      | some a => exact ⟨_, rfl⟩
      | none =>
        obtain ⟨b, hb⟩ := hb ha
        simp only [hb, bind, Except.bind, pure, Except.pure]
        cases b <;> exact ⟨_, rfl⟩
    | none => cases p.amount <;> exact ⟨_, rfl⟩
  have entry : ∀ (e : Entry M) (ps : List (Posting M)) (tot : List (Str × Pool M)),
      (∀ p ∈ ps, p.amount = none → ∃ b, e.blankAmount = .ok b) →
      ∃ t, Ledger.totalsEntry e ps tot = .ok t := by
    intro e ps
    induction ps with
    | nil => intro tot _; exact ⟨tot, rfl⟩
    | cons p ps ih =>
      intro tot hb
      obtain ⟨t, ht⟩ := step e p tot (hb p (by simp))
      obtain ⟨t', ht'⟩ := ih t (fun q hq => hb q (by simp [hq]))
      exact ⟨t', by simp only [Ledger.totalsEntry, bind, Except.bind, ht, ht']⟩
  induction es generalizing tot with
  | nil => exact ⟨tot, rfl⟩
  | cons e es ih =>
    obtain ⟨t, ht⟩ := entry e e.postings tot (h e (by simp))
    obtain ⟨t', ht'⟩ := ih t (fun x hx => h x (by simp [hx]))
    exact ⟨t', by simp only [Ledger.totalsLoop, bind, Except.bind, ht, ht']⟩

/-- Once a journal is loaded, the balance report cannot fail. -/
theorem C51_report_never_fails (env : Env) (fuel : Nat) (w w' : World) (path : Str) (l : Ledger M)
    (h : Ledger.fromFile env fuel w path = .ok (l, w')) : ∃ lines, l.displayBalance env = .ok lines := by
  obtain ⟨tot, ht⟩ := totals_total l.entries [] (loaded_inv env fuel w w' path l h).blanks
  have : l.totals = .ok tot := ht
  exact ⟨_, by simp only [Ledger.displayBalance, this, bind, Except.bind, pure, Except.pure]; rfl⟩

/-! ### C52 -/

/-- How often a journal declares the account. -/
def declarations (k : Str) (is : List (Item M)) : Nat :=
  is.countP fun i => match i with
    | .account a => a.name == k
    | _ => false

theorem movesOf_undeclared (e : Entry M) (k : Str)
    (h : ∀ p ∈ e.postings, p.isEnvelope = false → p.account ≠ k) : e.movesOf k = [] := by
  unfold Entry.movesOf
  rw [List.filterMap_eq_nil_iff]
  intro p hp
  cases p with
  | envelope e => rfl
  | classic c => have : c.account ≠ k := h _ hp rfl; simp [this]

/-- The real value of an account that is declared once is made by its postings in the order of the
journal. -/
theorem real_of_steps (env : Env) (path : Str) (is : List (Item M)) (l : Ledger M)
    (h : Steps env (Ledger.new path) is l) (k : Str) :
    (k ∉ l.accountNames → declarations k is = 0 ∧ (entriesOf is).flatMap (fun x => x.movesOf k) = []) ∧
    (∀ a, (k, a) ∈ l.accounts → declarations k is ≤ 1 →
      a.real = ((entriesOf is).flatMap fun x => x.movesOf k).foldl Pool.add []) := by
  induction h with
  | refl => exact ⟨fun _ => ⟨rfl, rfl⟩, fun a ha => by simp [Ledger.new] at ha⟩
  | @tail is i l1 l2 hsteps hs ih =>
    have hinv := steps_inv env _ _ is (new_inv path) hsteps
    cases hs with
    | account chunk a h =>
      have hent : entriesOf (is ++ [.account a]) = entriesOf is := by simp [entriesOf]
      rw [hent]
      have hk : ({ l1 with accounts := mapInsert l1.accounts a.name a } : Ledger M).accountNames
          = if a.name ∈ l1.accountNames then l1.accountNames else l1.accountNames ++ [a.name] := by
        unfold Ledger.accountNames; exact mapInsert_keys _ _ _
      refine ⟨fun hn => ?_, fun b hb hd => ?_⟩
      · rw [hk] at hn
        have hna : a.name ≠ k ∧ k ∉ l1.accountNames := by
          split at hn
          · rename_i hmem
            exact ⟨fun e => hn (e ▸ hmem), hn⟩
          · simp only [List.mem_append, List.mem_singleton, not_or] at hn
            exact ⟨fun e => hn.2 e.symm, hn.1⟩
        obtain ⟨h1, h2⟩ := ih.1 hna.2
        refine ⟨?_, h2⟩
        unfold declarations at h1 ⊢
        rw [List.countP_append, h1]
        simp [hna.1]
      · have hcount : declarations k (is ++ [.account a])
            = declarations k is + if a.name = k then 1 else 0 := by
          unfold declarations
          rw [List.countP_append]
          by_cases h : a.name = k <;> simp [h]
        rw [hcount] at hd
        have hget := mapGet_of_mem (mapInsert_nodup _ _ _ hinv.keys) hb
        rw [mapGet_insert] at hget
        by_cases hka : k = a.name
        · simp only [hka, if_true, Option.some.injEq] at hget
          subst hget
          rw [hka] at hd ⊢
          simp only [if_true] at hd
          have hz : declarations a.name is = 0 := by omega
          have hr : a.real = [] := (parsed_account_fresh _ _ _ _ _ h).1
          rw [hr]
          by_cases hmem : a.name ∈ l1.accountNames
          · exfalso
            have : ∀ (is : List (Item M)) (l1 : Ledger M), Steps env (Ledger.new path) is l1 →
                a.name ∈ l1.accountNames → declarations a.name is ≠ 0 := by
              intro is l1 h hmem
              induction h with
              | refl => simp [Ledger.new, Ledger.accountNames] at hmem
              | @tail is i l1 l2 hsteps hs ih =>
                unfold declarations at ih ⊢
                rw [List.countP_append]
                cases hs with
                | account chunk b hb =>
                  unfold Ledger.accountNames at hmem ih
                  rw [mapInsert_keys] at hmem
                  split at hmem
                  · have := ih hmem; omega
                  · rw [List.mem_append, List.mem_singleton] at hmem
                    rcases hmem with hmem | hmem
                    · have := ih hmem; omega
                    · simp [hmem]
                | entry _ chunk e h h' =>
                  obtain ⟨accs, h1, rfl, _⟩ := addEntry_ok _ _ _ _ h'
                  obtain ⟨h2, h3⟩ := processAll_ok _ _ _ _ h1
                  unfold Ledger.accountNames at hmem ih
                  simp only [h2] at hmem
                  have := ih hmem; omega
                | currency => have := ih hmem; omega
                | dateFormat => have := ih hmem; omega
            exact this is l1 hsteps hmem hz
          · rw [hka] at ih
            rw [(ih.1 hmem).2]; rfl
        · simp only [hka, if_false] at hget
          have hka' : ¬ a.name = k := fun e => hka e.symm
          simp only [hka', if_false] at hd
          exact ih.2 b (mapGet_some_mem hget) (by omega)
    | entry _ chunk e h h' =>
      have hp := (Entry.parse_ok _ _ _ _ _ _ h).1
      obtain ⟨accs, h1, rfl, _⟩ := addEntry_ok _ _ _ _ h'
      obtain ⟨h2, h3⟩ := processAll_ok _ _ _ _ h1
      rw [entriesOf_snoc_entry]
      have hd : declarations k (is ++ [.entry e]) = declarations k is := by
        unfold declarations; rw [List.countP_append]; rfl
      rw [hd, List.flatMap_append]
      refine ⟨fun hn => ?_, fun b hb hd => ?_⟩
      · have hn' : k ∉ l1.accountNames := by
          unfold Ledger.accountNames at hn ⊢
          simpa [h2] using hn
        obtain ⟨h4, h5⟩ := ih.1 hn'
        refine ⟨h4, ?_⟩
        rw [h5]
        simp only [List.nil_append, List.flatMap_cons, List.flatMap_nil, List.append_nil]
        exact movesOf_undeclared e k fun p hm he hc => hn' (hc ▸ hp p hm he)
      · obtain ⟨a, h4, h5⟩ := h3 k b hb
        obtain ⟨_, h6⟩ := processEntry_real _ _ _ _ h5
        rw [h6, ih.2 a h4 hd, hinv.names k a h4]
        simp [List.foldl_append]
    | currency v =>
      have hent : entriesOf (is ++ [.currency v]) = entriesOf is := by simp [entriesOf]
      have hd : declarations k (is ++ [.currency v]) = declarations k is := by
        unfold declarations; rw [List.countP_append]; rfl
      rw [hent, hd]; exact ih
    | dateFormat v =>
      have hent : entriesOf (is ++ [.dateFormat v]) = entriesOf is := by simp [entriesOf]
      have hd : declarations k (is ++ [.dateFormat v]) = declarations k is := by
        unfold declarations; rw [List.countP_append]; rfl
      rw [hent, hd]; exact ih

theorem sumOf_perm (k : Str) (s : Option Str) {es es' : List (Entry Rat)} (h : es.Perm es') :
    sumOf k s es = sumOf k s es' := by
  unfold sumOf
  exact ((h.flatMap_right _).map _).sum_eq

/-- C52, where it holds. Full statement: for each declared account the reported balance equals the
real value from which its envelopes are funded. Proved in exact arithmetic for accounts declared
once, named by no envelope posting and whose first posting has an amount. Missing: the other
accounts, where it is false (`C52_report_and_real_differ`, `C55_redeclaring_resets`). -/
theorem C52_report_is_real_partial (env : Env) (path : Str) (is : List (Item Rat)) (l : Ledger Rat)
    (h : Steps env (Ledger.new path) is l) (k : Str) (a : Account Rat)
    (ha : mapGet l.accounts k = some a) (tot : List (Str × Pool Rat)) (ht : l.totals = .ok tot)
    (pool : Pool Rat) (hp : mapGet tot k = some pool) (once : declarations k is ≤ 1)
    (hne : NoEnvelopeOf k l.entries) (hf : FirstHasAmount k l.entries) (s : Option Str) :
    (pool.only s).mag = (a.real.only s).mag := by
  rw [C51_exact_sum_partial l tot ht k hne hf s pool hp,
    (real_of_steps env path is l h k).2 a (mapGet_some_mem ha) once]
  show _ = Pool.bal _ s
  rw [bal_foldl_add]
  show _ = 0 + sumOf k s (entriesOf is)
  rw [zero_add]
  exact sumOf_perm k s (steps_dateOrdered env _ _ is h rfl).same

/-- C52 in any arithmetic, `f64` included: if moreover the journal is in order of date, the two are
the same lines with the same numbers. -/
theorem C52_same_lines_partial (env : Env) (path : Str) (is : List (Item M)) (l : Ledger M)
    (h : Steps env (Ledger.new path) is l) (k : Str) (a : Account M)
    (ha : mapGet l.accounts k = some a) (tot : List (Str × Pool M)) (ht : l.totals = .ok tot)
    (pool : Pool M) (hp : mapGet tot k = some pool) (once : declarations k is ≤ 1)
    (hne : NoEnvelopeOf k l.entries) (hf : FirstHasAmount k l.entries)
    (hs : (entriesOf is).Pairwise fun a b => Date.lt b.date a.date = false) : pool = a.real := by
  have ho : l.entries = entriesOf is :=
    C47_order_is_determined _ _ _ (steps_dateOrdered env _ _ is h rfl) ⟨hs, .refl _, fun _ => rfl⟩
  rw [C51_sum_of_postings_partial l tot ht k hne hf] at hp
  split at hp
  · cases hp
    rw [(real_of_steps env path is l h k).2 a (mapGet_some_mem ha) once, ho]
  · cases hp

/-- C52 is false: after a movement into an envelope the report shows more than the account has. -/
theorem C52_report_and_real_differ :
    ∃ l, loadText Rat "account a\n  expense food due every 1st\n    amount 50\naccount b\n2024/01/02 * y\n a 10\n b -10
2024/01/05 * x\n envelope a food 4\n" = .ok l ∧
      (∃ tot, l.totals = .ok tot ∧ mapGet tot s%"a" = some [⟨14, none⟩]) ∧
      ∃ a, mapGet l.accounts s%"a" = some a ∧ a.real = [⟨10, none⟩] := by decide +kernel

/-- A case of C52: an account with two currencies, in and out of order. -/
example : ∃ l, loadText Rat "account a\n  expense food due every 1st\n    amount 50\naccount b\n2024/01/09 * y\n a 10\n b -10
2024/01/05 * x\n a $4\n b $-4\n2024/01/10 * z\n b 3\n a\n" = .ok l ∧ NoEnvelopeOf s%"a" l.entries ∧
      (l.entries.flatMap Entry.postings).find? (fun p => p.account == s%"a")
        = some (.classic ⟨s%"a", some ⟨4, some s%"$"⟩, none, none⟩) ∧
      (∃ tot, l.totals = .ok tot ∧ mapGet tot s%"a" = some [⟨4, some s%"$"⟩, ⟨7, none⟩]) ∧
      ∃ a, mapGet l.accounts s%"a" = some a ∧ a.real = [⟨7, none⟩, ⟨4, some s%"$"⟩] := by
  unfold NoEnvelopeOf
  decide +kernel

/-! ### C55 -/

/-- C55 is false, for every journal: whatever was known of an account, after a repeated `account`
line it has no real value and all its envelopes are empty. -/
theorem C55_redeclaring_resets (env : Env) (l l' : Ledger M) (chunk : Str)
    (h : l.parseAccount env chunk = .ok l') :
    ∃ a, mapGet l'.accounts a.name = some a ∧ a.real = [] ∧
      (∀ e ∈ a.envelopes, e.now.mag = Mag.zero ∧ e.next.mag = Mag.zero) ∧
      (∀ k, k ≠ a.name → mapGet l'.accounts k = mapGet l.accounts k) ∧ l'.entries = l.entries := by
  unfold Ledger.parseAccount at h
  simp only [bind, Except.bind, pure, Except.pure] at h
  split at h
  · cases h
  · rename_i a ha
    cases h
    obtain ⟨h1, h2⟩ := parsed_account_fresh _ _ _ _ _ ha
    refine ⟨a, by simp [mapGet_insert], h1, fun e he => ⟨(h2 e he).2.1, (h2 e he).2.2.1⟩, ?_, rfl⟩
    intro k hk
    simp [mapGet_insert, hk]

set_option synthInstance.maxHeartbeats 400000 in
set_option synthInstance.maxSize 1024 in
/-- C55 is false: the journal declares `a` twice, and the 10 in it are no longer there for its
envelopes, although the report still shows them. -/
theorem C55_history_is_lost :
    ∃ l, loadText Rat "account a\n  expense food due every 1st\n    amount 50\naccount b\n2024/01/02 * y\n a 10\n b -10
2024/01/05 * x\n envelope a food 4\n" = .ok l ∧
    (∃ a, mapGet l.accounts s%"a" = some a ∧ a.real = [⟨10, none⟩] ∧
      a.expenses.map (fun e => (e.now, e.next)) = [(⟨4, none⟩, ⟨0, none⟩)]) ∧
    ∃ l', loadText Rat "account a\n  expense food due every 1st\n    amount 50\naccount b\n2024/01/02 * y\n a 10\n b -10
2024/01/05 * x\n envelope a food 4\naccount a\n  expense food due every 1st\n    amount 50\n" = .ok l' ∧
    (∃ a, mapGet l'.accounts s%"a" = some a ∧ a.real = [] ∧
      a.expenses.map (fun e => (e.now, e.next)) = [(⟨0, none⟩, ⟨0, none⟩)]) ∧
    ∃ tot, l'.totals = .ok tot ∧ mapGet tot s%"a" = some [⟨14, none⟩] := by decide +kernel

end Silverfox
