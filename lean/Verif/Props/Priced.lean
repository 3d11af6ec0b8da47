import Verif.Props.Blocks

/-
C126: prices, totals, asserted balances and payees in the text of a journal, to the text of its balance report.
-/

namespace Silverfox

set_option linter.unusedSectionVars false

/-! ### Specification -/

/-- A clause as written: its sign (`@`, `=` or `!`), the text of its amount, and what that means. -/
structure QClause where
  op : Str
  text : Str
  value : Rat × Option Str

/-- A line of an entry with clauses behind the amount. -/
structure QLine extends PLine where
  clauses : List QClause

def QLine.text (l : QLine) : Str := l.toPLine.text ++ clauseText (l.clauses.map fun c => (c.op, c.text))

/-- Specification: the line is written well. -/
structure QLine.Ok (accs : List Str) (l : QLine) : Prop where
  base : l.toPLine.Ok accs
  plain : NoComment l.text ∧ noNl l.text
  ops : ∀ c ∈ l.clauses, c.op ∈ [s%"!", s%"@", s%"="]
  distinct : (l.clauses.map QClause.op).Nodup
  amounts : ∀ c ∈ l.clauses, NoOps c.text ∧ WrittenAmount c.text c.value.1 c.value.2

/-- The amount of the clause with this sign. -/
def QLine.clause (l : QLine) (op : Str) : Option (Rat × Option Str) :=
  (l.clauses.find? fun c => c.op == op).map QClause.value

/-- Specification: what a line is worth in the money of the journal, that is, without a currency symbol: the amount if it
has no symbol; the amount times the price behind `@`; the total behind `=`. -/
def QLine.home (l : QLine) : Option Rat :=
  match l.value with
  | none => none
  | some (q, none) => some q
  | some (q, some _) =>
    match l.clause s%"@", l.clause s%"=" with
    | some (p, none), _ => some (q * p)
    | some (_, some _), _ => none
    | none, some (t, none) => some t
    | none, _ => none

/-- The line has a price or a total. -/
def QLine.Priced (l : QLine) : Prop := l.clause s%"@" ≠ none ∨ l.clause s%"=" ≠ none

/-- An entry as written. The title may name a payee in brackets. -/
structure QEntry where
  date : Str
  mark : Str
  title : Str
  day : Date
  lines : List QLine

def QEntry.header (e : QEntry) : Str := e.date ++ s%" " ++ e.mark ++ s%" " ++ e.title

/-- The amounts given in an entry. -/
def QEntry.given (e : QEntry) : List (Rat × Option Str) := e.lines.filterMap fun l => l.value

/-- All amounts given are in the currency `s`. -/
def QEntry.In (s : Option Str) (e : QEntry) : Prop := ∀ v ∈ e.given, v.2 = s

/-- Specification: if a line of the entry is blank, it can be told what it is worth: there are other lines, and they are
in one currency, or else all have a worth in the money of the journal and at most one other currency is involved. -/
def QEntry.Known (e : QEntry) : Prop :=
  e.given ≠ [] ∧ ((∃ s, e.In s) ∨
    (∀ l ∈ e.lines, l.value ≠ none → l.home ≠ none) ∧ ∃ s, ∀ v ∈ e.given, v.2 = none ∨ v.2 = some s)

/-- Specification: the entry is written well, its date in this format. -/
structure QEntry.Ok (env : Env) (fmt : Str) (accs : List Str) (e : QEntry) : Prop where
  date : isWord e.date ∧ e.date ∉ keywords ∧ env.parseDate e.date fmt = some e.day
  mark : e.mark ∈ [s%"?", s%"~", s%"*"]
  title : ∃ desc payee, DescriptionOf (joinWith s%" " (splitWs e.title)) desc payee
  plain : NoComment e.header ∧ noNl e.header
  lines : ∀ l ∈ e.lines, l.Ok accs
  blanks : (e.lines.filter fun l => l.value.isNone).length ≤ 1
  known : (∃ l ∈ e.lines, l.value = none) → e.Known

/-- Specification: a text that declares accounts, then has entries; there may be blank lines anywhere. -/
structure PricedJournal (env : Env) (accs : List Str) (es : List QEntry) (text : Str) : Prop where
  text : inked (lines text) = accs.map (s%"account " ++ ·) ++ es.flatMap fun e => e.header :: e.lines.map QLine.text
  accounts : ∀ k ∈ accs, isWord k ∧ NoComment (s%"account " ++ k)
  entries : ∀ e ∈ es, e.Ok env s%"%Y/%m/%d" accs

open Classical in
/-- Specification: what the blank line of an entry should be worth. If other lines have prices or totals, or are in
several currencies, then it is what is missing in the money of the journal; or else what is missing in their currency. -/
noncomputable def QEntry.rest (e : QEntry) : Rat × Option Str :=
  if (∃ l ∈ e.lines, l.value ≠ none ∧ l.Priced) ∨ ¬ ∃ s, e.In s then (-(e.lines.filterMap QLine.home).sum, none)
  else (-(e.given.map Prod.fst).sum, (e.given.head?.map Prod.snd).getD none)

open Classical in
/-- The rule that is followed instead: if the other lines are in one currency, then what is missing in that, whatever their
prices; or else what is missing in the money of the journal. -/
noncomputable def QEntry.booked (e : QEntry) : Rat × Option Str :=
  if ∃ s, e.In s then (-(e.given.map Prod.fst).sum, (e.given.head?.map Prod.snd).getD none)
  else (-(e.lines.filterMap QLine.home).sum, none)

/-- Specification: what an entry brings to an account, if a blank line is worth what `r` says. -/
def QEntry.moves (r : QEntry → Rat × Option Str) (k : Str) (e : QEntry) : List (Rat × Option Str) :=
  e.lines.filterMap fun l => if l.account = k then some (l.value.getD (r e)) else none

/-- Specification: what all the entries bring to an account in a currency. -/
def pricedSum (r : QEntry → Rat × Option Str) (k : Str) (s : Option Str) (es : List QEntry) : Rat :=
  ((es.flatMap (QEntry.moves r k)).map fun v => if v.2 = s then v.1 else 0).sum

/-- Specification: where the account is left blank, it occurs on an earlier day. -/
def PricedBefore (k : Str) (es : List QEntry) : Prop :=
  ∀ e ∈ es, (∃ l ∈ e.lines, l.account = k ∧ l.value = none) →
    ∃ e' ∈ es, Date.lt e'.day e.day = true ∧ ∃ l ∈ e'.lines, l.account = k

/-- Specification: the balance report on these entries, if a blank line is worth what `r` says. It lists, in order, exactly
the accounts that occur in a line. For an account that is not left blank before it occurs on an earlier day, every
currency posted has one amount, and that is the sum to eight digits. -/
structure BalanceReport (r : QEntry → Rat × Option Str) (es : List QEntry) (report : List (Str × List Str)) : Prop where
  sorted : report.Pairwise fun a b => strLt a.1 b.1 = true
  accounts : ∀ k, k ∈ report.map Prod.fst ↔ ∃ e ∈ es, ∃ l ∈ e.lines, l.account = k
  amounts : ∀ k ts, (k, ts) ∈ report → PricedBefore k es → ∃ cs : List (Option Str), cs.Nodup ∧
    (∀ s, s ∈ cs ↔ ∃ e ∈ es, ∃ v ∈ e.moves r k, v.2 = s) ∧
    List.Forall₂ (fun t s => ∃ q : Rat, Amount.parse t '.' = .ok (⟨q, s⟩ : Amount Rat) ∧
      |q - pricedSum r k s es| ≤ 1 / 200000000) ts cs

/-- Specification: a line is left blank, and all the others are in one foreign currency, with a price. -/
def QEntry.PaidForInKind (e : QEntry) : Prop :=
  (∃ l ∈ e.lines, l.value = none) ∧ (∃ s, e.In (some s)) ∧ ∃ l ∈ e.lines, l.value ≠ none ∧ l.Priced

/-! ### Lines -/

variable {M : Type} [Mag M]

def amountOf (v : Rat × Option Str) : Amount Rat := ⟨v.1, v.2⟩

/-- What is read for the text of an amount. -/
def magOf (t : Str) : M := PLine.mag ⟨[], [], [], t, none⟩

theorem WrittenAmount.parse_text [ReadsNumerals M] {t : Str} {q : Rat} {s : Option Str} (h : WrittenAmount t q s) :
    Amount.parse t '.' = .ok (⟨magOf t, s⟩ : Amount M) := WrittenAmount.parse_mag (l := ⟨[], [], [], t, none⟩) h

theorem WrittenAmount.text_rat {t : Str} {q : Rat} {s : Option Str} (h : WrittenAmount t q s) : (magOf t : Rat) = q := by
  have := h.parse_rat
  rw [h.parse_text] at this
  cases this; rfl

/-- What is read for a clause. -/
def QClause.read (c : QClause) : Amount M := ⟨magOf c.text, c.value.2⟩

/-- What is read for the clause with this sign. -/
def QLine.clauseRead (l : QLine) (op : Str) : Option (Amount M) := (l.clauses.find? fun c => c.op == op).map QClause.read

/-- What is read for a line. -/
def QLine.read (l : QLine) : Classic M :=
  ⟨l.account, l.toPLine.read,
    match (l.clauseRead s%"@" : Option (Amount M)) with
    | some p => some (.unit p)
    | none => (l.clauseRead s%"=").map .total,
    l.clauseRead s%"!"⟩

def QLine.posting (l : QLine) : Posting M := .classic l.read

theorem QLine.Ok.splitWs {accs : List Str} {l : QLine} (h : l.Ok accs) :
    Silverfox.splitWs l.text = l.account :: (Silverfox.splitWs l.amount ++
      clauseToks (l.clauses.map fun c => (c.op, Silverfox.splitWs c.text))) := by
  unfold QLine.text
  rw [splitWs_clauseText _ _ (by
    intro c hc
    obtain ⟨d, hd, rfl⟩ := List.mem_map.1 hc
    exact h.ops d hd), h.base.splitWs, List.map_map]
  rfl

theorem QLine.Ok.clauseAmount [ReadsNumerals M] {accs : List Str} {l : QLine} (h : l.Ok accs) (op : Str) :
    (clauseAmount (l.clauses.map fun c => (c.op, Silverfox.splitWs c.text)) '.' op : Res (Option (Amount M))) =
      .ok (l.clauseRead op) := by
  unfold Silverfox.clauseAmount QLine.clauseRead
  rw [List.find?_map]
  have e : ((fun c : Str × List Str => c.1 == op) ∘ fun c : QClause => (c.op, Silverfox.splitWs c.text)) =
      fun c => c.op == op := rfl
  rw [e]
  cases hf : l.clauses.find? fun c => c.op == op with
  | none => rfl
  | some c =>
    have hw := (h.amounts c (List.mem_of_find?_eq_some hf)).2
    simp only [Option.map]
    rw [hw.words.2, hw.parse_text]
    rfl

theorem QLine.Ok.parse [ReadsNumerals M] {accs names : List Str} {l : QLine} (h : l.Ok accs) (hn : ∀ k ∈ accs, k ∈ names) (line : Str)
    (hl : Silverfox.splitWs (rc line) = Silverfox.splitWs l.text) :
    Posting.parse line '.' names = .ok (l.posting : Posting M) := by
  have h1 : Silverfox.splitWs (trim (removeComments line)) = l.account :: (Silverfox.splitWs l.amount ++
      clauseToks (l.clauses.map fun c => (c.op, Silverfox.splitWs c.text))) := by
    rw [splitWs_trim, removeComments_eq_rc, hl, h.splitWs]
  have hops : ∀ t ∈ Silverfox.splitWs l.amount, isOp t = false := by
    intro t ht
    cases hv : l.value with
    | none => rw [h.base.blank hv] at ht; cases ht
    | some v => exact isOp_false ((h.base.given v.1 v.2 hv).2.1 t ht)
  have hcl : Clauses (Silverfox.splitWs l.amount) (l.clauses.map fun c => (c.op, Silverfox.splitWs c.text)) := by
    refine ⟨hops, ?_, ?_, ?_⟩
    · intro c hc
      obtain ⟨d, hd, rfl⟩ := List.mem_map.1 hc
      exact h.ops d hd
    · rw [List.map_map]; exact h.distinct
    · intro c hc
      obtain ⟨d, hd, rfl⟩ := List.mem_map.1 hc
      exact fun t ht => isOp_false ((h.amounts d hd).1 t ht)
  rw [Posting.parse_classic line '.' names h1 h.base.notEnvelope, Classic.parse_clauses h1 hcl '.' names]
  have hfirst : (firstAmount (Silverfox.splitWs l.amount) '.' : Res (Option (Amount M))) =
      .ok l.toPLine.read := by
    unfold firstAmount PLine.read
    cases hv : l.value with
    | none => rw [h.base.blank hv]; rfl
    | some v =>
      obtain ⟨q, s⟩ := v
      have hw := (h.base.given q s hv).2.2
      rw [if_neg (by rw [joinWith_ne_blank (splitWs_isWord _) hw.words.1]; simp), hw.words.2, hw.parse_mag]
      rfl
  rw [hfirst, h.clauseAmount]
  have hcost : (clauseCost (l.clauses.map fun c => (c.op, Silverfox.splitWs c.text)) '.' : Res (Option (Cost M))) =
      .ok l.read.cost := by
    unfold clauseCost QLine.read
    rw [h.clauseAmount, h.clauseAmount]
    cases (l.clauseRead s%"@" : Option (Amount M)) with
    | some p => rfl
    | none => cases (l.clauseRead s%"=" : Option (Amount M)) <;> rfl
  have hc : names.contains l.account = true := by
    rw [List.contains_iff_mem]; exact hn _ h.base.declared
  rw [hcost]
  simp only [bind, Except.bind, hc, if_true, pure, Except.pure]
  rfl

theorem QLine.Ok.effective {accs : List Str} {l : QLine} (h : l.Ok accs) :
    (∃ c r, effective l.text = c :: r ∧ isWs c = true) ∧ noNl (effective l.text) ∧ ¬ allWs (effective l.text) := by
  have hink : ¬ allWs l.text := by
    intro ha
    have := h.splitWs
    rw [splitWs_allWs ha] at this
    cases this
  rw [effective_plain h.plain.1]
  refine ⟨?_, noNl_trimEnd h.plain.2, ?_⟩
  · obtain ⟨c, r, hc⟩ := List.exists_cons_of_ne_nil h.base.indent.2
    have hi : ∀ z, ¬ allWs (l.account ++ z) := by
      intro z ha
      obtain ⟨x, y, hx⟩ := List.exists_cons_of_ne_nil h.base.word.1
      have h1 := ha x (by simp [hx])
      have h2 := h.base.word.2 x (by simp [hx])
      rw [h1] at h2; cases h2
    refine ⟨c, r ++ trimEnd (l.account ++ (l.gap ++ (l.amount ++ clauseText (l.clauses.map fun c => (c.op, c.text))))),
      ?_, h.base.indent.1 c (by simp [hc])⟩
    rw [show l.text = l.indent ++ (l.account ++ (l.gap ++ (l.amount ++ clauseText (l.clauses.map fun c => (c.op, c.text))))) by
      simp [QLine.text, PLine.text], trimEnd_ink _ (hi _), hc]
    rfl
  · intro ha
    obtain ⟨b, hb, he, _⟩ := trimEnd_spec l.text
    exact hink (by rw [he]; exact allWs_append.2 ⟨ha, hb⟩)

/-! ### Entries -/

theorem QEntry.Ok.header {env : Env} {fmt : Str} {accs : List Str} {e : QEntry} (h : e.Ok env fmt accs) :
    splitWs e.header = e.date :: e.mark :: splitWs e.title ∧ ∃ c r, e.header = c :: r ∧ isWs c = false := by
  have hm : isWord e.mark := by
    have := h.mark
    simp only [List.mem_cons, List.not_mem_nil, or_false] at this
    rcases this with h | h | h <;> rw [h] <;> exact ⟨by simp, by decide⟩
  constructor
  · unfold QEntry.header
    have hg : allWs s%" " := by decide
    rw [show e.date ++ s%" " ++ e.mark ++ s%" " ++ e.title = e.date ++ s%" " ++ (e.mark ++ s%" " ++ e.title) by simp,
      splitWs_cons_gap h.date.1 hg (by simp), splitWs_cons_gap hm hg (by simp)]
  · obtain ⟨c, r, hc⟩ := List.exists_cons_of_ne_nil h.date.1.1
    refine ⟨c, r ++ s%" " ++ e.mark ++ s%" " ++ e.title, ?_, h.date.1.2 c (by simp [hc])⟩
    unfold QEntry.header
    rw [hc]; rfl

theorem given_postings (e : QEntry) :
    givenAmounts (e.lines.map QLine.posting) = e.lines.filterMap fun l => (l.toPLine.read : Option (Amount M)) := by
  unfold givenAmounts
  rw [List.filterMap_map]
  rfl

theorem given_syms (e : QEntry) :
    (e.lines.filterMap fun l => (l.toPLine.read : Option (Amount M))).map Amount.sym = e.given.map Prod.snd := by
  unfold QEntry.given
  rw [List.map_filterMap, List.map_filterMap]
  refine List.filterMap_congr fun l _ => ?_
  unfold PLine.read
  cases l.value <;> rfl

/-- What is read for the worth of a line in the money of the journal. -/
def QLine.readHome (l : QLine) : Option M := l.read.nativeValue

theorem readHome_isSome (l : QLine) : (l.readHome : Option M).isSome = l.home.isSome := by
  unfold QLine.readHome Classic.nativeValue QLine.read QLine.home PLine.read
  cases hv : l.value with
  | none => rfl
  | some v =>
    obtain ⟨q, s⟩ := v
    cases s with
    | none => rfl
    | some s =>
      simp only [Option.map, Option.isNone, QLine.clauseRead, QLine.clause]
      cases l.clauses.find? fun c => c.op == s%"@" with
      | some p =>
        obtain ⟨_, _, p, _ | _⟩ := p <;> rfl
      | none =>
        cases l.clauses.find? fun c => c.op == s%"=" with
        | none => rfl
        | some t =>
          obtain ⟨_, _, t, _ | _⟩ := t <;> rfl

theorem QEntry.Ok.valid {env : Env} {fmt : Str} {accs : List Str} {e : QEntry} (h : e.Ok env fmt accs) (x : Entry M)
    (hx : x.postings = e.lines.map QLine.posting) : x.validate = .ok () := by
  rw [(C15_validate_iff x).1, hx]
  have hc : blankCount (e.lines.map (QLine.posting (M := M))) = (e.lines.filter fun l => l.value.isNone).length := by
    unfold blankCount
    rw [List.countP_map, List.countP_eq_length_filter]
    congr 1
    apply List.filter_congr
    intro l _
    cases hv : l.value <;> simp [QLine.posting, QLine.read, Posting.amount, PLine.read, hv]
  rw [hc]
  refine ⟨h.blanks, ?_⟩
  by_cases hb : ∃ l ∈ e.lines, l.value = none
  · right
    have hone : ∃ s, ∀ v ∈ e.given, ∀ t, v.2 = some t → t = s := by
      rcases (h.known hb).2 with ⟨s, hs⟩ | ⟨_, s, hs⟩
      · cases s with
        | none => exact ⟨[], fun v hv t ht => by rw [hs v hv] at ht; cases ht⟩
        | some s => exact ⟨s, fun v hv t ht => by rw [hs v hv] at ht; cases ht; rfl⟩
      · refine ⟨s, fun v hv t ht => ?_⟩
        rcases hs v hv with h1 | h1
        · rw [h1] at ht; cases ht
        · rw [h1] at ht; cases ht; rfl
    obtain ⟨s, hs⟩ := hone
    have key : ∀ a ∈ givenAmounts (e.lines.map (QLine.posting (M := M))), ∀ t, a.sym = some t → t = s := by
      intro a ha t ht
      rw [given_postings] at ha
      have h1 := List.mem_map_of_mem (f := Amount.sym) ha
      rw [given_syms] at h1
      obtain ⟨v, hv, h2⟩ := List.mem_map.1 h1
      exact hs v hv t (h2.trans ht)
    intro a ha b hb s1 s2 h1 h2
    rw [key a ha s1 h1, key b hb s2 h2]
  · left
    rw [List.length_eq_zero_iff, List.filter_eq_nil_iff]
    intro l hl
    cases hv : l.value with
    | none => exact absurd ⟨l, hl, hv⟩ hb
    | some v => simp

open Classical in
/-- What is read for a blank line. -/
noncomputable def QEntry.readBooked (e : QEntry) : Amount M :=
  if ∃ s, e.In s then
    match e.lines.filterMap fun l => (l.toPLine.read : Option (Amount M)) with
    | a :: as => ⟨(as.map Amount.mag).foldl Mag.sub (Mag.neg a.mag), a.sym⟩
    | [] => Amount.zero
  else ⟨(e.lines.filterMap QLine.readHome).foldl Mag.sub Mag.zero, none⟩

theorem blankMixed_fold (ps : List (Posting M)) (m : M) (h : ∀ p ∈ ps, p.amount.isSome → p.nativeValue.isSome) :
    blankMixed ps m = .ok ((ps.filterMap Posting.nativeValue).foldl Mag.sub m) := by
  induction ps generalizing m with
  | nil => rfl
  | cons p ps ih =>
    unfold blankMixed
    cases hv : p.nativeValue with
    | some v =>
      simp only [List.filterMap_cons, hv, List.foldl_cons]
      exact ih _ fun q hq => h q (by simp [hq])
    | none =>
      have : p.amount.isSome = false := by
        cases ha : p.amount with
        | none => rfl
        | some a =>
          have := h p (by simp) (by simp [ha])
          rw [hv] at this; cases this
      simp only [List.filterMap_cons, hv, this, Bool.false_eq_true, if_false]
      exact ih _ fun q hq => h q (by simp [hq])

/-- Where the rules agree. -/
theorem QEntry.booked_eq_rest {e : QEntry} (hb : ∃ l ∈ e.lines, l.value = none) (hne : e.given ≠ []) (hp : ¬ e.PaidForInKind) :
    e.booked = e.rest := by
  unfold QEntry.booked QEntry.rest
  by_cases hs : ∃ s, e.In s
  · rw [if_pos hs]
    obtain ⟨s, hs⟩ := hs
    obtain ⟨v, vs, hv⟩ := List.exists_cons_of_ne_nil hne
    have hv2 := hs v (by rw [hv]; simp)
    cases s with
    | none =>
      have e1 : e.lines.filterMap QLine.home = e.given.map Prod.fst := by
        unfold QEntry.given
        rw [List.map_filterMap]
        refine List.filterMap_congr fun l hl => ?_
        cases hv : l.value with
        | none => simp [QLine.home, hv]
        | some v =>
          have := hs v (List.mem_filterMap.2 ⟨l, hl, hv⟩)
          obtain ⟨q, c⟩ := v
          simp only at this
          subst this
          simp [QLine.home, hv]
      split
      · rw [e1, hv]; simp [hv2]
      · rfl
    | some s =>
      rw [if_neg]
      rintro (h4 | h4)
      · exact hp ⟨hb, ⟨s, hs⟩, h4⟩
      · exact h4 ⟨_, hs⟩
  · rw [if_neg hs, if_pos (Or.inr hs)]

theorem QEntry.moves_congr {e : QEntry} {r r' : QEntry → Rat × Option Str}
    (h : (∃ l ∈ e.lines, l.value = none) → r e = r' e) (k : Str) : e.moves r k = e.moves r' k := by
  unfold QEntry.moves
  refine List.filterMap_congr fun l hl => ?_
  cases hv : l.value with
  | none => rw [h ⟨l, hl, hv⟩]
  | some v => rfl

theorem BalanceReport.congr {es : List QEntry} {r r' : QEntry → Rat × Option Str} {report : List (Str × List Str)}
    (h : BalanceReport r es report) (hr : ∀ e ∈ es, (∃ l ∈ e.lines, l.value = none) → r e = r' e) :
    BalanceReport r' es report := by
  have hm : ∀ k, ∀ e ∈ es, e.moves r k = e.moves r' k := fun k e he => QEntry.moves_congr (hr e he) k
  have hsum : ∀ k s, pricedSum r k s es = pricedSum r' k s es := by
    intro k s
    unfold pricedSum
    rw [List.flatMap_congr (hm k)]
  refine ⟨h.sorted, h.accounts, fun k ts hk hb => ?_⟩
  obtain ⟨cs, h1, h2, h3⟩ := h.amounts k ts hk hb
  refine ⟨cs, h1, fun s => (h2 s).trans ?_, by simpa only [hsum] using h3⟩
  constructor
  · rintro ⟨e, he, v, hv, hs⟩; exact ⟨e, he, v, by rw [← hm k e he]; exact hv, hs⟩
  · rintro ⟨e, he, v, hv, hs⟩; exact ⟨e, he, v, by rw [hm k e he]; exact hv, hs⟩

/-- The blank line is worth what the rule says. -/
theorem QEntry.Ok.blankAmount {env : Env} {fmt : Str} {accs : List Str} {e : QEntry} (h : e.Ok env fmt accs) (x : Entry M)
    (hx : x.postings = e.lines.map QLine.posting) (hb : ∃ l ∈ e.lines, l.value = none) :
    x.blankAmount = .ok (some e.readBooked) := by
  obtain ⟨hne, hk⟩ := h.known hb
  have hb' : ∃ p ∈ x.postings, p.amount = none := by
    obtain ⟨l, hl, hv⟩ := hb
    exact ⟨l.posting, by rw [hx]; exact List.mem_map_of_mem hl, by simp [QLine.posting, QLine.read, Posting.amount, PLine.read, hv]⟩
  have hin : ∀ s, AllIn s x.postings ↔ e.In s := by
    intro s
    unfold AllIn QEntry.In
    rw [hx, given_postings]
    have hs := given_syms (M := M) e
    constructor
    · intro h v hv
      have h1 := List.mem_map_of_mem (f := Prod.snd) hv
      rw [← hs] at h1
      obtain ⟨a, ha, h2⟩ := List.mem_map.1 h1
      exact h2.symm.trans (h a ha)
    · intro h a ha
      have h1 := List.mem_map_of_mem (f := Amount.sym) ha
      rw [hs] at h1
      obtain ⟨v, hv, h2⟩ := List.mem_map.1 h1
      exact h2.symm.trans (h v hv)
  unfold QEntry.readBooked
  by_cases hs : ∃ s, e.In s
  · rw [if_pos hs]
    obtain ⟨s, hs⟩ := hs
    cases hg : e.lines.filterMap fun l => (l.toPLine.read : Option (Amount M)) with
    | nil =>
      have := given_syms (M := M) e
      rw [hg] at this
      exact absurd (List.map_eq_nil_iff.1 this.symm) hne
    | cons a as =>
      have hg' : givenAmounts x.postings = a :: as := by rw [hx, given_postings, hg]
      have ha : a.sym = s := (hin s).2 hs a (by rw [hg']; simp)
      rw [blankAmount_single x s a as hb' ((hin s).2 hs) hg']
      simp only [ha]
  · rw [if_neg hs]
    obtain ⟨hk, _⟩ := hk.resolve_left hs
    have hblank : x.hasBlank = true := by
      obtain ⟨p, hp, hpa⟩ := hb'
      exact List.any_eq_true.2 ⟨p, hp, by simp [hpa]⟩
    have hm : x.hasMixed = true := by
      rw [← Bool.not_eq_false, hasMixed_false_iff]
      rintro ⟨s, h4⟩; exact hs ⟨s, (hin s).1 h4⟩
    unfold Entry.blankAmount
    simp only [hblank, hm, Bool.not_true, Bool.false_eq_true, if_false, if_true]
    rw [blankMixed_fold]
    · rw [hx, List.filterMap_map]
      rfl
    · intro p hp hpa
      rw [hx] at hp
      obtain ⟨l, hl, rfl⟩ := List.mem_map.1 hp
      show (l.readHome : Option M).isSome = true
      rw [readHome_isSome, Option.isSome_iff_ne_none]
      refine hk l hl fun hv => ?_
      simp [QLine.posting, QLine.read, Posting.amount, PLine.read, hv] at hpa

/-- The entries that are read are those that are written. -/
def QEntry.ReadAs (e : QEntry) (x : Entry M) : Prop :=
  x.date = e.day ∧ x.postings = e.lines.map QLine.posting ∧ [x.status.toChar] = e.mark ∧
    ∃ payee, DescriptionOf (joinWith s%" " (Silverfox.splitWs e.title)) x.description payee

/-- The entry is read. -/
theorem QEntry.Ok.block [ReadsNumerals M] {env : Env} {fmt : Str} {accs : List Str} {e : QEntry} (h : e.Ok env fmt accs) :
    ∃ x : Entry M, e.ReadAs x ∧ EBlock.Ok env fmt accs ⟨e.header, e.lines.map QLine.text, x⟩ := by
  have hne : ∀ l ∈ e.lines.map QLine.text, effective l ≠ [] := by
    intro l hl
    obtain ⟨p, hp, rfl⟩ := List.mem_map.1 hl
    obtain ⟨c, r, hc, _⟩ := (h.lines p hp).effective.1
    rw [hc]; simp
  have hhead : ¬ allWs (effective e.header) := by
    intro ha
    have h1 := splitWs_rc_effective h.plain.1
    rw [h.header.1, splitWs_rc_trim] at h1
    have h2 : rc (effective e.header) = effective e.header := by
      rw [effective_plain h.plain.1, rc_trimEnd ((noComment_iff _).1 h.plain.1)]
    rw [h2, splitWs_allWs ha] at h1
    cases h1
  obtain ⟨desc, payee, htitle⟩ := h.title
  have hsay : HeaderSays env fmt e.header
      (⟨e.day, if e.mark = s%"?" then .pending else if e.mark = s%"~" then .cleared else .reconciled,
        desc, payee, none, e.lines.map QLine.posting⟩ : Entry M) := by
    refine ⟨_, _, _, h.header.1, h.date.2.2, ?_, htitle, rfl⟩
    have := h.mark
    simp only [List.mem_cons, List.not_mem_nil, or_false] at this
    rcases this with h | h | h <;> simp [h]
  obtain ⟨e0, h1, h2⟩ := (parseHeader_iff env _ (trim (effective e.header)) e.header
    (splitWs_rc_effective h.plain.1) _).2 hsay
  refine ⟨{ e0 with postings := e.lines.map QLine.posting }, ⟨congrArg Entry.date h2, rfl, ?_, payee, ?_⟩, ?_, ?_, ?_, ?_, ?_⟩
  · have h3 := congrArg Entry.status h2
    simp only at h3 ⊢
    rw [h3]
    have := h.mark
    simp only [List.mem_cons, List.not_mem_nil, or_false] at this
    rcases this with h | h | h <;> rw [h] <;> rfl
  · have h3 := congrArg Entry.description h2
    simp only at h3 ⊢
    rw [h3]; exact htitle
  · obtain ⟨c, r, h1, h2⟩ := h.header.2
    show ∃ c r, effective e.header = _ ∧ _
    obtain ⟨b, hb, h3, _⟩ := trimEnd_spec e.header
    rw [effective_plain h.plain.1]
    cases ht : trimEnd e.header with
    | nil =>
      rw [ht, List.nil_append] at h3
      have h4 := hb c (by rw [← h3, h1]; simp)
      rw [h2] at h4; cases h4
    | cons c' r' =>
      rw [ht, h1] at h3
      cases h3
      exact ⟨c, r', rfl, h2⟩
  · intro t ht
    obtain ⟨p, hp, rfl⟩ := List.mem_map.1 ht
    exact (h.lines p hp).effective.1
  · refine ⟨e.date, ?_, h.date.2.1⟩
    show (splitWs (effective e.header ++ restOf (e.lines.map QLine.text))).head? = _
    have h5 : splitWs (effective e.header) = e.date :: e.mark :: splitWs e.title := by
      rw [effective_plain h.plain.1, splitWs_trimEnd, h.header.1]
    rw [restOf_full _ hne]
    cases e.lines with
    | nil => simp [h5]
    | cons l ls =>
      simp only [List.map_cons, List.flatten_cons, List.cons_append]
      rw [splitWs_append_ws _ (by decide), h5]
      rfl
  · intro names hn
    show Entry.parse env (effective e.header ++ restOf (e.lines.map QLine.text)) _ _ _ = _
    rw [restOf_full _ hne, Entry.parse_ink, inkLines_chunk _ ?_
      (by rw [effective_plain h.plain.1]; exact noNl_trimEnd h.plain.2) hhead]
    · have hps : ∀ ls : List QLine, (∀ l ∈ ls, l.Ok accs) →
          Entry.parsePostings '.' names (((ls.map QLine.text).map effective).map trim) = .ok (ls.map (QLine.posting (M := M))) := by
        intro ls
        induction ls with
        | nil => intro _; rfl
        | cons l ls ih =>
          intro hl
          have hl1 := hl l (by simp)
          simp only [List.map_cons, Entry.parsePostings]
          rw [if_neg (by rw [trim_trim, List.isEmpty_iff, trim_eq_nil]; exact hl1.effective.2.2),
            ih fun x hx => hl x (by simp [hx]), hl1.parse hn _ (splitWs_rc_effective hl1.plain.1)]
          rfl
      simp only [h1, bind, Except.bind, hps e.lines h.lines]
      rw [h.valid _ rfl]
      rfl
    · intro l hl
      obtain ⟨t, ht, rfl⟩ := List.mem_map.1 hl
      obtain ⟨p, hp, rfl⟩ := List.mem_map.1 ht
      exact (h.lines p hp).effective.2
  · intro p hpm hn
    obtain ⟨l, hl, rfl⟩ := List.mem_map.1 (show p ∈ e.lines.map QLine.posting from hpm)
    refine ⟨_, h.blankAmount _ rfl ⟨l, hl, ?_⟩⟩
    cases hv : l.value with
    | none => rfl
    | some v => simp [QLine.posting, QLine.read, Posting.amount, PLine.read, hv] at hn

/-- What is read for what the entry brings to an account. -/
noncomputable def QEntry.readMoves (k : Str) (e : QEntry) : List (Amount M) :=
  e.lines.filterMap fun l => if l.account = k then some (l.toPLine.read.getD e.readBooked) else none

/-- What the entry that is read brings to an account. -/
theorem QEntry.Ok.moves {env : Env} {fmt : Str} {accs : List Str} {e : QEntry} (h : e.Ok env fmt accs)
    (x : Entry M) (hx : x.postings = e.lines.map QLine.posting) (k : Str) : x.movesOf k = e.readMoves k := by
  unfold Entry.movesOf QEntry.readMoves
  rw [hx, List.filterMap_map]
  refine List.filterMap_congr fun l hl => ?_
  simp only [Function.comp, QLine.posting, QLine.read]
  by_cases hk : l.account = k
  · simp only [hk, if_true]
    unfold Entry.worthOf PLine.read
    cases hv : l.value with
    | some v => rfl
    | none =>
      simp only [Option.map]
      rw [h.blankAmount x hx ⟨l, hl, hv⟩]
      rfl
  · simp [hk]

/-- The balance report, once the entries are read. -/
theorem qentries_report (env : Env) (hord : FairOrder env.ord) (o : Outside) (w : World) (es : List QEntry)
    (xs : List (Entry M)) (hF : List.Forall₂ QEntry.ReadAs es xs) (hes : ∀ e ∈ es, ∃ fmt accs, e.Ok env fmt accs)
    (l : Ledger M) (path : Str) (hload : Ledger.fromFile env o.fuel w path = .ok (l, w.cdParent path))
    (hl : ∀ k a, (k, a) ∈ l.accounts → a.expenses = [] ∧ a.goals = []) (hd : DateOrdered xs l.entries)
    (c : Str) (args : List Str) (fs : List Flag)
    (hc : c.head? = some 'b') (ha : Spelled fs args) (hj : journalFor o fs = some path)
    (hfmt : (∀ m : M, FmtOk (round8 m)) ∨ ∀ k, PricedBefore k es ∧ ∀ ms : List (Amount M),
      ms.Perm (es.flatMap (QEntry.readMoves k)) → ∀ a ∈ ms.foldl Pool.add [], FmtOk (round8 a.mag)) :
    ∃ w' out, mainProgram M env o (c :: args) w = (w', .ok out) ∧ w'.file = w.file ∧
      (readReport out).Pairwise (fun a b => strLt a.1 b.1 = true) ∧
      (∀ k, k ∈ (readReport out).map Prod.fst ↔ ∃ e ∈ es, ∃ l ∈ e.lines, l.account = k) ∧
      ∀ k ts, (k, ts) ∈ readReport out → PricedBefore k es → ∃ ms : List (Amount M),
        ms.Perm (es.flatMap (QEntry.readMoves k)) ∧ List.Forall₂ (fun t (a : Amount M) => t = a.display ∧
          ∀ s, a.sym = some s → ValidSymbol '.' s) ts (ms.foldl Pool.add []) := by
  have hmem : ∀ x ∈ xs, ∃ e ∈ es, x.date = e.day ∧ x.postings = e.lines.map QLine.posting := by
    intro x hx
    obtain ⟨e, he, h3, h4, _⟩ := forall₂_mem_right hF hx
    exact ⟨e, he, h3, h4⟩
  have hmem' : ∀ e ∈ es, ∃ x ∈ xs, x.date = e.day ∧ x.postings = e.lines.map QLine.posting := by
    intro e he
    obtain ⟨x, hx, h3, h4, _⟩ := forall₂_mem_left hF he
    exact ⟨x, hx, h3, h4⟩
  have hfirst : ∀ k, PricedBefore k es → FirstHasAmount k l.entries := by
    intro k hseen p hp
    obtain ⟨y, h1, h2, h3, h4⟩ := first_posting k l.entries hd.sorted p hp
    obtain ⟨e, he, hday, hpo⟩ := hmem y (hd.same.mem_iff.1 h1)
    rw [hpo] at h2
    obtain ⟨q, hq, rfl⟩ := List.mem_map.1 h2
    cases hv : q.value with
    | some v => simp [QLine.posting, QLine.read, Posting.amount, PLine.read, hv]
    | none =>
      obtain ⟨e', he', hlt, l', hl', hk'⟩ := hseen e he ⟨q, hq, h3, hv⟩
      obtain ⟨y', hy', hday', hpo'⟩ := hmem' e' he'
      refine absurd hk' (h4 y' (hd.same.mem_iff.2 hy') ?_ l'.posting (by rw [hpo']; exact List.mem_map_of_mem hl'))
      rw [hday', hday]; exact hlt
  have hmoves : ∀ k, (xs.flatMap fun x => x.movesOf k) = es.flatMap (QEntry.readMoves k) := by
    intro k
    clear hload hd hmem hmem' hfirst hfmt
    induction hF with
    | nil => rfl
    | @cons e x es xs h1 _ ih =>
      obtain ⟨_, _, hok⟩ := hes e (by simp)
      rw [List.flatMap_cons, List.flatMap_cons, ih (fun e he => hes e (by simp [he])), hok.moves x h1.2.1 k]
  obtain ⟨w', out, r1, r2, r3, r4, r5⟩ := entries_report env hord o w xs l path hload hl hd (by
      intro x hx p hp
      obtain ⟨e, _, _, h2⟩ := hmem x hx
      rw [h2] at hp
      obtain ⟨q, _, rfl⟩ := List.mem_map.1 hp
      rfl) (by
      intro x hx p hp a hpa s hs
      obtain ⟨e, he, _, h2⟩ := hmem x hx
      rw [h2] at hp
      obtain ⟨q, hq, rfl⟩ := List.mem_map.1 hp
      obtain ⟨⟨m, y⟩, hv, rfl⟩ := read_sym (show q.toPLine.read = some a from hpa)
      simp only at hs
      subst hs
      obtain ⟨_, _, hok⟩ := hes e he
      obtain ⟨_, _, _, _, _, _, hw | ⟨sym, e1, e2, _⟩⟩ := ((hok.lines q hq).base.given m _ hv).2.2
      · cases hw.1
      · cases e1; exact e2) c args fs hc ha hj
      (hfmt.imp id fun h k => ⟨hfirst k (h k).1, fun ms hp => (h k).2 ms (by rw [← hmoves k]; exact hp)⟩)
  refine ⟨w', out, r1, r2, r3, ?_, ?_⟩
  · intro k
    rw [r4 k]
    constructor
    · rintro ⟨x, hx, p, hp, rfl⟩
      obtain ⟨e, he, _, h2⟩ := hmem x hx
      rw [h2] at hp
      obtain ⟨q, hq, rfl⟩ := List.mem_map.1 hp
      exact ⟨e, he, q, hq, rfl⟩
    · rintro ⟨e, he, q, hq, rfl⟩
      obtain ⟨x, hx, _, h2⟩ := hmem' e he
      exact ⟨x, hx, q.posting, by rw [h2]; exact List.mem_map_of_mem hq, rfl⟩
  · intro k ts hm hseen
    obtain ⟨ms, h1, h2⟩ := r5 k ts hm (hfirst k hseen)
    exact ⟨ms, by rw [← hmoves k]; exact h1, h2⟩

/-! ### Exact numbers -/

theorem QLine.Ok.read_rat {accs : List Str} {l : QLine} (h : l.Ok accs) :
    (l.toPLine.read : Option (Amount Rat)) = l.value.map amountOf := h.base.read_rat

theorem QLine.Ok.home_rat {accs : List Str} {l : QLine} (h : l.Ok accs) : (l.readHome : Option Rat) = l.home := by
  unfold QLine.readHome Classic.nativeValue QLine.home
  rw [show (l.read : Classic Rat).amount = l.value.map amountOf from h.read_rat]
  unfold QLine.read
  cases hv : l.value with
  | none => rfl
  | some v =>
    obtain ⟨q, s⟩ := v
    cases s with
    | none => rfl
    | some s =>
      simp only [Option.map, Option.isNone, QLine.clauseRead, QLine.clause, amountOf]
      cases hf : l.clauses.find? fun c => c.op == s%"@" with
      | some p =>
        have hw := (h.amounts p (List.mem_of_find?_eq_some hf)).2
        have e := hw.text_rat
        obtain ⟨_, _, p, _ | _⟩ := p
        · simp only at e
          simp only [QClause.read, e]
          rfl
        · rfl
      | none =>
        cases hf : l.clauses.find? fun c => c.op == s%"=" with
        | none => rfl
        | some t =>
          have hw := (h.amounts t (List.mem_of_find?_eq_some hf)).2
          have e := hw.text_rat
          obtain ⟨_, _, t, _ | _⟩ := t
          · simp only at e
            simp only [QClause.read, e]
            rfl
          · rfl

theorem foldl_sub_rat (vs : List Rat) (z : Rat) : vs.foldl Mag.sub z = z - vs.sum := by
  induction vs generalizing z with
  | nil => simp
  | cons v vs ih =>
    rw [List.foldl_cons, ih, List.sum_cons]
    show z - v - _ = _
    ring

theorem QEntry.Ok.booked_rat {env : Env} {fmt : Str} {accs : List Str} {e : QEntry} (h : e.Ok env fmt accs)
    (hne : e.given ≠ []) : (e.readBooked : Amount Rat) = amountOf e.booked := by
  have hg : (e.lines.filterMap fun l => (l.toPLine.read : Option (Amount Rat))) = e.given.map amountOf := by
    unfold QEntry.given
    rw [List.map_filterMap]
    exact List.filterMap_congr fun l hl => (h.lines l hl).read_rat
  unfold QEntry.readBooked QEntry.booked
  by_cases hs : ∃ s, e.In s
  · rw [if_pos hs, if_pos hs, hg]
    obtain ⟨v, vs, hv⟩ := List.exists_cons_of_ne_nil hne
    rw [hv]
    simp only [List.map_cons, List.head?_cons, Option.map_some, Option.getD_some, List.map_map, amountOf, List.sum_cons]
    rw [foldl_sub_rat]
    congr 1
    rw [show (Amount.mag ∘ amountOf : Rat × Option Str → Rat) = Prod.fst from rfl]
    show -v.1 - _ = _
    ring
  · rw [if_neg hs, if_neg hs, foldl_sub_rat,
      show e.lines.filterMap (QLine.readHome (M := Rat)) = e.lines.filterMap QLine.home from
        List.filterMap_congr fun l hl => (h.lines l hl).home_rat]
    show (⟨0 - _, none⟩ : Amount Rat) = _
    rw [zero_sub]; rfl

theorem QEntry.Ok.moves_rat {env : Env} {fmt : Str} {accs : List Str} {e : QEntry} (h : e.Ok env fmt accs) (k : Str) :
    e.readMoves k = (e.moves QEntry.booked k).map amountOf := by
  unfold QEntry.readMoves QEntry.moves
  rw [List.map_filterMap]
  refine List.filterMap_congr fun l hl => ?_
  by_cases hk : l.account = k
  · simp only [hk, if_true, Option.map_some, (h.lines l hl).read_rat]
    cases hv : l.value with
    | some v => rfl
    | none =>
      simp only [Option.map, Option.getD]
      rw [h.booked_rat (h.known ⟨l, hl, hv⟩).1]
  · simp [hk]

/-- The report in exact numbers. -/
theorem exact_report {es : List QEntry} {env : Env} (hes : ∀ e ∈ es, ∃ fmt accs, e.Ok env fmt accs)
    {report : List (Str × List Str)} (h1 : report.Pairwise fun a b => strLt a.1 b.1 = true)
    (h2 : ∀ k, k ∈ report.map Prod.fst ↔ ∃ e ∈ es, ∃ l ∈ e.lines, l.account = k)
    (h3 : ∀ k ts, (k, ts) ∈ report → PricedBefore k es → ∃ ms : List (Amount Rat),
        ms.Perm (es.flatMap (QEntry.readMoves k)) ∧ List.Forall₂ (fun t (a : Amount Rat) => t = a.display ∧
          ∀ s, a.sym = some s → ValidSymbol '.' s) ts (ms.foldl Pool.add [])) :
    BalanceReport QEntry.booked es report := by
  refine ⟨h1, h2, fun k ts hm hb => ?_⟩
  obtain ⟨ms, g1, g2⟩ := h3 k ts hm hb
  obtain ⟨cs, c1, c2, c3⟩ := shown_exact ms _ g1 ts g2
  have hmoves : es.flatMap (QEntry.readMoves k) = (es.flatMap (QEntry.moves QEntry.booked k)).map amountOf := by
    rw [List.map_flatMap]
    refine List.flatMap_congr fun e he => ?_
    obtain ⟨_, _, hok⟩ := hes e he
    exact hok.moves_rat k
  refine ⟨cs, c1, ?_, ?_⟩
  · intro s
    rw [c2 s, hmoves]
    simp only [List.mem_map, List.mem_flatMap]
    constructor
    · rintro ⟨_, ⟨v, ⟨e, he, hv⟩, rfl⟩, rfl⟩; exact ⟨e, he, v, hv, rfl⟩
    · rintro ⟨e, he, v, hv, rfl⟩; exact ⟨_, ⟨v, ⟨e, he, hv⟩, rfl⟩, rfl⟩
  · have hsum : ∀ s, ((es.flatMap (QEntry.readMoves k)).map fun a : Amount Rat => if a.sym = s then a.mag else 0).sum =
        pricedSum QEntry.booked k s es := by
      intro s
      rw [hmoves, List.map_map]
      rfl
    simpa only [hsum] using c3

/-! ### C126 -/

/-- C126. What the report on every such journal is: a blank line is worth what is missing in the currency of the other
lines if they have one, and otherwise what is missing in the money of the journal. -/
theorem C126_exact_rule (env : Env) (hord : FairOrder env.ord) (o : Outside) (w : World) (accs : List Str)
    (es : List QEntry) (text path : Str) (h : PricedJournal env accs es text)
    (hr : w.read path = some text) (hfuel : o.fuel ≠ 0) (c : Str) (args : List Str) (fs : List Flag)
    (hc : c.head? = some 'b') (ha : Spelled fs args) (hj : journalFor o fs = some path) :
    ∃ w' out, mainProgram Rat env o (c :: args) w = (w', .ok out) ∧ w'.file = w.file ∧
      BalanceReport QEntry.booked es (readReport out) := by
  obtain ⟨fuel, hf⟩ := Nat.exists_eq_succ_of_ne_zero hfuel
  have hbs : ∃ bs : List (EBlock Rat), List.Forall₂ (fun (e : QEntry) (b : EBlock Rat) => b.head = e.header ∧
      b.rest = e.lines.map QLine.text ∧ e.ReadAs b.entry) es bs ∧
      ∀ b ∈ bs, b.Ok env s%"%Y/%m/%d" accs := by
    have hes := h.entries
    clear h hr
    induction es with
    | nil => exact ⟨[], .nil, by simp⟩
    | cons e es ih =>
      obtain ⟨bs, h1, h2⟩ := ih fun e he => hes e (by simp [he])
      obtain ⟨x, h3, h5⟩ := (hes e (by simp)).block (M := Rat)
      refine ⟨⟨e.header, e.lines.map QLine.text, x⟩ :: bs, .cons ⟨rfl, rfl, h3⟩ h1, ?_⟩
      intro b hb
      rcases List.mem_cons.1 hb with rfl | hb
      · exact h5
      · exact h2 b hb
  obtain ⟨bs, hF, hok⟩ := hbs
  have htext : inked (lines text) = accs.map (s%"account " ++ ·) ++ bs.flatMap fun b => b.head :: b.rest := by
    rw [h.text]
    congr 1
    clear h hr hok
    induction hF with
    | nil => rfl
    | cons h1 _ ih => rw [List.flatMap_cons, List.flatMap_cons, ih, h1.1, h1.2.1]
  obtain ⟨l, hl, hd, hload⟩ := blocks_load hord htext h.accounts hok fuel w path hr
  obtain ⟨w', out, r1, r2, r3, r4, r5⟩ := qentries_report env hord o w es (bs.map EBlock.entry) (by
      rw [List.forall₂_map_right_iff]
      exact hF.imp fun e b hb => hb.2.2) (fun e he => ⟨_, _, h.entries e he⟩) l path
    (by rw [hf]; exact hload) hl.bare hd c args fs hc ha hj (Or.inl fmtOk_rat)
  exact ⟨w', out, r1, r2, exact_report (fun e he => ⟨_, _, h.entries e he⟩) r3 r4 r5⟩

/-- **C126, in part.** `silverfox balance` on a journal whose lines may have prices (`@`), totals (`=`) and asserted
balances (`!`), in any order, and whose titles may name payees: the report lists, in order, exactly the accounts that
occur in a line. For an account that is not left blank before it occurs on an earlier day, every currency posted
has one amount, and that amount is, to eight digits, the sum of what the lines say. A blank line brings what is missing:
in the money of the journal if other lines are priced or in several currencies. Asserted balances and payees do not
matter. Missing: an entry in which all but the blank line are in one foreign currency, with a price; there the claim is false
(`C126_paid_for_in_kind`; what happens then is in `C126_exact_rule`). -/
theorem C126_priced_text_to_report_partial (env : Env) (hord : FairOrder env.ord) (o : Outside) (w : World) (accs : List Str)
    (es : List QEntry) (text path : Str) (h : PricedJournal env accs es text) (hkind : ∀ e ∈ es, ¬ e.PaidForInKind)
    (hr : w.read path = some text) (hfuel : o.fuel ≠ 0) (c : Str) (args : List Str) (fs : List Flag)
    (hc : c.head? = some 'b') (ha : Spelled fs args) (hj : journalFor o fs = some path) :
    ∃ w' out, mainProgram Rat env o (c :: args) w = (w', .ok out) ∧ w'.file = w.file ∧
      BalanceReport QEntry.rest es (readReport out) := by
  obtain ⟨w', out, h1, h2, h3⟩ := C126_exact_rule env hord o w accs es text path h hr hfuel c args fs hc ha hj
  refine ⟨w', out, h1, h2, h3.congr fun e he hb => ?_⟩
  exact QEntry.booked_eq_rest hb ((h.entries e he).known hb).1 (hkind e he)

/-! ### Journals -/

def exOpening : QEntry where
  date := s%"2024/01/01"
  mark := s%"*"
  title := s%"open"
  day := ⟨2024, 1, 1, by decide⟩
  lines := [⟨⟨s%" ", s%"bank", s%" ", s%"100", some (100, none)⟩, [⟨s%"!", s%"100", (100, none)⟩]⟩,
    ⟨⟨s%" ", s%"fee", s%" ", s%"-100", some (-100, none)⟩, []⟩]

def exBuying : QEntry where
  date := s%"2024/01/02"
  mark := s%"~"
  title := s%"buy [Broker & Co]"
  day := ⟨2024, 1, 2, by decide⟩
  lines := [⟨⟨s%" ", s%"shares", s%" ", s%"5 XYZ", some (5, some s%"XYZ")⟩, [⟨s%"@", s%"3.5", (7 / 2, none)⟩]⟩,
    ⟨⟨s%" ", s%"fee", s%" ", s%"1", some (1, none)⟩, []⟩,
    ⟨⟨s%" ", s%"bank", [], [], none⟩, [⟨s%"!", s%"0", (0, none)⟩]⟩]

def exBarter : QEntry where
  date := s%"2024/01/02"
  mark := s%"~"
  title := s%"buy [Broker & Co]"
  day := ⟨2024, 1, 2, by decide⟩
  lines := [⟨⟨s%" ", s%"shares", s%" ", s%"5 XYZ", some (5, some s%"XYZ")⟩, [⟨s%"@", s%"3.5", (7 / 2, none)⟩]⟩,
    ⟨⟨s%" ", s%"bank", [], [], none⟩, []⟩]

def exBuyingText : Str :=
  s%"account shares\naccount fee\naccount bank\n2024/01/01 * open\n bank 100 ! 100\n fee -100\n2024/01/02 ~ buy [Broker & Co]\n shares 5 XYZ @ 3.5\n fee 1\n bank ! 0"

def exBarterText : Str :=
  s%"account shares\naccount fee\naccount bank\n2024/01/01 * open\n bank 100 ! 100\n fee -100\n2024/01/02 ~ buy [Broker & Co]\n shares 5 XYZ @ 3.5\n bank"

theorem exAmounts : WrittenAmount s%"100" 100 none ∧ WrittenAmount s%"-100" (-100) none ∧
    WrittenAmount s%"5 XYZ" 5 (some s%"XYZ") ∧ WrittenAmount s%"3.5" (7 / 2) none ∧ WrittenAmount s%"1" 1 none ∧
    WrittenAmount s%"0" 0 none := by
  refine ⟨⟨s%"100", false, 100, 0, ?_, by norm_num, Or.inl ⟨rfl, rfl⟩⟩,
    ⟨s%"-100", true, 100, 0, ?_, by norm_num, Or.inl ⟨rfl, rfl⟩⟩,
    ⟨s%"5", false, 5, 0, ?_, by norm_num, Or.inr ⟨_, rfl, by decide, by decide⟩⟩,
    ⟨s%"3.5", false, 35, 1, ?_, by norm_num, Or.inl ⟨rfl, rfl⟩⟩,
    ⟨s%"1", false, 1, 0, ?_, by norm_num, Or.inl ⟨rfl, rfl⟩⟩,
    ⟨s%"0", false, 0, 0, ?_, by norm_num, Or.inl ⟨rfl, rfl⟩⟩⟩
  · exact ⟨s%"100", [], by decide, by decide, by decide, by decide, by decide, by decide⟩
  · exact ⟨s%"100", [], by decide, by decide, by decide, by decide, by decide, by decide⟩
  · exact ⟨s%"5", [], by decide, by decide, by decide, by decide, by decide, by decide⟩
  · exact ⟨s%"3", s%"5", by decide, by decide, by decide, by decide, by decide, by decide⟩
  · exact ⟨s%"1", [], by decide, by decide, by decide, by decide, by decide, by decide⟩
  · exact ⟨s%"0", [], by decide, by decide, by decide, by decide, by decide, by decide⟩

theorem exQLine (accs : List Str) (l : QLine) (h1 : allWs l.indent ∧ l.indent ≠ []) (h2 : isWord l.account)
    (h3 : l.account ≠ s%"envelope" ∧ l.account ∈ accs) (h4 : allWs l.gap)
    (h5 : (NoComment l.toPLine.text ∧ noNl l.toPLine.text) ∧ NoComment l.text ∧ noNl l.text)
    (h6 : l.value = none → l.amount = [])
    (h7 : ∀ q s, l.value = some (q, s) → l.gap ≠ [] ∧ NoOps l.amount ∧ WrittenAmount l.amount q s)
    (h8 : ∀ c ∈ l.clauses, c.op ∈ [s%"!", s%"@", s%"="]) (h9 : (l.clauses.map QClause.op).Nodup)
    (h10 : ∀ c ∈ l.clauses, NoOps c.text ∧ WrittenAmount c.text c.value.1 c.value.2) : l.Ok accs :=
  ⟨⟨h1, h2, h3.1, h3.2, h4, h5.1, h6, h7⟩, h5.2, h8, h9, h10⟩

theorem exOpening_ok : exOpening.Ok (stdEnv june15) s%"%Y/%m/%d" [s%"shares", s%"fee", s%"bank"] := by
  obtain ⟨a1, a2, a3, a4, a5, a6⟩ := exAmounts
  refine ⟨by decide +kernel, by decide, ⟨s%"open", none, Or.inl ⟨by decide, by decide, rfl⟩⟩, by decide +kernel, ?_, by decide, ?_⟩
  · intro l hl
    simp only [exOpening, List.mem_cons, List.not_mem_nil, or_false] at hl
    rcases hl with rfl | rfl
    · refine exQLine _ _ (by decide) (by decide) (by decide) (by decide) (by decide +kernel) (by simp) ?_ (by decide) (by decide) ?_
      · intro q s h; cases h; exact ⟨by decide, by decide +kernel, a1⟩
      · intro c hc
        simp only [List.mem_cons, List.not_mem_nil, or_false] at hc
        subst hc; exact ⟨by decide +kernel, a1⟩
    · refine exQLine _ _ (by decide) (by decide) (by decide) (by decide) (by decide +kernel) (by simp) ?_ (by decide) (by decide) (by simp)
      intro q s h; cases h; exact ⟨by decide, by decide +kernel, a2⟩
  · rintro ⟨l, hl, hv⟩
    simp only [exOpening, List.mem_cons, List.not_mem_nil, or_false] at hl
    rcases hl with rfl | rfl <;> cases hv

theorem exBroker : ∃ desc payee, DescriptionOf (joinWith s%" " (splitWs s%"buy [Broker & Co]")) desc payee :=
  ⟨_, _, Or.inr ⟨s%"buy ", s%"Broker & Co", [], by decide +kernel, by decide, by decide, rfl, rfl⟩⟩

theorem exShares_ok : QLine.Ok [s%"shares", s%"fee", s%"bank"]
    ⟨⟨s%" ", s%"shares", s%" ", s%"5 XYZ", some (5, some s%"XYZ")⟩, [⟨s%"@", s%"3.5", (7 / 2, none)⟩]⟩ := by
  obtain ⟨a1, a2, a3, a4, a5, a6⟩ := exAmounts
  refine exQLine _ _ (by decide) (by decide) (by decide) (by decide) (by decide +kernel) (by simp) ?_ (by decide) (by decide) ?_
  · intro q s h; cases h; exact ⟨by decide, by decide +kernel, a3⟩
  · intro c hc
    simp only [List.mem_cons, List.not_mem_nil, or_false] at hc
    subst hc; exact ⟨by decide +kernel, a4⟩

theorem exBuying_ok : exBuying.Ok (stdEnv june15) s%"%Y/%m/%d" [s%"shares", s%"fee", s%"bank"] := by
  obtain ⟨a1, a2, a3, a4, a5, a6⟩ := exAmounts
  refine ⟨by decide +kernel, by decide, exBroker, by decide +kernel, ?_, by decide, ?_⟩
  · intro l hl
    simp only [exBuying, List.mem_cons, List.not_mem_nil, or_false] at hl
    rcases hl with rfl | rfl | rfl
    · exact exShares_ok
    · refine exQLine _ _ (by decide) (by decide) (by decide) (by decide) (by decide +kernel) (by simp) ?_ (by decide) (by decide) (by simp)
      intro q s h; cases h; exact ⟨by decide, by decide +kernel, a5⟩
    · refine exQLine _ _ (by decide) (by decide) (by decide) (by decide) (by decide +kernel) (by simp) (by simp) (by decide) (by decide) ?_
      intro c hc
      simp only [List.mem_cons, List.not_mem_nil, or_false] at hc
      subst hc; exact ⟨by decide +kernel, a6⟩
  · intro _
    exact ⟨by decide, Or.inr ⟨by decide +kernel, s%"XYZ", by decide⟩⟩

theorem exBarter_ok : exBarter.Ok (stdEnv june15) s%"%Y/%m/%d" [s%"shares", s%"fee", s%"bank"] := by
  refine ⟨by decide +kernel, by decide, exBroker, by decide +kernel, ?_, by decide, ?_⟩
  · intro l hl
    simp only [exBarter, List.mem_cons, List.not_mem_nil, or_false] at hl
    rcases hl with rfl | rfl
    · exact exShares_ok
    · exact exQLine _ _ (by decide) (by decide) (by decide) (by decide) (by decide +kernel) (by simp) (by simp) (by decide) (by decide) (by simp)
  · intro _
    exact ⟨by decide, Or.inl ⟨some s%"XYZ", by unfold QEntry.In; decide⟩⟩

/-- Shares bought with a fee, from a payee, with balances asserted (one of them wrong), and the bank left blank. -/
example : PricedJournal (stdEnv june15) [s%"shares", s%"fee", s%"bank"] [exOpening, exBuying] exBuyingText ∧
    (∀ e ∈ [exOpening, exBuying], ¬ e.PaidForInKind) ∧ (∀ k, PricedBefore k [exOpening, exBuying]) ∧
    (disk [("j", String.ofList exBuyingText)]).read s%"j" = some exBuyingText ∧
    ∃ out, (mainProgram Rat (stdEnv june15) exOutside [s%"balance", s%"-f", s%"j"]
      (disk [("j", String.ofList exBuyingText)])).2 = .ok out ∧
      readReport out = [(s%"bank", [s%" 81.5"]), (s%"fee", [s%"-99"]), (s%"shares", [s%" 5 XYZ"])] := by
  refine ⟨⟨by decide +kernel, by decide +kernel, ?_⟩, ?_, ?_, by decide +kernel, by decide +kernel⟩
  · intro e he
    simp only [List.mem_cons, List.not_mem_nil, or_false] at he
    rcases he with rfl | rfl
    · exact exOpening_ok
    · exact exBuying_ok
  · intro e he hp
    simp only [List.mem_cons, List.not_mem_nil, or_false] at he
    obtain ⟨_, ⟨s, hs⟩, _⟩ := hp
    rcases he with rfl | rfl
    · exact absurd (hs (100, none) (by decide)) (by simp)
    · exact absurd (hs (1, none) (by decide)) (by simp)
  · intro k e he hl
    simp only [List.mem_cons, List.not_mem_nil, or_false] at he
    rcases he with rfl | rfl
    · obtain ⟨l, hl, _, hv⟩ := hl
      simp only [exOpening, List.mem_cons, List.not_mem_nil, or_false] at hl
      rcases hl with rfl | rfl <;> cases hv
    · obtain ⟨l, hl, rfl, hv⟩ := hl
      simp only [exBuying, List.mem_cons, List.not_mem_nil, or_false] at hl
      rcases hl with rfl | rfl | rfl
      · cases hv
      · cases hv
      · exact ⟨exOpening, by simp, by decide, by decide⟩

/-- C126 is false of an entry in which all but the blank line are in one foreign currency: five shares bought at 3.5 each are
paid for with five shares. The bank, which should have 100 less 17.5, has 100 and owes five shares. -/
theorem C126_paid_for_in_kind :
    PricedJournal (stdEnv june15) [s%"shares", s%"fee", s%"bank"] [exOpening, exBarter] exBarterText ∧
    PricedBefore s%"bank" [exOpening, exBarter] ∧
    (exBarter.rest = (-35 / 2, none) ∧ pricedSum QEntry.rest s%"bank" none [exOpening, exBarter] = 165 / 2) ∧
    (disk [("j", String.ofList exBarterText)]).read s%"j" = some exBarterText ∧
    ∃ out, (mainProgram Rat (stdEnv june15) exOutside [s%"balance", s%"-f", s%"j"]
      (disk [("j", String.ofList exBarterText)])).2 = .ok out ∧
      readReport out = [(s%"bank", [s%" 100", s%"-5 XYZ"]), (s%"fee", [s%"-100"]), (s%"shares", [s%" 5 XYZ"])] := by
  have hrest : exBarter.rest = (-35 / 2, none) := by
    unfold QEntry.rest
    rw [if_pos (Or.inl ⟨_, List.mem_cons_self, by simp, Or.inl (by decide)⟩)]
    have : exBarter.lines.filterMap QLine.home = [35 / 2] := by decide +kernel
    rw [this]
    norm_num
  refine ⟨⟨by decide +kernel, by decide +kernel, ?_⟩, ?_, ⟨hrest, ?_⟩, by decide +kernel, by decide +kernel⟩
  · intro e he
    simp only [List.mem_cons, List.not_mem_nil, or_false] at he
    rcases he with rfl | rfl
    · exact exOpening_ok
    · exact exBarter_ok
  · unfold PricedBefore; decide
  · have h1 : exOpening.moves QEntry.rest s%"bank" = [(100, none)] := by
      unfold QEntry.moves
      simp [exOpening]
    have h2 : exBarter.moves QEntry.rest s%"bank" = [(-35 / 2, none)] := by
      unfold QEntry.moves
      rw [hrest]
      simp [exBarter]
    unfold pricedSum
    simp only [List.flatMap_cons, List.flatMap_nil, h1, h2]
    norm_num

end Silverfox
