import Verif.Proofs.Entries
import Verif.Props.Postings
import Verif.Props.Ledger
import Verif.Codec

/-
C18, C19, C77: reading and printing entries.
-/

namespace Silverfox

set_option linter.unusedSectionVars false

variable {M : Type} [Mag M]

/-! ### C18: the header -/

/-- Specification: nothing, or a comment. -/
def Remark (t : Str) : Prop := t = [] ∨ (∃ c, t = ';' :: c) ∨ ∃ c, t = ' ' :: '/' :: '/' :: c

theorem splitWs_rc_remark {b t : Str} (hb : NoComment b) (ht : Remark t) : splitWs (rc (b ++ t)) = splitWs b := by
  have hb := (noComment_iff b).1 hb
  rcases ht with rfl | ⟨c, rfl⟩ | ⟨c, rfl⟩
  · rw [List.append_nil, hb]
  · rw [rc_append hb (by simp), show rc (';' :: c) = [] by simp [rc, startsMark], List.append_nil]
  · rw [rc_append hb (by simp), rc_space_cons, show rc ('/' :: '/' :: c) = [] by simp [rc, startsMark],
      splitWs_ws_right b (b := [' ']) (allWs_replicate 1)]

/-- Specification: what the text after the status says. Without `[` it is the description. With `[`, the
payee is between the first `[` and the last `]`, the description is before. -/
def DescriptionOf (j desc : Str) (payee : Option Str) : Prop :=
  ('[' ∉ j ∧ desc = j ∧ payee = none) ∨
  ∃ x p y, j = x ++ '[' :: (p ++ ']' :: y) ∧ '[' ∉ x ∧ ']' ∉ y ∧ desc = trim x ∧ payee = some (trim p)

theorem parseDescription_iff (j desc : Str) (payee : Option Str) :
    parseDescription j = .ok (desc, payee) ↔ DescriptionOf j desc payee := by
  constructor
  · intro h
    by_cases ho : '[' ∈ j
    · by_cases hc : ']' ∈ j
      · obtain ⟨x, r, rfl, hx⟩ := split_first ho
        obtain ⟨q, y, e, hy⟩ := split_last hc
        rcases List.append_eq_append_iff.1 e with ⟨u, e1, e2⟩ | ⟨u, e1, e2⟩
        · cases u with
          | nil => simp at e2
          | cons v u =>
            simp only [List.cons_append, List.cons.injEq] at e2
            obtain ⟨rfl, rfl⟩ := e2
            rw [parseDescription_payee hx hy] at h
            cases h
            exact Or.inr ⟨x, u, y, rfl, hx, hy, rfl, rfl⟩
        · cases u with
          | nil => simp at e2
          | cons v u =>
            simp only [List.cons_append, List.cons.injEq] at e2
            obtain ⟨rfl, rfl⟩ := e2
            subst e1
            rw [show q ++ ']' :: u ++ '[' :: r = q ++ ']' :: (u ++ '[' :: r) by simp,
              parseDescription_crossed (by simpa using hx) (by simpa using hy)] at h
            cases h
      · rw [parseDescription_open ho hc] at h; cases h
    · rw [parseDescription_plain ho] at h; cases h; exact Or.inl ⟨ho, rfl, rfl⟩
  · rintro (⟨h, rfl, rfl⟩ | ⟨x, p, y, rfl, hx, hy, rfl, rfl⟩)
    · exact parseDescription_plain h
    · exact parseDescription_payee hx hy

/-- Specification: the header `b` says that the entry has these fields. -/
def HeaderSays (env : Env) (fmt b : Str) (e : Entry M) : Prop :=
  ∃ d st ts, splitWs b = d :: st :: ts ∧ env.parseDate d fmt = some e.date ∧
    (st = s%"?" ∧ e.status = .pending ∨ st = s%"~" ∧ e.status = .cleared ∨ st = s%"*" ∧ e.status = .reconciled) ∧
    DescriptionOf (joinWith s%" " ts) e.description e.payee ∧ e.comment = none

theorem Status.parse_iff (s : Str) (st : Status) : Status.parse s = .ok st ↔
    (s = s%"?" ∧ st = .pending ∨ s = s%"~" ∧ st = .cleared ∨ s = s%"*" ∧ st = .reconciled) := by
  unfold Status.parse
  split
  · rename_i h; subst h; simp; exact eq_comm
  split
  · rename_i h; subst h; simp; exact eq_comm
  split
  · rename_i h; subst h; simp; exact eq_comm
  · rename_i h1 h2 h3
    simp [h1, h2, h3, fail]

theorem parseHeader_iff (env : Env) (fmt h b : Str) (hh : splitWs (rc h) = splitWs b) (e : Entry M) :
    (∃ e0 : Entry M, Entry.parseHeader env h fmt = .ok e0 ∧ { e0 with postings := e.postings } = e) ↔
      HeaderSays env fmt b e := by
  unfold Entry.parseHeader HeaderSays
  rw [removeComments_eq_rc, hh]
  cases hb : splitWs b with
  | nil => simp [fail]
  | cons d r =>
    simp only
    cases hd : env.parseDate d fmt with
    | none =>
      constructor
      · rintro ⟨e0, h, _⟩; cases h
      · rintro ⟨d', st, ts, h1, h2, _⟩
        cases h1
        rw [hd] at h2; cases h2
    | some date =>
      simp only
      cases r with
      | nil =>
        constructor
        · rintro ⟨e0, h, _⟩; cases h
        · rintro ⟨d', st, ts, h1, _⟩; cases h1
      | cons st ts =>
        simp only [bind, Except.bind, pure, Except.pure]
        constructor
        · rintro ⟨e0, h, he⟩
          cases hs : Status.parse st with
          | error f => rw [hs] at h; cases h
          | ok s =>
            rw [hs] at h
            simp only at h
            cases hp : parseDescription (joinWith [' '] ts) with
            | error f => rw [hp] at h; cases h
            | ok q =>
              rw [hp] at h
              cases h
              rw [← he]
              exact ⟨d, st, ts, rfl, hd, (Status.parse_iff _ _).1 hs, (parseDescription_iff _ _ _).1 hp, rfl⟩
        · rintro ⟨d', st', ts', h1, h2, h3, h4, h5⟩
          cases h1
          rw [hd] at h2
          cases h2
          rw [(Status.parse_iff _ _).2 h3, show parseDescription (joinWith [' '] ts) = _ from
            (parseDescription_iff _ _ _).2 h4]
          refine ⟨_, rfl, ?_⟩
          cases e
          simp only at h5
          subst h5
          rfl

theorem inkLines_entry {h rest : Str} (hn : noNl h) (hb : ¬ allWs h) :
    inkLines (h ++ '\n' :: rest) = trim h :: inkLines rest := by
  rw [inkLines_nl, inkLines_line hn hb]; rfl

instance (s : Str) : Decidable (noNl s) := inferInstanceAs (Decidable ('\n' ∉ s))

theorem noNl_append {a b : Str} : noNl (a ++ b) ↔ noNl a ∧ noNl b := by
  unfold noNl; simp [not_or]

/-- C18. An entry is accepted exactly if its header says date, status, description and payee, the other
lines are postings, and the entry is valid; and then it has exactly these fields. -/
theorem C18_fields (env : Env) (fmt : Str) (dec : Char) (accs : List Str) (b t rest : Str)
    (hn : noNl (b ++ t)) (hb : NoComment b) (hne : splitWs b ≠ []) (ht : Remark t) (e : Entry M) :
    Entry.parse env (b ++ t ++ '\n' :: rest) fmt dec accs = .ok e ↔
      HeaderSays env fmt b e ∧ Entry.parsePostings dec accs (lines rest) = .ok e.postings ∧
      e.validate = .ok () := by
  have hnb : ¬ allWs (b ++ t) := fun h => hne (splitWs_eq_nil.2 (allWs_append.1 h).1)
  have hsp : splitWs (rc (trim (b ++ t))) = splitWs b := by
    rw [splitWs_rc_trim, splitWs_rc_remark hb ht]
  rw [Entry.parse_ink, inkLines_entry hn hnb]
  simp only
  rw [parsePostings_ink dec accs (lines rest), ink_lines, ← parseHeader_iff env fmt _ b hsp e]
  simp only [bind, Except.bind, pure, Except.pure]
  constructor
  · intro h
    cases h1 : Entry.parseHeader (M := M) env (trim (b ++ t)) fmt with
    | error f => rw [h1] at h; cases h
    | ok e0 =>
      rw [h1] at h
      simp only at h
      cases h2 : Entry.parsePostings (M := M) dec accs (inkLines rest) with
      | error f => rw [h2] at h; cases h
      | ok ps =>
        rw [h2] at h
        simp only at h
        cases h3 : Entry.validate { e0 with postings := ps } with
        | error f => rw [h3] at h; cases h
        | ok u =>
          rw [h3] at h
          simp only at h
          cases h
          exact ⟨⟨e0, rfl, rfl⟩, rfl, h3⟩
  · rintro ⟨⟨e0, h1, h2⟩, h3, h4⟩
    rw [h1, h3]
    simp only
    rw [h2, h4]

/-- C18. The header alone. -/
theorem C18_header (env : Env) (fmt b t : Str) (hb : NoComment b) (ht : Remark t) (e : Entry M)
    (he : e.postings = []) : Entry.parseHeader env (b ++ t) fmt = .ok e ↔ HeaderSays env fmt b e := by
  rw [← parseHeader_iff env fmt (b ++ t) b (splitWs_rc_remark hb ht) e]
  constructor
  · intro h; exact ⟨e, h, rfl⟩
  · rintro ⟨e0, h, he0⟩
    have : e0.postings = [] := by
      unfold Entry.parseHeader at h
      split at h
      · cases h
      · split at h
        · cases h
        · split at h
          · cases h
          · simp only [bind, Except.bind, pure, Except.pure] at h
            split at h
            · cases h
            · split at h
              · cases h
              · cases h; rfl
    rw [h, ← he0, he, ← this]

/-- What an entry does when its header fails. -/
theorem Entry.parse_header_error {env : Env} {fmt : Str} {dec : Char} {accs : List Str} {h rest : Str}
    (hn : noNl h) (hb : ¬ allWs h) {f : Fail} (hf : (Entry.parseHeader env h fmt : Res (Entry M)) = .error f) :
    (Entry.parse env (h ++ '\n' :: rest) fmt dec accs : Res (Entry M)) = .error f := by
  rw [Entry.parse_ink, inkLines_entry hn hb]
  simp only
  rw [parseHeader_trim, hf]
  rfl

/-- C18. An entry whose header has a valid date but no valid status is refused. -/
theorem C18_status_refused (env : Env) (fmt : Str) (dec : Char) (accs : List Str) (b t rest : Str)
    (hn : noNl (b ++ t)) (hb : NoComment b) (ht : Remark t) (d st : Str) (ts : List Str)
    (hw : splitWs b = d :: st :: ts) (hs : st ∉ [s%"?", s%"~", s%"*"]) :
    (Entry.parse env (b ++ t ++ '\n' :: rest) fmt dec accs : Res (Entry M)) = fail .parse := by
  have hnb : ¬ allWs (b ++ t) := fun h => by
    have := splitWs_eq_nil.2 (allWs_append.1 h).1
    rw [hw] at this; cases this
  apply Entry.parse_header_error hn hnb
  unfold Entry.parseHeader
  rw [removeComments_eq_rc, splitWs_rc_remark hb ht, hw]
  simp only
  cases env.parseDate d fmt with
  | none => rfl
  | some date =>
    simp at hs
    simp [Status.parse, hs, bind, Except.bind, fail]

/-- C18. An entry whose header does not begin with a date in the journal's format is refused. -/
theorem C18_date_refused (env : Env) (fmt : Str) (dec : Char) (accs : List Str) (b t rest : Str)
    (hn : noNl (b ++ t)) (hb : NoComment b) (ht : Remark t) (d : Str) (ts : List Str)
    (hw : splitWs b = d :: ts) (hd : env.parseDate d fmt = none) :
    (Entry.parse env (b ++ t ++ '\n' :: rest) fmt dec accs : Res (Entry M)) = fail .parse := by
  have hnb : ¬ allWs (b ++ t) := fun h => by
    have := splitWs_eq_nil.2 (allWs_append.1 h).1
    rw [hw] at this; cases this
  apply Entry.parse_header_error hn hnb
  unfold Entry.parseHeader
  rw [removeComments_eq_rc, splitWs_rc_remark hb ht, hw]
  simp only
  rw [hd]
  rfl

/-- C18. A payee that is not closed is refused. -/
theorem C18_payee_open (env : Env) (fmt : Str) (dec : Char) (accs : List Str) (b t rest : Str)
    (hn : noNl (b ++ t)) (hb : NoComment b) (ht : Remark t) (d st : Str) (ts : List Str)
    (hw : splitWs b = d :: st :: ts) (ho : '[' ∈ joinWith s%" " ts) (hc : ']' ∉ joinWith s%" " ts) :
    (Entry.parse env (b ++ t ++ '\n' :: rest) fmt dec accs : Res (Entry M)) = fail .parse := by
  have hnb : ¬ allWs (b ++ t) := fun h => by
    have := splitWs_eq_nil.2 (allWs_append.1 h).1
    rw [hw] at this; cases this
  apply Entry.parse_header_error hn hnb
  unfold Entry.parseHeader
  rw [removeComments_eq_rc, splitWs_rc_remark hb ht, hw]
  simp only
  cases env.parseDate d fmt with
  | none => rfl
  | some date =>
    simp only [bind, Except.bind, Status.parse]
    rw [show parseDescription (joinWith [' '] ts) = fail .parse from parseDescription_open ho hc]
    split
    · rename_i h
      split at h
      · cases h
      split at h
      · cases h
      split at h
      · cases h
      · cases h; rfl
    · rfl

/-- C18, found false: a header that is only a date does not give an error, it aborts the program. -/
theorem C18_only_date_aborts (env : Env) (fmt : Str) (dec : Char) (accs : List Str) (b t rest : Str)
    (hn : noNl (b ++ t)) (hb : NoComment b) (ht : Remark t) (d : Str) (date : Date)
    (hw : splitWs b = [d]) (hd : env.parseDate d fmt = some date) :
    (Entry.parse env (b ++ t ++ '\n' :: rest) fmt dec accs : Res (Entry M)) = panicked := by
  have hnb : ¬ allWs (b ++ t) := fun h => by
    have := splitWs_eq_nil.2 (allWs_append.1 h).1
    rw [hw] at this; cases this
  apply Entry.parse_header_error hn hnb
  unfold Entry.parseHeader
  rw [removeComments_eq_rc, splitWs_rc_remark hb ht, hw]
  simp only
  rw [hd]
  rfl

/-- C18, found false: so does a header whose last `]` is before its first `[`. -/
theorem C18_crossed_aborts (env : Env) (fmt : Str) (dec : Char) (accs : List Str) (b t rest : Str)
    (hn : noNl (b ++ t)) (hb : NoComment b) (ht : Remark t) (d st : Str) (ts : List Str) (date : Date)
    (hw : splitWs b = d :: st :: ts) (hd : env.parseDate d fmt = some date) (hs : st ∈ [s%"?", s%"~", s%"*"])
    (x m y : Str) (hj : joinWith s%" " ts = x ++ ']' :: (m ++ '[' :: y)) (h1 : '[' ∉ x ++ m) (h2 : ']' ∉ m ++ y) :
    (Entry.parse env (b ++ t ++ '\n' :: rest) fmt dec accs : Res (Entry M)) = panicked := by
  have hnb : ¬ allWs (b ++ t) := fun h => by
    have := splitWs_eq_nil.2 (allWs_append.1 h).1
    rw [hw] at this; cases this
  apply Entry.parse_header_error hn hnb
  unfold Entry.parseHeader
  rw [removeComments_eq_rc, splitWs_rc_remark hb ht, hw]
  simp only
  rw [hd]
  simp only [bind, Except.bind]
  have hst : ∃ s, Status.parse st = .ok s := by
    simp at hs
    rcases hs with rfl | rfl | rfl <;> exact ⟨_, rfl⟩
  obtain ⟨s, hst⟩ := hst
  rw [hst, show joinWith [' '] ts = _ from hj, parseDescription_crossed (by simp at h1 ⊢; exact h1) (by simp at h2 ⊢; exact h2)]
  rfl

/-- A day for examples. -/
def exDay : Date := ⟨2024, 1, 5, by decide⟩

/-- C18: a header with everything. -/
example : Entry.parse (stdEnv exDay) s%"2024/01/05 ~ Weekly  shop [Corner store] // cash\n  a 5\n  b\n" s%"%Y/%m/%d" '.'
    [s%"a", s%"b"] = .ok (⟨exDay, .cleared, s%"Weekly shop", some s%"Corner store", none,
      [.classic ⟨s%"a", some ⟨5, none⟩, none, none⟩, .classic ⟨s%"b", none, none, none⟩]⟩ : Entry Rat) := by
  decide +kernel

/-- The conditions of C18 can be met, and the aborts happen. -/
theorem C18_aborts_example :
    (Entry.parse (stdEnv exDay) s%"2024/01/05 ; no status\n" s%"%Y/%m/%d" '.' [] : Res (Entry Rat)) = panicked ∧
    (Entry.parse (stdEnv exDay) s%"2024/01/05 ? a] [b\n" s%"%Y/%m/%d" '.' [] : Res (Entry Rat)) = panicked ∧
    (Entry.parse (stdEnv exDay) s%"2024/01/05 ! a\n" s%"%Y/%m/%d" '.' [] : Res (Entry Rat)) = fail .parse ∧
    NoComment s%"2024/01/05 " ∧ Remark s%"; no status" :=
  ⟨by decide +kernel, by decide +kernel, by decide +kernel, by decide, Or.inr (Or.inl ⟨_, rfl⟩)⟩

/-! ### C77: layout -/

/-- C77. Two entries with the same lines up to indentation, spaces at the end of lines, blank lines and the
kind of line end read the same. -/
theorem C77_layout (env : Env) (fmt : Str) (dec : Char) (accs : List Str) (a b : Str)
    (h : ((lines a).map trim).filter (fun l => !l.isEmpty) = ((lines b).map trim).filter (fun l => !l.isEmpty)) :
    (Entry.parse env a fmt dec accs : Res (Entry M)) = Entry.parse env b fmt dec accs := by
  have h' : inkLines a = inkLines b := by rw [← ink_lines, ← ink_lines]; exact h
  rw [Entry.parse_ink, Entry.parse_ink, h']

/-- C77: other indentation, Windows line ends, a blank line. -/
example : ((lines s%"2024/01/05 ? x\n  a 5\n  b\n").map trim).filter (fun l => !l.isEmpty) =
    ((lines s%"2024/01/05 ? x  \r\n\ta 5\r\n \r\n      b").map trim).filter (fun l => !l.isEmpty) := by decide +kernel

/-! ### C19: printing and reading -/

/-- What an entry read back from its text becomes. -/
def Entry.rounded (e : Entry M) : Entry M :=
  { e with comment := none, postings := e.postings.map Posting.rounded }

/-- An entry whose text says what it is. -/
structure Entry.Writable (env : Env) (fmt d : Str) (e : Entry M) : Prop where
  date : env.fmtDate e.date fmt = some d
  dateWord : Name d
  dateBack : env.parseDate d fmt = some e.date
  desc : Phrase e.description ∧ NoComment e.description ∧ '[' ∉ e.description
  payee : ∀ p, e.payee = some p → Phrase p ∧ NoComment p
  comment : ∀ c, e.comment = some c → noNl c
  postings : ∀ p ∈ e.postings, p.Writable

instance (s : Str) : Decidable (isWord s) := inferInstanceAs (Decidable (_ ∧ _))

theorem word_noNl {s : Str} (h : isWord s) : noNl s := fun hm => by
  have := h.2 _ hm
  rw [isWs_nl] at this; cases this

theorem Printable.noNl {a : Amount M} (h : Printable a) : noNl a.display := by
  obtain ⟨⟨⟨neg, d, k, hn⟩, _⟩, hs⟩ := h
  have hm : Silverfox.noNl (magText a.mag) := by
    have h1 : Silverfox.noNl (Mag.fmt (round8 a.mag)) := word_noNl ⟨hn.chars.1, hn.noWs⟩
    unfold magText
    split
    · exact h1
    · exact fun hm => by
        rcases List.mem_cons.1 hm with e | hm
        · exact absurd e (by decide)
        · exact h1 hm
  unfold Amount.display
  cases hy : a.sym with
  | none => exact hm
  | some s =>
    have hs := word_noNl (hs s hy).1.word
    simp only
    split
    · exact noNl_append.2 ⟨hs, hm⟩
    · refine noNl_append.2 ⟨hm, fun hmem => ?_⟩
      rcases List.mem_cons.1 hmem with e | hmem
      · exact absurd e (by decide)
      · exact hs hmem

theorem noNl_cons {c : Char} {s : Str} (hc : c ≠ '\n') (h : noNl s) : noNl (c :: s) := by
  unfold noNl at *
  simp only [List.mem_cons, not_or]
  exact ⟨fun e => hc e.symm, h⟩

theorem noNl_nil : noNl [] := by simp [noNl]

theorem padRight_noNl {n : Nat} {s : Str} (h : noNl s) : noNl (padRight n s) := by
  unfold padRight
  refine noNl_append.2 ⟨h, fun hm => ?_⟩
  have := (List.mem_replicate.1 hm).2
  exact absurd this (by decide)

theorem Posting.display_noNl (p : Posting M) (h : p.Writable) : noNl p.display := by
  cases p with
  | envelope e =>
    obtain ⟨h1, h2, h3⟩ := h
    show noNl (padRight 50 (s%"envelope " ++ e.account ++ ' ' :: e.envelope) ++ ' ' :: e.amount.display)
    refine noNl_append.2 ⟨padRight_noNl (noNl_append.2 ⟨noNl_append.2 ⟨by decide, word_noNl h1.1⟩,
      noNl_cons (by decide) (word_noNl h2.1)⟩), noNl_cons (by decide) h3.noNl⟩
  | classic c =>
    obtain ⟨h1, _, h3, h4, h5⟩ := h
    show noNl (Classic.display c)
    unfold Classic.display
    refine noNl_append.2 ⟨padRight_noNl (word_noNl h1.1), noNl_cons (by decide)
      (noNl_append.2 ⟨noNl_append.2 ⟨?_, ?_⟩, ?_⟩)⟩
    · cases hc : c.amount with
      | none => exact noNl_nil
      | some a => exact (h3 a hc).noNl
    · cases hc : c.cost with
      | none => exact noNl_nil
      | some y =>
        have := (h4 y hc).noNl
        cases y with
        | total a => exact noNl_cons (by decide) (noNl_append.2 ⟨by decide, this⟩)
        | unit a => exact noNl_cons (by decide) (noNl_append.2 ⟨by decide, this⟩)
    · cases hc : c.balance with
      | none => exact noNl_nil
      | some a => exact noNl_append.2 ⟨by decide, (h5 a hc).noNl⟩

theorem validateLoop_rounded (ps : List (Posting M)) : ∀ n syms,
    validateLoop (ps.map Posting.rounded) n syms = validateLoop ps n syms := by
  induction ps with
  | nil => intro n syms; rfl
  | cons p ps ih =>
    intro n syms
    have hp : p.rounded.amount = p.amount.map Amount.rounded := by cases p <;> rfl
    rw [List.map_cons, validateLoop, validateLoop, hp]
    cases ha : p.amount with
    | none => simp only [Option.map_none]; rw [ih]
    | some a =>
      simp only [Option.map_some, Amount.rounded]
      cases a.sym with
      | none => simp only; rw [ih]
      | some s => simp only; rw [ih]

/-- Rounding the amounts of an entry does not make it invalid. -/
theorem Entry.validate_rounded (e : Entry M) : e.rounded.validate = e.validate := by
  unfold Entry.validate Entry.rounded
  simp only
  rw [validateLoop_rounded]

theorem Posting.display_ink (p : Posting M) (h : p.Writable) : ¬ allWs p.display := by
  intro ha
  cases p with
  | envelope e =>
    have : allWs (padRight 50 (s%"envelope " ++ e.account ++ ' ' :: e.envelope) ++ ' ' :: e.amount.display) := ha
    have h1 := this 'e' (by simp [padRight])
    exact absurd h1 (by decide)
  | classic c =>
    have : allWs (Classic.display c) := ha
    unfold Classic.display at this
    obtain ⟨d, r, e⟩ := List.exists_cons_of_ne_nil h.1.1.1
    have h1 := this d (by simp [padRight, e])
    have h2 := h.1.1.2 d (by rw [e]; simp)
    rw [h2] at h1; cases h1

theorem inkLines_postings (ps : List (Posting M)) (h : ∀ p ∈ ps, p.Writable) :
    inkLines (ps.map fun p => s%"    " ++ p.display ++ ['\n']).flatten = ps.map fun p => trim (s%"    " ++ p.display) := by
  induction ps with
  | nil => rfl
  | cons p ps ih =>
    have hp := h p (by simp)
    simp only [List.map_cons, List.flatten_cons]
    rw [show ∀ a b : Str, a ++ ['\n'] ++ b = a ++ '\n' :: b from fun a b => by simp, inkLines_entry, ih fun q hq => h q (by simp [hq])]
    · exact noNl_append.2 ⟨by decide, Posting.display_noNl p hp⟩
    · intro ha; exact Posting.display_ink p hp (allWs_append.1 ha).2

theorem parsePostings_written (ps : List (Posting M)) (h : ∀ p ∈ ps, p.Writable) (accs : List Str)
    (hacc : ∀ p ∈ ps, p.isEnvelope = false → p.account ∈ accs) :
    Entry.parsePostings '.' accs (ps.map fun p => trim (s%"    " ++ p.display)) = .ok (ps.map Posting.rounded) := by
  induction ps with
  | nil => rfl
  | cons p ps ih =>
    have hp := h p (by simp)
    have he : (trim (s%"    " ++ p.display)).isEmpty = false := by
      cases hh : (trim (s%"    " ++ p.display)).isEmpty with
      | false => rfl
      | true =>
        exact absurd (allWs_append.1 (trim_eq_nil.1 (List.isEmpty_iff.1 hh))).2 (Posting.display_ink p hp)
    simp only [List.map_cons, Entry.parsePostings, trim_trim, he, Bool.false_eq_true, if_false]
    rw [Posting.parse_trim, C11_round_trip p hp accs (hacc p (by simp)) s%"    " (allWs_replicate 4),
      ih (fun q hq => h q (by simp [hq])) fun q hq => hacc q (by simp [hq])]
    rfl

theorem status_word (s : Status) : isWord [s.toChar] ∧ rc [s.toChar] = [s.toChar] ∧
    Status.parse [s.toChar] = .ok s := by cases s <;> exact ⟨⟨by decide, by decide⟩, by decide, by decide⟩

/-- The text of a payee. -/
def payText : Option Str → Str
  | some p => s%" [" ++ p ++ s%"]"
  | none => []

/-- The words of the description and the payee as written, and what is read from them. -/
theorem description_written {desc : Str} {payee : Option Str} (hd : Phrase desc) (hb : '[' ∉ desc)
    (hp : ∀ p, payee = some p → Phrase p) :
    parseDescription (joinWith s%" " (splitWs (desc ++ payText payee))) =
      .ok (desc, payee) := by
  cases payee with
  | none =>
    simp only [payText, List.append_nil]
    rw [hd.join, parseDescription_plain hb]
  | some p =>
    obtain ⟨P, hP, rfl⟩ := hp p rfl
    obtain ⟨Q, hQ, hQw, hQe⟩ := bracket_words hP
    obtain ⟨D, hD, rfl⟩ := hd
    have hpt : trim (joinWith s%" " P) = joinWith s%" " P := Phrase.trim ⟨P, hP, rfl⟩
    have hdt : trim (joinWith s%" " D) = joinWith s%" " D := Phrase.trim ⟨D, hD, rfl⟩
    simp only [payText]
    have e1 : splitWs (joinWith s%" " D ++ (s%" [" ++ joinWith s%" " P ++ s%"]")) = D ++ Q := by
      rw [show joinWith s%" " D ++ (s%" [" ++ joinWith s%" " P ++ s%"]") =
        joinWith s%" " D ++ ' ' :: ('[' :: (joinWith s%" " P ++ s%"]")) by simp, ← hQe,
        splitWs_append_ws _ isWs_space, splitWs_join D hD, splitWs_join Q hQw]
    rw [e1]
    cases hDe : D with
    | nil =>
      rw [List.nil_append, hQe]
      have := parseDescription_payee (x := []) (p := joinWith s%" " P) (y := []) (by simp) (by simp)
      rw [List.nil_append] at this
      rw [this, hpt]
      rfl
    | cons w D' =>
      rw [← hDe, joinWith_append (by rw [hDe]; simp) hQ, hQe]
      have := parseDescription_payee (x := joinWith s%" " D ++ [' ']) (p := joinWith s%" " P) (y := [])
        (by simp only [List.mem_append, not_or]; exact ⟨hb, by decide⟩) (by simp)
      rw [trim_ws_right _ (b := [' ']) (allWs_replicate 1), hpt, hdt] at this
      rw [← this]
      simp

/-- The text of the postings of an entry. -/
def postingsText (e : Entry M) : Str := (e.postings.map fun p => s%"    " ++ p.display ++ ['\n']).flatten

/-- The text written for an entry: a header, a remark, postings. -/
theorem Entry.written {env : Env} {fmt d : Str} {e : Entry M} (h : e.Writable env fmt d) :
    ∃ body com, e.asParsable env fmt = .ok (body ++ com ++ '\n' :: postingsText e) ∧ noNl (body ++ com) ∧
      NoComment body ∧ Remark com ∧ HeaderSays env fmt body e.rounded ∧ (∃ x, body = d ++ ' ' :: x) ∧
      ∃ ts, splitWs body = d :: ts := by
  obtain ⟨hdate, hdw, hback, ⟨hph, hdc, hbr⟩, hpay, hcom, hps⟩ := h
  obtain ⟨hsw, hsc, hsp⟩ := status_word e.status
  let pay : Str := payText e.payee
  let com : Str := match e.comment with | some c => s%" // " ++ c | none => []
  let body : Str := d ++ ' ' :: ([e.status.toChar] ++ ' ' :: (e.description ++ pay))
  have hpn : noNl pay := by
    cases hp : e.payee with
    | none => simp only [pay, payText, hp]; exact noNl_nil
    | some p =>
      simp only [pay, payText, hp]
      exact noNl_append.2 ⟨noNl_append.2 ⟨by decide, (hpay p hp).1.noNl⟩, by decide⟩
  have hcn : noNl com := by
    cases hc : e.comment with
    | none => simp only [com, hc]; exact noNl_nil
    | some c => simp only [com, hc]; exact noNl_append.2 ⟨by decide, hcom c hc⟩
  have hbn : noNl (body ++ com) := by
    refine noNl_append.2 ⟨noNl_append.2 ⟨word_noNl hdw.1, noNl_cons (by decide) (noNl_append.2 ⟨word_noNl hsw,
      noNl_cons (by decide) (noNl_append.2 ⟨hph.noNl, hpn⟩)⟩)⟩, hcn⟩
  have hpr : rc pay = pay := by
    cases hp : e.payee with
    | none => simp only [pay, payText, hp]; rfl
    | some p =>
      simp only [pay, payText, hp]
      have := (noComment_iff p).1 (hpay p hp).2
      rw [show s%" [" ++ p ++ s%"]" = ' ' :: ([] ++ '[' :: (p ++ ']' :: [])) by simp, rc_space_cons,
        rc_append_cons (a := []) rfl (by decide) (by decide), rc_append_cons this (by decide) (by decide)]
      rfl
  have hph2 : pay.head? ≠ some '/' := by
    cases hp : e.payee <;> simp [pay, payText, hp]
  have hbr2 : rc body = body := by
    show rc (d ++ ' ' :: ([e.status.toChar] ++ ' ' :: (e.description ++ pay))) = _
    rw [rc_space ((noComment_iff d).1 hdw.2), rc_space hsc, rc_append ((noComment_iff _).1 hdc) hph2, hpr]
  have hrem : Remark com := by
    cases hc : e.comment with
    | none => simp only [com, hc]; exact Or.inl rfl
    | some c => simp only [com, hc]; exact Or.inr (Or.inr ⟨' ' :: c, rfl⟩)
  have hbw : splitWs body = d :: [e.status.toChar] :: splitWs (e.description ++ pay) := by
    show splitWs (d ++ ' ' :: ([e.status.toChar] ++ ' ' :: (e.description ++ pay))) = _
    rw [splitWs_append_ws _ isWs_space, splitWs_append_ws _ isWs_space, splitWs_word hdw.1, splitWs_word hsw]
    rfl
  refine ⟨body, com, ?_, hbn, (noComment_iff _).2 hbr2, hrem,
    ⟨d, _, _, hbw, hback, (Status.parse_iff _ _).1 hsp, (parseDescription_iff _ _ _).1 ?_, rfl⟩, ⟨_, rfl⟩, _, hbw⟩
  · unfold Entry.asParsable
    rw [hdate]
    simp only [unwrap, bind, Except.bind, pure, Except.pure, body, com, pay, postingsText]
    congr 1
    simp only [List.append_assoc, List.cons_append, List.nil_append, payText]
    cases e.payee <;> cases e.comment <;> rfl
  · exact description_written hph hbr fun p hp => (hpay p hp).1

/-- C19. The text written for an entry reads back as the entry, with magnitudes rounded to 8 decimals and
without the comment. -/
theorem C19_round_trip (env : Env) (fmt d : Str) (e : Entry M) (h : e.Writable env fmt d) (hv : e.validate = .ok ())
    (accs : List Str) (hacc : ∀ p ∈ e.postings, p.isEnvelope = false → p.account ∈ accs) :
    ∃ text, e.asParsable env fmt = .ok text ∧ Entry.parse env text fmt '.' accs = .ok e.rounded := by
  obtain ⟨body, com, ht, hn, hc, hr, hs, _, ts, hw⟩ := Entry.written h
  refine ⟨_, ht, ?_⟩
  rw [C18_fields env fmt '.' accs body com _ hn hc (by rw [hw]; simp) hr]
  refine ⟨hs, ?_, by rw [Entry.validate_rounded, hv]⟩
  rw [parsePostings_ink, ink_lines, postingsText, inkLines_postings _ h.postings]
  exact parsePostings_written _ h.postings accs hacc

/-- C19: an entry that meets the conditions. -/
def exShop : Entry Rat :=
  ⟨exDay, .cleared, s%"Weekly shop", some s%"Corner store", some s%"paid // cash",
    [.classic ⟨s%"expenses:food", some ⟨5, some s%"$"⟩, none, none⟩, .classic ⟨s%"assets:cash", none, none, none⟩,
     .envelope ⟨s%"assets:cash", s%"food", ⟨-5, some s%"$"⟩⟩]⟩

example : exShop.Writable (stdEnv exDay) s%"%Y/%m/%d" s%"2024/01/05" where
  date := by decide +kernel
  dateWord := ⟨⟨by decide, by decide⟩, by decide⟩
  dateBack := by decide +kernel
  desc := ⟨⟨[s%"Weekly", s%"shop"], by decide, rfl⟩, by decide, by decide⟩
  payee := by rintro p ⟨⟩; exact ⟨⟨[s%"Corner", s%"store"], by decide, rfl⟩, by decide⟩
  comment := by rintro c ⟨⟩; decide
  postings := by
    intro p hp
    simp only [exShop, List.mem_cons, List.not_mem_nil, or_false] at hp
    rcases hp with rfl | rfl | rfl
    · refine ⟨⟨⟨by decide, by decide⟩, by decide⟩, by decide, ?_, by simp, by simp⟩
      rintro a ⟨⟩
      exact C11_printable_exact _ (by rintro s ⟨⟩; decide)
    · exact ⟨⟨⟨by decide, by decide⟩, by decide⟩, by decide, by simp, by simp, by simp⟩
    · exact ⟨⟨⟨by decide, by decide⟩, by decide⟩, ⟨⟨by decide, by decide⟩, by decide⟩,
        C11_printable_exact _ (by rintro s ⟨⟩; decide)⟩

example : exShop.validate = .ok () := by decide +kernel

/-- Write an entry and read it back. -/
def writeRead (e : Entry Rat) : Res (Str × Option Str) := do
  let t ← e.asParsable (stdEnv exDay) s%"%Y/%m/%d"
  let e' : Entry Rat ← Entry.parse (stdEnv exDay) t s%"%Y/%m/%d" '.' [s%"expenses:food", s%"assets:cash"]
  pure (e'.description, e'.payee)

/-- C19 needs its conditions. A `//` in the description cuts it off together with the payee; a line break in
the comment makes the text unreadable; a `[` in the description moves the payee. -/
theorem C19_conditions :
    writeRead exShop = .ok (s%"Weekly shop", some s%"Corner store") ∧
    writeRead { exShop with description := s%"a//b" } = .ok (s%"a", none) ∧
    writeRead { exShop with comment := some s%"a\nb" } = fail .validation ∧
    writeRead { exShop with description := s%"a [b" } = .ok (s%"a", some s%"b [Corner store") := by
  decide +kernel

end Silverfox
