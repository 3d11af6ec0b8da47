import Verif.Props.Rearrange
import Verif.Props.BalanceText
import Verif.Props.Commands
import Verif.Props.Semantics
import Verif.Props.Reload
import Verif.Props.Files

/-
C116: from the text of a journal to the text of its balance report.
-/

namespace Silverfox

set_option linter.unusedSectionVars false

/-! ### Specification -/

/-- Specification: the text `t` is an amount, `q` in the currency `s`: a decimal numeral, perhaps with a currency
symbol before or behind it, close or after a space. -/
def WrittenAmount (t : Str) (q : Rat) (s : Option Str) : Prop :=
  ∃ w neg d k, IsNumeral w neg d k ∧ q = (if neg then -1 else 1) * ((d : Rat) / 10 ^ k) ∧
    ((s = none ∧ t = w) ∨
      ∃ sym, s = some sym ∧ ValidSymbol '.' sym ∧ t ∈ [sym ++ w, w ++ sym, sym ++ s%" " ++ w, w ++ s%" " ++ sym])

/-- A line of an entry, and what it means: an amount, or nothing if left blank. -/
structure PLine where
  indent : Str
  account : Str
  gap : Str
  amount : Str
  value : Option (Rat × Option Str)

def PLine.text (l : PLine) : Str := l.indent ++ l.account ++ l.gap ++ l.amount

/-- Specification: the line is written well. -/
structure PLine.Ok (accs : List Str) (l : PLine) : Prop where
  indent : allWs l.indent ∧ l.indent ≠ []
  word : isWord l.account
  notEnvelope : l.account ≠ s%"envelope"
  declared : l.account ∈ accs
  gap : allWs l.gap
  plain : NoComment l.text ∧ noNl l.text
  blank : l.value = none → l.amount = []
  given : ∀ q s, l.value = some (q, s) → l.gap ≠ [] ∧ NoOps l.amount ∧ WrittenAmount l.amount q s

/-- An entry as written. -/
structure PEntry where
  date : Str
  mark : Str
  title : Str
  day : Date
  lines : List PLine

def PEntry.header (e : PEntry) : Str := e.date ++ s%" " ++ e.mark ++ s%" " ++ e.title

/-- The amounts given in an entry. -/
def PEntry.given (e : PEntry) : List (Rat × Option Str) := e.lines.filterMap PLine.value

/-- Specification: the entry is written well: a date, a mark, a description; lines, at most one of them blank, and if
one is, then the others (at least one) are in one currency. -/
structure PEntry.Ok (env : Env) (accs : List Str) (e : PEntry) : Prop where
  date : isWord e.date ∧ e.date ∉ keywords ∧ env.parseDate e.date s%"%Y/%m/%d" = some e.day
  mark : e.mark ∈ [s%"?", s%"~", s%"*"]
  title : '[' ∉ e.title
  plain : NoComment e.header ∧ noNl e.header
  lines : ∀ l ∈ e.lines, l.Ok accs
  blanks : (e.lines.filter fun l => l.value.isNone).length ≤ 1
  oneCurrency : (∃ l ∈ e.lines, l.value = none) →
    e.given ≠ [] ∧ ∃ s, ∀ v ∈ e.given, v.2 = s

/-- The lines that are not blank. -/
def inked (ls : List Str) : List Str := ls.filter fun l => !l.all isWs

/-- Specification: a text that declares accounts, then has entries; there may be blank lines anywhere. -/
structure WrittenJournal (env : Env) (accs : List Str) (es : List PEntry) (text : Str) : Prop where
  text : inked (lines text) = accs.map (s%"account " ++ ·) ++ es.flatMap fun e => e.header :: e.lines.map PLine.text
  accounts : ∀ k ∈ accs, isWord k ∧ NoComment (s%"account " ++ k)
  entries : ∀ e ∈ es, e.Ok env accs

/-- Specification: what the blank line of an entry is worth. -/
def PEntry.rest (e : PEntry) : Option (Rat × Option Str) :=
  match e.given with
  | [] => none
  | v :: vs => some (-((v :: vs).map Prod.fst).sum, v.2)

/-- Specification: what a line is worth. -/
def PEntry.worth (e : PEntry) (l : PLine) : Option (Rat × Option Str) :=
  match l.value with
  | some v => some v
  | none => e.rest

/-- Specification: what an entry brings to an account. -/
def PEntry.moves (k : Str) (e : PEntry) : List (Rat × Option Str) :=
  e.lines.filterMap fun l => if l.account = k then e.worth l else none

/-- Specification: what all the entries bring to an account in a currency. -/
def writtenSum (k : Str) (s : Option Str) (es : List PEntry) : Rat :=
  ((es.flatMap (PEntry.moves k)).map fun v => if v.2 = s then v.1 else 0).sum

/-- Specification: where the account is left blank, it occurs on an earlier day. -/
def SeenBefore (k : Str) (es : List PEntry) : Prop :=
  ∀ e ∈ es, (∃ l ∈ e.lines, l.account = k ∧ l.value = none) →
    ∃ e' ∈ es, Date.lt e'.day e.day = true ∧ ∃ l ∈ e'.lines, l.account = k

/-! ### Amounts and lines -/

/-- Numerals are read. -/
class ReadsNumerals (M : Type) [Mag M] : Prop where
  reads : ∀ w neg d k, IsNumeral w neg d k → ∃ m : M, Mag.parse w = some m

instance readsNumerals_rat : ReadsNumerals Rat := ⟨fun w neg d k h => by
  show ∃ m, ratParse w = some m
  unfold ratParse
  rw [(parseNumeral_iff _ _ _ _).2 h]
  exact ⟨_, rfl⟩⟩

instance readsNumerals_f64 : ReadsNumerals F64 := ⟨fun w neg d k h => by
  show ∃ m, F64.parse w = some m
  unfold F64.parse
  rw [(parseNumeral_iff _ _ _ _).2 h]
  exact ⟨_, rfl⟩⟩

variable {M : Type} [Mag M]

theorem WrittenAmount.words {t : Str} {q : Rat} {s : Option Str} (h : WrittenAmount t q s) :
    splitWs t ≠ [] ∧ joinWith [' '] (splitWs t) = t := by
  obtain ⟨w, neg, d, k, h1, _, h3⟩ := h
  have hw : isWord w := ⟨h1.chars.1, h1.noWs⟩
  rcases h3 with ⟨_, rfl⟩ | ⟨sym, _, hv, ht⟩
  · rw [splitWs_word hw]; exact ⟨by simp, rfl⟩
  · have hs : isWord sym := ⟨hv.1, fun c hc => (hv.2 c hc).1⟩
    have hcat : ∀ a b : Str, isWord a → isWord b → isWord (a ++ b) := fun a b ha hb =>
      ⟨by simp [ha.1], fun c hc => (List.mem_append.1 hc).elim (ha.2 c) (hb.2 c)⟩
    simp only [List.mem_cons, List.not_mem_nil, or_false] at ht
    rcases ht with rfl | rfl | rfl | rfl
    · rw [splitWs_word (hcat _ _ hs hw)]; exact ⟨by simp, rfl⟩
    · rw [splitWs_word (hcat _ _ hw hs)]; exact ⟨by simp, rfl⟩
    · rw [show sym ++ s%" " ++ w = sym ++ ' ' :: w by simp, splitWs_words2 hs hw]
      exact ⟨by simp, by simp [joinWith]⟩
    · rw [show w ++ s%" " ++ sym = w ++ ' ' :: sym by simp, splitWs_words2 hw hs]
      exact ⟨by simp, by simp [joinWith]⟩

theorem WrittenAmount.parse [ReadsNumerals M] {t : Str} {q : Rat} {s : Option Str} (h : WrittenAmount t q s) :
    ∃ m : M, Amount.parse t '.' = .ok (⟨m, s⟩ : Amount M) := by
  obtain ⟨w, neg, d, k, h1, rfl, h3⟩ := h
  obtain ⟨m, hm⟩ := ReadsNumerals.reads (M := M) w neg d k h1
  have hm := Amount.parse_numeral h1 hm
  rcases h3 with ⟨rfl, rfl⟩ | ⟨sym, rfl, hv, ht⟩
  · exact ⟨m, hm⟩
  · exact ⟨m, C05_symbol_position (by decide) h1.noWs hv hm t ht⟩

theorem WrittenAmount.parse_rat {t : Str} {q : Rat} {s : Option Str} (h : WrittenAmount t q s) :
    Amount.parse t '.' = .ok (⟨q, s⟩ : Amount Rat) := by
  obtain ⟨w, neg, d, k, h1, rfl, h3⟩ := h
  obtain ⟨m, hm, rfl⟩ := (C05_numbers h1).2
  rcases h3 with ⟨rfl, rfl⟩ | ⟨sym, rfl, hv, ht⟩
  · exact hm
  · exact C05_symbol_position (by decide) h1.noWs hv hm t ht

/-- What is read for the amount of a line. -/
def PLine.mag (l : PLine) : M :=
  match (Amount.parse l.amount '.' : Res (Amount M)) with
  | .ok a => a.mag
  | .error _ => Mag.zero

/-- The amount that is read. -/
def PLine.read (l : PLine) : Option (Amount M) := l.value.map fun v => ⟨l.mag, v.2⟩

/-- The posting that is read. -/
def PLine.posting (l : PLine) : Posting M := .classic ⟨l.account, l.read, none, none⟩

theorem WrittenAmount.parse_mag [ReadsNumerals M] {l : PLine} {q : Rat} {s : Option Str}
    (h : WrittenAmount l.amount q s) : Amount.parse l.amount '.' = .ok (⟨l.mag, s⟩ : Amount M) := by
  obtain ⟨m, hm⟩ := h.parse (M := M)
  unfold PLine.mag
  rw [hm]

theorem PLine.Ok.splitWs {accs : List Str} {l : PLine} (h : l.Ok accs) :
    splitWs l.text = l.account :: Silverfox.splitWs l.amount := by
  unfold PLine.text
  rw [List.append_assoc, List.append_assoc, splitWs_ws_left h.indent.1]
  cases hv : l.value with
  | none =>
    rw [h.blank hv, List.append_nil, splitWs_ws_right _ h.gap, splitWs_word h.word]
    rfl
  | some v =>
    obtain ⟨q, s⟩ := v
    rw [← List.append_assoc]
    exact splitWs_cons_gap h.word h.gap (h.given q s hv).1

theorem PLine.Ok.parse [ReadsNumerals M] {accs names : List Str} {l : PLine} (h : l.Ok accs) (hn : ∀ k ∈ accs, k ∈ names) (line : Str)
    (hl : Silverfox.splitWs (rc line) = Silverfox.splitWs l.text) :
    Posting.parse line '.' names = .ok (l.posting : Posting M) := by
  have h1 : Silverfox.splitWs (trim (removeComments line)) = l.account :: (Silverfox.splitWs l.amount ++ clauseToks []) := by
    rw [splitWs_trim, removeComments_eq_rc, hl, h.splitWs]
    simp [clauseToks]
  have hops : ∀ t ∈ Silverfox.splitWs l.amount, isOp t = false := by
    intro t ht
    cases hv : l.value with
    | none => rw [h.blank hv] at ht; cases ht
    | some v => exact isOp_false ((h.given v.1 v.2 hv).2.1 t ht)
  rw [Posting.parse_classic line '.' names h1 h.notEnvelope,
    Classic.parse_clauses h1 ⟨hops, by simp, by simp, by simp⟩ '.' names]
  have hfirst : (firstAmount (Silverfox.splitWs l.amount) '.' : Res (Option (Amount M))) =
      .ok l.read := by
    unfold firstAmount PLine.read
    cases hv : l.value with
    | none => rw [h.blank hv]; rfl
    | some v =>
      obtain ⟨q, s⟩ := v
      have hw := (h.given q s hv).2.2
      rw [if_neg (by rw [joinWith_ne_blank (splitWs_isWord _) hw.words.1]; simp), hw.words.2, hw.parse_mag]
      rfl
  rw [hfirst]
  have hc : names.contains l.account = true := by
    rw [List.contains_iff_mem]; exact hn _ h.declared
  simp only [bind, Except.bind, clauseAmount, clauseCost, List.find?_nil, Except.map, pure, Except.pure, hc, if_true,
    Option.map]
  rfl

/-! ### Lines as the scanner sees them -/

theorem effective_plain {s : Str} (h : NoComment s) : effective s = trimEnd s := by
  unfold effective
  rw [removeComments_eq_rc, rc_trimEnd ((noComment_iff s).1 h)]

theorem splitWs_rc_effective {s : Str} (h : NoComment s) : splitWs (rc (trim (effective s))) = splitWs s := by
  rw [splitWs_rc_trim, effective_plain h, splitWs_rc_trimEnd, (noComment_iff s).1 h]

theorem noNl_trimEnd {s : Str} (h : noNl s) : noNl (trimEnd s) := fun hm => h (trimEnd_mem hm)

theorem PLine.Ok.ink {accs : List Str} {l : PLine} (h : l.Ok accs) : ¬ allWs l.text := by
  intro ha
  have := h.splitWs
  rw [splitWs_allWs ha] at this
  cases this

theorem PLine.Ok.effective {accs : List Str} {l : PLine} (h : l.Ok accs) :
    (∃ c r, effective l.text = c :: r ∧ isWs c = true) ∧ noNl (effective l.text) ∧ ¬ allWs (effective l.text) := by
  rw [effective_plain h.plain.1]
  refine ⟨?_, noNl_trimEnd h.plain.2, ?_⟩
  · obtain ⟨c, r, hc⟩ := List.exists_cons_of_ne_nil h.indent.2
    have hi : ¬ allWs (l.account ++ l.gap ++ l.amount) := by
      intro ha
      obtain ⟨x, y, hx⟩ := List.exists_cons_of_ne_nil h.word.1
      have h1 := ha x (by simp [hx])
      have h2 := h.word.2 x (by simp [hx])
      rw [h1] at h2; cases h2
    refine ⟨c, r ++ trimEnd (l.account ++ l.gap ++ l.amount), ?_, h.indent.1 c (by simp [hc])⟩
    rw [PLine.text, List.append_assoc, List.append_assoc, ← List.append_assoc l.account, trimEnd_ink _ hi, hc]
    rfl
  · intro ha
    obtain ⟨b, hb, he, _⟩ := trimEnd_spec l.text
    exact h.ink (by rw [he]; exact allWs_append.2 ⟨ha, hb⟩)

theorem restOf_full (ls : List Str) (h : ∀ l ∈ ls, effective l ≠ []) :
    restOf ls = ((ls.map effective).map fun l => '\n' :: l).flatten := by
  induction ls with
  | nil => rfl
  | cons l ls ih =>
    rw [restOf_cons, if_neg (h l (by simp)), ih fun x hx => h x (by simp [hx])]
    simp

/-! ### Entries -/

/-- The entry that is read has this date, mark and description, and these postings. -/
def EntryOf (e : PEntry) (x : Entry M) : Prop :=
  (x.date = e.day ∧ [x.status.toChar] = e.mark ∧ x.description = joinWith s%" " (splitWs e.title)) ∧
    x.postings = e.lines.map PLine.posting

theorem PEntry.Ok.header {env : Env} {accs : List Str} {e : PEntry} (h : e.Ok env accs) :
    splitWs e.header = e.date :: e.mark :: splitWs e.title ∧ ∃ c r, e.header = c :: r ∧ isWs c = false := by
  have hm : isWord e.mark := by
    have := h.mark
    simp only [List.mem_cons, List.not_mem_nil, or_false] at this
    rcases this with h | h | h <;> rw [h] <;> exact ⟨by simp, by decide⟩
  constructor
  · unfold PEntry.header
    have hg : allWs s%" " := by decide
    rw [show e.date ++ s%" " ++ e.mark ++ s%" " ++ e.title = e.date ++ s%" " ++ (e.mark ++ s%" " ++ e.title) by simp,
      splitWs_cons_gap h.date.1 hg (by simp), splitWs_cons_gap hm hg (by simp)]
  · obtain ⟨c, r, hc⟩ := List.exists_cons_of_ne_nil h.date.1.1
    refine ⟨c, r ++ s%" " ++ e.mark ++ s%" " ++ e.title, ?_, h.date.1.2 c (by simp [hc])⟩
    unfold PEntry.header
    rw [hc]; rfl

theorem givenAmounts_posting (ls : List PLine) :
    givenAmounts (ls.map PLine.posting) = ls.filterMap (PLine.read (M := M)) := by
  unfold givenAmounts
  rw [List.filterMap_map]
  rfl

theorem read_sym {l : PLine} {a : Amount M} (h : l.read = some a) : ∃ v, l.value = some v ∧ a = ⟨l.mag, v.2⟩ := by
  unfold PLine.read at h
  cases hv : l.value with
  | none => rw [hv] at h; cases h
  | some v => rw [hv] at h; cases h; exact ⟨v, rfl, rfl⟩

theorem PEntry.Ok.oneSymbol {env : Env} {accs : List Str} {e : PEntry} (h : e.Ok env accs) (x : Entry M)
    (hx : x.postings = e.lines.map PLine.posting) : x.validate = .ok () := by
  rw [(C15_validate_iff x).1, hx]
  have hc : blankCount (e.lines.map (PLine.posting (M := M))) = (e.lines.filter fun l => l.value.isNone).length := by
    unfold blankCount
    rw [List.countP_map, List.countP_eq_length_filter]
    congr 1
    apply List.filter_congr
    intro l _
    cases hv : l.value <;> simp [PLine.posting, PLine.read, Posting.amount, hv]
  rw [hc]
  refine ⟨h.blanks, ?_⟩
  by_cases hb : ∃ l ∈ e.lines, l.value = none
  · right
    obtain ⟨_, s, hs⟩ := h.oneCurrency hb
    intro a ha b hb s1 s2 h1 h2
    rw [givenAmounts_posting] at ha hb
    obtain ⟨l1, hl1, ha⟩ := List.mem_filterMap.1 ha
    obtain ⟨l2, hl2, hb⟩ := List.mem_filterMap.1 hb
    obtain ⟨v, hv, rfl⟩ := read_sym ha
    obtain ⟨u, hu, rfl⟩ := read_sym hb
    have e1 := hs v (List.mem_filterMap.2 ⟨l1, hl1, hv⟩)
    have e2 := hs u (List.mem_filterMap.2 ⟨l2, hl2, hu⟩)
    simp only at h1 h2
    rw [e1] at h1; rw [e2, h1] at h2
    exact Option.some.inj h2
  · left
    rw [List.length_eq_zero_iff, List.filter_eq_nil_iff]
    intro l hl
    cases hv : l.value with
    | none => exact absurd ⟨l, hl, hv⟩ hb
    | some v => simp

theorem PEntry.Ok.parse [ReadsNumerals M] {env : Env} {accs names : List Str} {e : PEntry} (h : e.Ok env accs)
    (hn : ∀ k ∈ accs, k ∈ names) :
    ∃ x : Entry M, EntryOf e x ∧ Entry.parse env (effective e.header ++ restOf (e.lines.map PLine.text)) s%"%Y/%m/%d" '.' names =
      .ok x := by
  have hne : ∀ l ∈ e.lines.map PLine.text, effective l ≠ [] := by
    intro l hl
    obtain ⟨p, hp, rfl⟩ := List.mem_map.1 hl
    obtain ⟨c, r, hc, _⟩ := (h.lines p hp).effective.1
    rw [hc]; simp
  have hhead : ¬ allWs (effective e.header) := by
    intro ha
    have h1 := splitWs_rc_effective h.plain.1
    rw [h.header.1, splitWs_rc_trim] at h1
    have h2 : rc (effective e.header) = effective e.header := by
      rw [effective_plain h.plain.1, rc_trimEnd ((noComment_iff _).1 h.plain.1)]
    rw [h2, splitWs_allWs ha] at h1
    cases h1
  rw [restOf_full _ hne, Entry.parse_ink, inkLines_chunk _ ?_
    (by rw [effective_plain h.plain.1]; exact noNl_trimEnd h.plain.2) hhead]
  · have hps : ∀ ls : List PLine, (∀ l ∈ ls, l.Ok accs) →
        Entry.parsePostings '.' names (((ls.map PLine.text).map effective).map trim) = .ok (ls.map (PLine.posting (M := M))) := by
      intro ls
      induction ls with
      | nil => intro _; rfl
      | cons l ls ih =>
        intro hl
        have hl1 := hl l (by simp)
        simp only [List.map_cons, Entry.parsePostings]
        rw [if_neg (by rw [trim_trim, List.isEmpty_iff, trim_eq_nil]; exact hl1.effective.2.2),
          ih fun x hx => hl x (by simp [hx]), hl1.parse hn _ (splitWs_rc_effective hl1.plain.1)]
        rfl
    have hsay : HeaderSays env s%"%Y/%m/%d" e.header
        (⟨e.day, if e.mark = s%"?" then .pending else if e.mark = s%"~" then .cleared else .reconciled,
          joinWith s%" " (splitWs e.title), none, none, e.lines.map PLine.posting⟩ : Entry M) := by
      refine ⟨_, _, _, h.header.1, h.date.2.2, ?_, Or.inl ⟨?_, rfl, rfl⟩, rfl⟩
      · have := h.mark
        simp only [List.mem_cons, List.not_mem_nil, or_false] at this
        rcases this with h | h | h <;> simp [h]
      · intro hm
        rcases mem_joinWith hm with hm | ⟨t, ht, hm⟩
        · exact absurd hm (by decide)
        · exact h.title (((splitWs_infix e.title).1 t ht).subset hm)
    obtain ⟨e0, h1, h2⟩ := (parseHeader_iff env _ (trim (effective e.header)) e.header
      (splitWs_rc_effective h.plain.1) _).2 hsay
    refine ⟨{ e0 with postings := e.lines.map PLine.posting }, ⟨⟨congrArg Entry.date h2, ?_, congrArg Entry.description h2⟩, rfl⟩, ?_⟩
    · rw [congrArg Entry.status h2]
      have := h.mark
      simp only [List.mem_cons, List.not_mem_nil, or_false] at this
      rcases this with h | h | h <;> rw [h] <;> rfl
    simp only [h1, bind, Except.bind, hps e.lines h.lines]
    rw [h.oneSymbol _ rfl]
    rfl
  · intro l hl
    obtain ⟨t, ht, rfl⟩ := List.mem_map.1 hl
    obtain ⟨p, hp, rfl⟩ := List.mem_map.1 ht
    exact (h.lines p hp).effective.2

/-! ### The ledger -/

/-- What is read for the blank line of an entry. -/
def PEntry.readRest (e : PEntry) : Option (Amount M) :=
  match e.lines.filterMap PLine.read with
  | [] => none
  | a :: as => some ⟨(as.map Amount.mag).foldl Mag.sub (Mag.neg a.mag), a.sym⟩

/-- What is read for a line. -/
def PEntry.readWorth (e : PEntry) (l : PLine) : Option (Amount M) :=
  match l.value with
  | some v => some ⟨l.mag, v.2⟩
  | none => e.readRest

/-- What is read for an account. -/
def PEntry.readMoves (k : Str) (e : PEntry) : List (Amount M) :=
  e.lines.filterMap fun l => if l.account = k then e.readWorth l else none

theorem given_read (e : PEntry) (h : e.given ≠ []) :
    ∃ (a : Amount M) (as : _), e.lines.filterMap PLine.read = a :: as := by
  obtain ⟨v, vs, hv⟩ := List.exists_cons_of_ne_nil h
  have hm : v ∈ e.lines.filterMap PLine.value := by
    show v ∈ e.given
    rw [hv]; simp
  obtain ⟨l, hl, hlv⟩ := List.mem_filterMap.1 hm
  have : (⟨l.mag, v.2⟩ : Amount M) ∈ e.lines.filterMap PLine.read :=
    List.mem_filterMap.2 ⟨l, hl, by simp [PLine.read, hlv]⟩
  exact List.exists_cons_of_ne_nil (List.ne_nil_of_mem this)

/-- The amounts of an entry are written well, and if a line is left blank then the others (at least one) are in one
currency. -/
structure PEntry.Sound (e : PEntry) : Prop where
  amounts : ∀ l ∈ e.lines, ∀ q s, l.value = some (q, s) → WrittenAmount l.amount q s
  oneCurrency : (∃ l ∈ e.lines, l.value = none) →
    e.given ≠ [] ∧ ∃ s, ∀ v ∈ e.given, v.2 = s

theorem PEntry.Ok.sound {env : Env} {accs : List Str} {e : PEntry} (h : e.Ok env accs) : e.Sound :=
  ⟨fun l hl q s hv => ((h.lines l hl).given q s hv).2.2, h.oneCurrency⟩

theorem PEntry.Sound.blankAmount {e : PEntry} (h : e.Sound) {x : Entry M}
    (hx : EntryOf e x) (hb : ∃ l ∈ e.lines, l.value = none) :
    ∃ b : Amount M, e.readRest = some b ∧ x.blankAmount = .ok (some b) := by
  obtain ⟨hne, s, hs⟩ := h.oneCurrency hb
  obtain ⟨a, as, hg⟩ := given_read (M := M) e hne
  have hsym : ∀ a ∈ e.lines.filterMap (PLine.read (M := M)), a.sym = s := by
    intro a ha
    obtain ⟨l, hl, hla⟩ := List.mem_filterMap.1 ha
    obtain ⟨v, hv, rfl⟩ := read_sym hla
    exact hs v (List.mem_filterMap.2 ⟨l, hl, hv⟩)
  refine ⟨⟨(as.map Amount.mag).foldl Mag.sub (Mag.neg a.mag), a.sym⟩, by unfold PEntry.readRest; rw [hg], ?_⟩
  rw [hsym a (by rw [hg]; simp)]
  refine blankAmount_single x s a as ?_ ?_ ?_
  · obtain ⟨l, hl, hv⟩ := hb
    exact ⟨l.posting, by rw [hx.2]; exact List.mem_map_of_mem hl, by simp [PLine.posting, PLine.read, Posting.amount, hv]⟩
  · intro a ha
    rw [hx.2, givenAmounts_posting] at ha
    exact hsym a ha
  · rw [hx.2, givenAmounts_posting, hg]

/-- A ledger without envelopes, with the usual date format. -/
structure PlainLedger (accs : List Str) (l : Ledger M) : Prop where
  decimal : l.decimal = '.'
  dateFormat : l.dateFormat = s%"%Y/%m/%d"
  names : ∀ k ∈ accs, k ∈ l.accountNames
  bare : ∀ k a, (k, a) ∈ l.accounts → a.expenses = [] ∧ a.goals = []

theorem processReal_total (name : Str) (x : Entry M) (ps : List (Posting M))
    (h : ∀ p ∈ ps, p.amount = none → ∃ b, x.blankAmount = .ok b) (r : Pool M) :
    ∃ r', Account.processReal name x ps r = .ok r' := by
  induction ps generalizing r with
  | nil => exact ⟨r, rfl⟩
  | cons p ps ih =>
    have ih := ih fun q hq => h q (by simp [hq])
    simp only [Account.processReal]
    split
    · cases ha : p.amount with
      | some a => exact ih _
      | none =>
        obtain ⟨b, hb⟩ := h p (by simp) ha
        simp only [hb, bind, Except.bind]
        cases b with
        | none => exact ih _
        | some a => exact ih _
    · exact ih r

theorem processAll_total (today : Date) (x : Entry M) (as : List (Str × Account M))
    (hb : ∀ k a, (k, a) ∈ as → a.expenses = [] ∧ a.goals = [])
    (h : ∀ p ∈ x.postings, p.amount = none → ∃ b, x.blankAmount = .ok b) :
    ∃ as', Ledger.processAll today x as = .ok as' ∧ as'.map Prod.fst = as.map Prod.fst ∧
      ∀ k a, (k, a) ∈ as' → a.expenses = [] ∧ a.goals = [] := by
  induction as with
  | nil => exact ⟨[], rfl, rfl, by simp⟩
  | cons p as ih =>
    obtain ⟨k, a⟩ := p
    obtain ⟨as', h1, h2, h3⟩ := ih fun k a hm => hb k a (by simp [hm])
    obtain ⟨e1, e2⟩ := hb k a (by simp)
    obtain ⟨r, hr⟩ := processReal_total a.name x x.postings h a.real
    have hp : a.processEntry today x = .ok { a with expenses := [], goals := [], real := r } := by
      simp only [Account.processEntry, e1, e2, Account.processEnvelopes, bind, Except.bind, hr, pure, Except.pure]
    refine ⟨(k, { a with expenses := [], goals := [], real := r }) :: as',
      by simp only [Ledger.processAll, hp, h1, bind, Except.bind, pure, Except.pure], by simp [h2], ?_⟩
    intro k' a' hm
    rcases List.mem_cons.1 hm with hm | hm
    · cases hm; exact ⟨rfl, rfl⟩
    · exact h3 k' a' hm

/-- An entry written well is read. -/
theorem PEntry.Ok.reading [ReadsNumerals M] {env : Env} (hord : FairOrder env.ord) {accs : List Str} {e : PEntry} (h : e.Ok env accs)
    {l : Ledger M} (hl : PlainLedger accs l) :
    ∃ x l', EntryOf e x ∧ Reading env (effective e.header ++ restOf (e.lines.map PLine.text)) l l' ∧
      PlainLedger accs l' ∧ l'.entries = stableSort (fun a b => Date.lt a.date b.date) (l.entries ++ [x]) := by
  obtain ⟨x, hx, hp⟩ := h.parse (M := M) hl.names
  have hblank : ∀ p ∈ x.postings, p.amount = none → ∃ b, x.blankAmount = .ok b := by
    intro p hp hn
    rw [hx.2] at hp
    obtain ⟨q, hq, rfl⟩ := List.mem_map.1 hp
    obtain ⟨v, _, hv⟩ := h.sound.blankAmount hx ⟨q, hq, by simpa [PLine.posting, PLine.read, Posting.amount] using hn⟩
    exact ⟨_, hv⟩
  obtain ⟨as', h1, h2, h3⟩ := processAll_total env.today x l.accounts hl.bare hblank
  refine ⟨x, _, hx, Reading.entry e.date x _ ?_ h.date.2.1 ?_ ((addEntry_iff env hord l _ x).2 ⟨as', h1, rfl⟩), ?_, rfl⟩
  · have hw : splitWs (effective e.header ++ restOf (e.lines.map PLine.text)) =
        e.date :: e.mark :: (splitWs e.title ++ splitWs (restOf (e.lines.map PLine.text))) := by
      have h5 : splitWs (effective e.header) = e.date :: e.mark :: splitWs e.title := by
        rw [effective_plain h.plain.1, splitWs_trimEnd, h.header.1]
      have h6 : restOf (e.lines.map PLine.text) = [] ∨ ∃ r, restOf (e.lines.map PLine.text) = '\n' :: r := by
        generalize e.lines.map PLine.text = ls
        induction ls with
        | nil => exact Or.inl rfl
        | cons l ls ih =>
          rw [restOf_cons]
          split
          · exact ih
          · exact Or.inr ⟨_, rfl⟩
      rcases h6 with h6 | ⟨r, h6⟩
      · rw [h6, List.append_nil, h5, show splitWs [] = [] from rfl, List.append_nil]
      · rw [h6, splitWs_append_ws _ (by decide), h5, splitWs_ws_cons (by decide)]
        rfl
    rw [hw]; rfl
  · rw [hl.decimal, hl.dateFormat]; exact hp
  · exact ⟨hl.decimal, hl.dateFormat, fun k hk => by
      show k ∈ as'.map Prod.fst
      rw [h2]; exact hl.names k hk, h3⟩

/-- A declaration of an account is read. -/
theorem account_reading (env : Env) {k : Str} (hk : isWord k ∧ NoComment (s%"account " ++ k)) {accs : List Str}
    {l : Ledger M} (hl : PlainLedger accs l) :
    ∃ l', Reading env (effective (s%"account " ++ k) ++ restOf []) l l' ∧ PlainLedger (k :: accs) l' ∧
      l'.entries = l.entries := by
  have hi : ¬ allWs k := by
    intro ha
    obtain ⟨c, r, hc⟩ := List.exists_cons_of_ne_nil hk.1.1
    have h1 := ha c (by simp [hc])
    rw [hk.1.2 c (by simp [hc])] at h1; cases h1
  have htext : effective (s%"account " ++ k) ++ restOf [] = s%"account " ++ k := by
    rw [effective_plain hk.2, trimEnd_ink _ hi]
    have : trimEnd k = k := by
      obtain ⟨b, hb, he, _⟩ := trimEnd_spec k
      cases b with
      | nil => rw [List.append_nil] at he; exact he.symm
      | cons c b =>
        have h1 := hb c (by simp)
        rw [hk.1.2 c (by rw [he]; simp)] at h1; cases h1
    rw [this]
    show _ ++ [] = _
    rw [List.append_nil]
  have hw : splitWs (s%"account " ++ k) = [s%"account", k] := by
    rw [show s%"account " ++ k = s%"account" ++ ' ' :: k from rfl]
    exact splitWs_words2 ⟨by simp, by decide⟩ hk.1
  have hp : (Account.parse env (s%"account " ++ k) l.decimal l.dateFormat : Res (Account M)) = .ok ⟨k, [], [], []⟩ := by
    unfold Account.parse
    have hlines : lines (s%"account " ++ k) = [s%"account " ++ k] :=
      lines_last _ (noNl_append.2 ⟨by decide, word_noNl hk.1⟩) (by simp)
    rw [hlines]
    simp only [Account.parseHeader, removeComments_eq_rc, (noComment_iff _).1 hk.2, hw, bind, Except.bind,
      Account.parseLines, Account.flush]
    rfl
  rw [htext]
  refine ⟨_, Reading.account _ (by rw [hw]; rfl) hp, ⟨hl.decimal, hl.dateFormat, ?_, ?_⟩, rfl⟩
  · intro j hj
    show j ∈ (mapInsert l.accounts k _).map Prod.fst
    rw [mapInsert_keys]
    rcases List.mem_cons.1 hj with rfl | hj
    · split
      · assumption
      · simp
    · have := hl.names j hj
      split
      · exact this
      · exact List.mem_append_left _ this
  · intro j a hm
    rcases mapInsert_mem _ _ _ _ hm with hm | hm
    · cases hm; exact ⟨rfl, rfl⟩
    · exact hl.bare j a hm

theorem accounts_read (env : Env) (inc : Ledger M × World → Str → Res (Ledger M × World)) (w : World)
    (ks : List Str) (hk : ∀ k ∈ ks, isWord k ∧ NoComment (s%"account " ++ k)) (rest : List Str) (accs : List Str)
    (l : Ledger M) (hl : PlainLedger accs l) (he : l.entries = []) :
    ∃ l', PlainLedger (ks ++ accs) l' ∧ l'.entries = [] ∧
      readItems env inc (ks.map (fun k => effective (s%"account " ++ k) ++ restOf []) ++ rest) (l, w) =
        readItems env inc rest (l', w) := by
  induction ks generalizing accs l with
  | nil => exact ⟨l, hl, he, rfl⟩
  | cons k ks ih =>
    obtain ⟨l1, h1, h2, h3⟩ := account_reading env (hk k (by simp)) hl
    obtain ⟨l', h4, h5, h6⟩ := ih (fun j hj => hk j (by simp [hj])) (k :: accs) l1 h2 (by rw [h3, he])
    refine ⟨l', ⟨h4.decimal, h4.dateFormat, fun j hj => h4.names j ?_, h4.bare⟩, h5, ?_⟩
    · simp only [List.cons_append, List.mem_cons, List.mem_append] at hj ⊢
      grind
    · rw [List.map_cons, List.cons_append, readItems, parseChunk_of_reading env _ _ _ _ _ h1]
      exact h6

theorem entries_read [ReadsNumerals M] (env : Env) (hord : FairOrder env.ord) (inc : Ledger M × World → Str → Res (Ledger M × World))
    (w : World) (accs : List Str) (es : List PEntry) (hes : ∀ e ∈ es, e.Ok env accs) (l : Ledger M)
    (hl : PlainLedger accs l) (xs0 : List (Entry M)) (h0 : DateOrdered xs0 l.entries) :
    ∃ xs l', List.Forall₂ EntryOf es xs ∧ PlainLedger accs l' ∧ DateOrdered (xs0 ++ xs) l'.entries ∧
      readItems env inc (es.map fun e => effective e.header ++ restOf (e.lines.map PLine.text)) (l, w) = .ok (l', w) := by
  induction es generalizing l xs0 with
  | nil => exact ⟨[], l, .nil, hl, by simpa using h0, rfl⟩
  | cons e es ih =>
    obtain ⟨x, l1, h1, h2, h3, h4⟩ := (hes e (by simp)).reading hord hl
    obtain ⟨xs, l', h5, h6, h7, h8⟩ := ih (fun j hj => hes j (by simp [hj])) l1 h3 (xs0 ++ [x])
      (by rw [h4]; exact h0.snoc x)
    refine ⟨x :: xs, l', .cons h1 h5, h6, by simpa using h7, ?_⟩
    rw [List.map_cons, readItems, parseChunk_of_reading env _ _ _ _ _ h2]
    exact h8

theorem addLinesFrom_inked (env : Env) (inc : Ledger M × World → Str → Res (Ledger M × World)) (ls : List Str)
    (st : Ledger M × World) (c : Str) :
    Ledger.addLinesFrom env inc ls st c = Ledger.addLinesFrom env inc (inked ls) st c := by
  rw [addLinesFrom_eff, addLinesFrom_eff]
  congr 1
  induction ls with
  | nil => rfl
  | cons l ls ih =>
    by_cases hb : l.all isWs = true
    · have h1 : inked (l :: ls) = inked ls := by simp [inked, hb]
      have h2 : trimEnd l = [] := by
        obtain ⟨b, _, he, hi⟩ := trimEnd_spec l
        cases ht : trimEnd l with
        | nil => rfl
        | cons x r =>
          obtain h | ⟨r', y, h, hy⟩ := hi
          · rw [ht] at h; cases h
          · have := List.all_eq_true.1 hb y (by rw [he, h]; simp)
            rw [this] at hy; cases hy
      rw [h1, ← ih]
      simp only [eff, List.map_cons, h2]
      rfl
    · have h1 : inked (l :: ls) = l :: inked ls := by simp [inked, hb]
      rw [h1]
      have e : ∀ (x : Str) (xs : List Str), eff (x :: xs) = eff [x] ++ eff xs := fun x xs => eff_append [x] xs
      rw [e l ls, e l (inked ls), ih]

/-- A journal written well is loaded: every entry once, in the order of the dates. -/
theorem WrittenJournal.loads [ReadsNumerals M] {env : Env} (hord : FairOrder env.ord) {accs : List Str} {es : List PEntry} {text : Str}
    (h : WrittenJournal env accs es text) (fuel : Nat) (w : World) (path : Str) (hr : w.read path = some text) :
    ∃ (xs : List (Entry M)) (l : Ledger M), List.Forall₂ EntryOf es xs ∧ PlainLedger accs l ∧ DateOrdered xs l.entries ∧
      Ledger.fromFile env (fuel + 1) w path = .ok (l, w.cdParent path) := by
  have hit : Itemised (inked (lines text)) ([] :: (accs.map (fun k => effective (s%"account " ++ k) ++ restOf []) ++
      es.map fun e => effective e.header ++ restOf (e.lines.map PLine.text))) := by
    refine ⟨⟨[], accs.map (fun k => (s%"account " ++ k, [])) ++ es.map (fun e => (e.header, e.lines.map PLine.text)),
      ?_, by simp [Continuing], ?_, ?_⟩⟩
    · rw [h.text, List.flatMap_append, List.flatMap_map, List.flatMap_map]
      rw [List.map_eq_flatMap]
      rfl
    · intro b hb
      rcases List.mem_append.1 hb with hb | hb
      · obtain ⟨k, hk, rfl⟩ := List.mem_map.1 hb
        refine ⟨by simp [Continuing], 'a', ?_⟩
        have hk := h.accounts k hk
        have h1 : ¬ allWs k := by
          intro ha
          obtain ⟨c, r, hc⟩ := List.exists_cons_of_ne_nil hk.1.1
          have h1 := ha c (by simp [hc])
          rw [hk.1.2 c (by simp [hc])] at h1; cases h1
        refine ⟨s%"ccount " ++ trimEnd k, ?_, by decide⟩
        show effective (s%"account " ++ k) = _
        rw [effective_plain hk.2, trimEnd_ink _ h1]
        rfl
      · obtain ⟨e, he, rfl⟩ := List.mem_map.1 hb
        have he := h.entries e he
        constructor
        · intro t ht c hc
          obtain ⟨p, hp, rfl⟩ := List.mem_map.1 ht
          obtain ⟨c', r, h1, h2⟩ := (he.lines p hp).effective.1
          rw [h1] at hc
          cases hc; exact h2
        · obtain ⟨c, r, h1, h2⟩ := he.header.2
          show ∃ c r, effective e.header = _ ∧ _
          obtain ⟨b, hb, h3, _⟩ := trimEnd_spec e.header
          rw [effective_plain he.plain.1]
          cases ht : trimEnd e.header with
          | nil =>
            rw [ht, List.nil_append] at h3
            have h4 := hb c (by rw [← h3, h1]; simp)
            rw [h2] at h4; cases h4
          | cons c' r' =>
            rw [ht, h1] at h3
            cases h3
            exact ⟨c, r', rfl, h2⟩
    · rw [List.map_append, List.map_map, List.map_map]; rfl
  obtain ⟨l1, h1, h2, h3⟩ := accounts_read (M := M) env (Ledger.addFromFile env fuel) (w.cdParent path) accs h.accounts
    (es.map fun e => effective e.header ++ restOf (e.lines.map PLine.text)) [] (Ledger.new path)
    ⟨rfl, rfl, by simp, by simp [Ledger.new]⟩ rfl
  rw [List.append_nil] at h1
  obtain ⟨xs, l, h4, h5, h6, h7⟩ := entries_read env hord (Ledger.addFromFile env fuel) (w.cdParent path) accs es
    h.entries l1 h1 [] (by rw [h2]; exact ⟨List.Pairwise.nil, .refl _, fun _ => rfl⟩)
  refine ⟨xs, l, h4, h5, by simpa using h6, ?_⟩
  have hfile : ∀ cs, Itemised (inked (lines text)) cs → Ledger.addFromFile env (fuel + 1) (Ledger.new path, w) path =
      readItems (M := M) env (Ledger.addFromFile env fuel) cs (Ledger.new path, w.cdParent path) := by
    intro cs hc
    obtain ⟨lead, blocks, g1, g2, g3, rfl⟩ := hc.exist
    rw [Ledger.addFromFile, hr]
    simp only
    rw [addLinesFrom_inked, g1]
    exact addLinesFrom_items env _ blocks g3 lead g2 _ []
  unfold Ledger.fromFile
  rw [hfile _ hit, readItems, parseChunk_of_nothing env _ _ [] rfl]
  show readItems env _ _ (Ledger.new path, w.cdParent path) = _
  rw [h3, h7]

/-! ### The sums -/

theorem EntryOf.moves {e : PEntry} (h : e.Sound) {x : Entry M} (hx : EntryOf e x)
    (k : Str) : x.movesOf k = e.readMoves k := by
  have key : ∀ ls : List PLine, (∀ l ∈ ls, l ∈ e.lines) →
      ((ls.map PLine.posting).filterMap fun p => match p with
        | .classic c => if c.account = k then x.worthOf c else none
        | .envelope _ => none) =
      ls.filterMap fun l => if l.account = k then e.readWorth l else none := by
    intro ls
    induction ls with
    | nil => intro _; rfl
    | cons l ls ih =>
      intro hl
      have ih := ih fun j hj => hl j (by simp [hj])
      have hw : x.worthOf ⟨l.account, l.read, none, none⟩ = e.readWorth l := by
        unfold Entry.worthOf PEntry.readWorth PLine.read
        cases hv : l.value with
        | some v => rfl
        | none =>
          obtain ⟨v, h1, h2⟩ := h.blankAmount hx ⟨l, hl l (by simp), hv⟩
          simp only [Option.map, h2, h1]
      rw [List.map_cons, List.filterMap_cons, List.filterMap_cons]
      simp only [PLine.posting, hw]
      by_cases hk : l.account = k
      · simp only [hk, if_true]
        cases (e.readWorth l : Option (Amount M)) with
        | none => simpa using ih
        | some v => simpa using ih
      · simp only [hk, if_false]
        exact ih
  unfold Entry.movesOf PEntry.readMoves
  rw [hx.2]
  refine Eq.trans (List.filterMap_congr fun p _ => ?_) (key e.lines fun _ h => h)
  cases p <;> rfl

theorem all_moves {es : List PEntry} {xs : List (Entry M)}
    (h : ∀ e ∈ es, e.Sound) (hx : List.Forall₂ EntryOf es xs) (k : Str) :
    (xs.flatMap fun x => x.movesOf k) = es.flatMap (PEntry.readMoves k) := by
  induction hx with
  | nil => rfl
  | cons h1 _ ih =>
    rw [List.flatMap_cons, List.flatMap_cons, ih fun e he => h e (by simp [he]), h1.moves (h _ (by simp)) k]

/-! In exact arithmetic what is read is what is written. -/

theorem PLine.Ok.mag_rat {accs : List Str} {l : PLine} (h : l.Ok accs) {v : Rat × Option Str} (hv : l.value = some v) :
    (l.mag : Rat) = v.1 := by
  unfold PLine.mag
  rw [((h.given v.1 v.2 hv).2.2).parse_rat]

theorem PLine.Ok.read_rat {accs : List Str} {l : PLine} (h : l.Ok accs) :
    l.read = l.value.map fun v => (⟨v.1, v.2⟩ : Amount Rat) := by
  unfold PLine.read
  cases hv : l.value with
  | none => rfl
  | some v => simp only [Option.map, h.mag_rat hv]

theorem PEntry.Ok.rest_rat {env : Env} {accs : List Str} {e : PEntry} (h : e.Ok env accs) :
    e.readRest = e.rest.map fun v => (⟨v.1, v.2⟩ : Amount Rat) := by
  have hg : e.lines.filterMap PLine.read = e.given.map fun v => (⟨v.1, v.2⟩ : Amount Rat) := by
    unfold PEntry.given
    rw [List.map_filterMap]
    exact List.filterMap_congr fun l hl => (h.lines l hl).read_rat
  have hsub : ∀ (l : List (Rat × Option Str)) (z : Rat),
      ((l.map fun v => (⟨v.1, v.2⟩ : Amount Rat)).map Amount.mag).foldl Mag.sub z = z - (l.map Prod.fst).sum := by
    intro l
    induction l with
    | nil => intro z; simp
    | cons x xs ih =>
      intro z
      simp only [List.map_cons, List.foldl_cons, ih]
      simp only [List.sum_cons, Mag.sub]
      ring
  unfold PEntry.readRest PEntry.rest
  rw [hg]
  cases e.given with
  | nil => rfl
  | cons v vs =>
    simp only [List.map_cons, hsub, Option.map, List.sum_cons, Mag.neg]
    congr 2
    ring

theorem PEntry.Ok.moves_rat {env : Env} {accs : List Str} {e : PEntry} (h : e.Ok env accs) (k : Str) :
    e.readMoves k = (e.moves k).map fun v => (⟨v.1, v.2⟩ : Amount Rat) := by
  unfold PEntry.readMoves PEntry.moves
  rw [List.map_filterMap]
  refine List.filterMap_congr fun l hl => ?_
  split
  · unfold PEntry.readWorth PEntry.worth
    cases hv : l.value with
    | some v => simp only [Option.map, (h.lines l hl).mag_rat hv]
    | none => exact h.rest_rat
  · rfl

theorem first_posting (k : Str) (xs : List (Entry M)) (hs : xs.Pairwise fun a b => Date.lt b.date a.date = false)
    (p : Posting M) (h : (xs.flatMap Entry.postings).find? (fun p => p.account == k) = some p) :
    ∃ x ∈ xs, p ∈ x.postings ∧ p.account = k ∧
      ∀ y ∈ xs, Date.lt y.date x.date = true → ∀ q ∈ y.postings, q.account ≠ k := by
  induction xs with
  | nil => cases h
  | cons x xs ih =>
    rw [List.flatMap_cons, List.find?_append] at h
    cases hf : x.postings.find? (fun p => p.account == k) with
    | some q =>
      rw [hf] at h
      cases h
      refine ⟨x, by simp, List.mem_of_find?_eq_some hf, by simpa using List.find?_some hf, ?_⟩
      intro y hy hlt
      rcases List.mem_cons.1 hy with rfl | hy
      · have : Date.lt y.date y.date = false := by rw [Date.lt_false_iff_dayNum]
        rw [this] at hlt; cases hlt
      · have := (List.pairwise_cons.1 hs).1 y hy
        rw [this] at hlt; cases hlt
    | none =>
      rw [hf] at h
      obtain ⟨z, h1, h2, h3, h4⟩ := ih (List.pairwise_cons.1 hs).2 h
      refine ⟨z, by simp [h1], h2, h3, ?_⟩
      intro y hy hlt q hq
      rcases List.mem_cons.1 hy with rfl | hy
      · have := List.find?_eq_none.1 hf q hq
        simpa using this
      · exact h4 y hy hlt q hq

theorem forall₂_mem_left {α β : Type} {R : α → β → Prop} {as : List α} {bs : List β} (h : List.Forall₂ R as bs) {a : α}
    (ha : a ∈ as) : ∃ b ∈ bs, R a b := by
  induction h with
  | nil => cases ha
  | cons h1 _ ih =>
    rcases List.mem_cons.1 ha with rfl | ha
    · exact ⟨_, by simp, h1⟩
    · obtain ⟨b, hb, h2⟩ := ih ha
      exact ⟨b, by simp [hb], h2⟩

theorem forall₂_strengthen {α β : Type} {R S : α → β → Prop} {as : List α} {bs : List β} (h : List.Forall₂ R as bs)
    (hi : ∀ a, ∀ b ∈ bs, R a b → S a b) : List.Forall₂ S as bs := by
  induction h with
  | nil => exact .nil
  | cons h1 _ ih => exact .cons (hi _ _ (by simp) h1) (ih fun a b hb => hi a b (by simp [hb]))

theorem seen_first {es : List PEntry} {xs ys : List (Entry M)} (hx : List.Forall₂ EntryOf es xs)
    (hd : DateOrdered xs ys) {k : Str} (hk : SeenBefore k es) : FirstHasAmount k ys := by
  intro p hp
  obtain ⟨y, h1, h2, h3, h4⟩ := first_posting k ys hd.sorted p hp
  obtain ⟨e, he, hey⟩ := forall₂_mem_right hx (hd.same.mem_iff.1 h1)
  rw [hey.2] at h2
  obtain ⟨l, hl, rfl⟩ := List.mem_map.1 h2
  cases hv : l.value with
  | some v => simp [PLine.posting, PLine.read, Posting.amount, hv]
  | none =>
    obtain ⟨e', he', hlt, l', hl', hk'⟩ := hk e he ⟨l, hl, h3, hv⟩
    obtain ⟨y', hy', hey'⟩ := forall₂_mem_left hx he'
    refine absurd hk' (h4 y' (hd.same.mem_iff.2 hy') ?_ l'.posting (by rw [hey'.2]; exact List.mem_map_of_mem hl'))
    rw [hey'.1.1, hey.1.1]; exact hlt

theorem fill_bare (env : Env) (hord : FairOrder env.ord) (l : Ledger M) {accs : List Str} (hl : PlainLedger accs l)
    (w : World) : l.fillEnvelopes env w = (w, .ok l) := by
  have key : ∀ as : List (Str × Account M), (∀ k a, (k, a) ∈ as → a.expenses = [] ∧ a.goals = []) →
      Ledger.fillAll env.today as = .ok [] := by
    intro as
    induction as with
    | nil => intro _; rfl
    | cons p as ih =>
      obtain ⟨k, a⟩ := p
      intro h
      obtain ⟨h1, h2⟩ := h k a (by simp)
      simp only [Ledger.fillAll, Account.fillingPostings, Account.envelopes, h1, h2, List.append_nil, List.reverse_nil,
        Account.fillLoop, bind, Except.bind, ih fun k a hm => h k a (by simp [hm]), pure, Except.pure]
  unfold Ledger.fillEnvelopes
  rw [key _ fun k a hm => hl.bare k a ((hord _ _).mem_iff.1 hm)]
  rfl

/-- The general case, in any arithmetic in which what is printed is a numeral. -/
theorem written_report [ReadsNumerals M] (env : Env) (hord : FairOrder env.ord) (o : Outside) (w : World)
    (accs : List Str) (es : List PEntry) (text path : Str) (h : WrittenJournal env accs es text)
    (hr : w.read path = some text) (hfuel : o.fuel ≠ 0) (c : Str) (args : List Str) (fs : List Flag)
    (hc : c.head? = some 'b') (ha : Spelled fs args) (hj : journalFor o fs = some path)
    (hfmt : (∀ m : M, FmtOk (round8 m)) ∨ ∀ k, SeenBefore k es ∧ ∀ ms : List (Amount M),
      ms.Perm (es.flatMap (PEntry.readMoves k)) → ∀ a ∈ ms.foldl Pool.add [], FmtOk (round8 a.mag)) :
    ∃ w' out, mainProgram M env o (c :: args) w = (w', .ok out) ∧ w'.file = w.file ∧
      (readReport out).Pairwise (fun a b => strLt a.1 b.1 = true) ∧
      (∀ k, k ∈ (readReport out).map Prod.fst ↔ ∃ e ∈ es, ∃ l ∈ e.lines, l.account = k) ∧
      ∀ k ts, (k, ts) ∈ readReport out → SeenBefore k es → ∃ ms : List (Amount M),
        ms.Perm (es.flatMap (PEntry.readMoves k)) ∧ List.Forall₂ (fun t (a : Amount M) => t = a.display ∧
          ∀ s, a.sym = some s → ValidSymbol '.' s) ts (ms.foldl Pool.add []) := by
  obtain ⟨fuel, hf⟩ := Nat.exists_eq_succ_of_ne_zero hfuel
  obtain ⟨xs, l, h1, h2, h3, h4⟩ := h.loads (M := M) hord fuel w path hr
  have hinv := loaded_inv _ _ _ _ _ _ h4
  obtain ⟨tot, ht⟩ := totals_total l.entries [] hinv.blanks
  have hd : ∃ out, l.displayBalance env = .ok out := by
    unfold Ledger.displayBalance
    rw [show l.totals = .ok tot from ht]
    exact ⟨_, rfl⟩
  obtain ⟨out, hout⟩ := hd
  have hl : LedgerFor env o fs w l (w.cdParent path) := by
    refine ⟨path, l, _, hj, by rw [hf]; exact h4, ?_⟩
    by_cases hn : Flag.noMove ∈ fs
    · exact Or.inl ⟨hn, rfl, rfl⟩
    · exact Or.inr ⟨hn, fill_bare env hord l h2 _⟩
  have hposts : ∀ k, (∃ x ∈ l.entries, ∃ p ∈ x.postings, p.account = k) ↔ ∃ e ∈ es, ∃ l ∈ e.lines, l.account = k := by
    intro k
    constructor
    · rintro ⟨x, hx, p, hp, rfl⟩
      obtain ⟨e, he, hex⟩ := forall₂_mem_right h1 (h3.same.mem_iff.1 hx)
      rw [hex.2] at hp
      obtain ⟨q, hq, rfl⟩ := List.mem_map.1 hp
      exact ⟨e, he, q, hq, rfl⟩
    · rintro ⟨e, he, q, hq, rfl⟩
      obtain ⟨x, hx, hex⟩ := forall₂_mem_left h1 he
      exact ⟨x, h3.same.mem_iff.2 hx, q.posting, by rw [hex.2]; exact List.mem_map_of_mem hq, rfl⟩
  have hsym : ReadableSymbols l.entries := by
    intro x hx p hp a hpa s hs
    obtain ⟨e, he, hex⟩ := forall₂_mem_right h1 (h3.same.mem_iff.1 hx)
    rw [hex.2] at hp
    obtain ⟨q, hq, rfl⟩ := List.mem_map.1 hp
    obtain ⟨⟨m, y⟩, hv, rfl⟩ := read_sym hpa
    simp only at hs
    subst hs
    obtain ⟨_, _, _, _, _, _, hw | ⟨sym, e1, e2, _⟩⟩ := (((h.entries e he).lines q hq).given m _ hv).2.2
    · cases hw.1
    · cases e1; exact e2
  have hpool : ∀ k, SeenBefore k es → ∀ pool, countAll k l.entries none = some pool →
      ∃ ms : List (Amount M), ms.Perm (es.flatMap (PEntry.readMoves k)) ∧ pool = ms.foldl Pool.add [] := by
    intro k hseen pool h5
    have hne : NoEnvelopeOf k l.entries := by
      intro x hx p hp he
      obtain ⟨e, _, hex⟩ := forall₂_mem_right h1 (h3.same.mem_iff.1 hx)
      rw [hex.2] at hp
      obtain ⟨q, _, rfl⟩ := List.mem_map.1 hp
      cases he
    rw [countAll_none k l.entries hne (seen_first h1 h3 hseen)] at h5
    split at h5
    · cases h5
      refine ⟨l.entries.flatMap fun x => x.movesOf k, ?_, rfl⟩
      rw [← all_moves (fun e he => (h.entries e he).sound) h1 k]
      exact h3.same.flatMap_right _
    · cases h5
  obtain ⟨r1, r2, r3⟩ := report_reads_back env hord l out hout (loaded_words env (fuel + 1) w _ path l h4) hsym (by
    intro k pool hk a ha
    rcases hfmt with hfmt | hfmt
    · exact hfmt a.mag
    · obtain ⟨ms, h5, rfl⟩ := hpool k (hfmt k).1 pool hk
      exact (hfmt k).2 ms h5 a ha)
  refine ⟨_, out, C79_report_printed env o c args w (w.cdParent path) out .balance fs hc ha l hl (.balance hout)
    (by simp) (by simp), rfl, r1, fun k => (r2 k).trans (hposts k), ?_⟩
  intro k ts hm hseen
  obtain ⟨pool, h5, h6⟩ := r3 k ts hm
  have hq : ∀ b ∈ pool, ∀ s, b.sym = some s → ValidSymbol '.' s :=
    (countAll_syms (fun o => ∀ s, o = some s → ValidSymbol '.' s) (by simp) k l.entries hsym none (by simp) pool h5).1
  obtain ⟨ms, h7, rfl⟩ := hpool k hseen pool h5
  exact ⟨ms, h7, forall₂_strengthen h6 fun t a ha hx => ⟨hx.1, hq a ha⟩⟩

/-- The currencies of a pool. -/
theorem pool_syms (ms : List (Amount M)) : ((ms.foldl Pool.add []).map Amount.sym).Nodup ∧
    ∀ s, s ∈ (ms.foldl Pool.add []).map Amount.sym ↔ s ∈ ms.map Amount.sym := by
  rw [poolOf_syms]
  obtain ⟨a1, a2⟩ := firstSeen_aux (ms.map Amount.sym) [] List.nodup_nil
  exact ⟨a1, fun s => by simpa using a2 s⟩

/-- C116. `silverfox balance` on a journal that declares accounts and has entries, as written: the report lists, in
order, exactly the accounts that occur in a line. For an account that is not left blank before it occurs with an
amount on an earlier day, every currency that was posted has one amount, and that amount is, to eight digits, the sum of
what the lines say; a blank line brings what is missing in its entry. No file changes. -/
theorem C116_from_text_to_report (env : Env) (hord : FairOrder env.ord) (o : Outside) (w : World) (accs : List Str)
    (es : List PEntry) (text path : Str) (h : WrittenJournal env accs es text) (hr : w.read path = some text)
    (hfuel : o.fuel ≠ 0) (c : Str) (args : List Str) (fs : List Flag) (hc : c.head? = some 'b') (ha : Spelled fs args)
    (hj : journalFor o fs = some path) :
    ∃ w' out, mainProgram Rat env o (c :: args) w = (w', .ok out) ∧ w'.file = w.file ∧
      (readReport out).Pairwise (fun a b => strLt a.1 b.1 = true) ∧
      (∀ k, k ∈ (readReport out).map Prod.fst ↔ ∃ e ∈ es, ∃ l ∈ e.lines, l.account = k) ∧
      ∀ k ts, (k, ts) ∈ readReport out → SeenBefore k es → ∃ cs : List (Option Str), cs.Nodup ∧
        (∀ s, s ∈ cs ↔ ∃ e ∈ es, ∃ v ∈ e.moves k, v.2 = s) ∧
        List.Forall₂ (fun t s => ∃ q : Rat, Amount.parse t '.' = .ok (⟨q, s⟩ : Amount Rat) ∧
          |q - writtenSum k s es| ≤ 1 / 200000000) ts cs := by
  obtain ⟨w', out, h1, h2, h3, h4, h5⟩ := written_report (M := Rat) env hord o w accs es text path h hr hfuel c args fs hc ha hj
    (Or.inl fmtOk_rat)
  refine ⟨w', out, h1, h2, h3, h4, ?_⟩
  intro k ts hm hseen
  obtain ⟨ms, hperm, h6⟩ := h5 k ts hm hseen
  have e1 : es.flatMap (PEntry.readMoves k) = (es.flatMap (PEntry.moves k)).map (fun v => (⟨v.1, v.2⟩ : Amount Rat)) := by
    rw [List.map_flatMap]
    exact List.flatMap_congr fun e he => (h.entries e he).moves_rat k
  rw [e1] at hperm
  have hsyms := pool_syms ms
  refine ⟨(ms.foldl Pool.add []).map Amount.sym, hsyms.1, ?_, ?_⟩
  · intro s
    rw [hsyms.2 s, (hperm.map Amount.sym).mem_iff]
    simp only [List.map_map, List.mem_map, List.mem_flatMap, Function.comp]
    constructor
    · rintro ⟨v, ⟨e, he, hv⟩, rfl⟩; exact ⟨e, he, v, hv, rfl⟩
    · rintro ⟨e, he, v, hv, rfl⟩; exact ⟨v, ⟨e, he, hv⟩, rfl⟩
  · rw [List.forall₂_map_right_iff]
    have hval : ∀ a ∈ ms.foldl Pool.add [], a.mag = writtenSum k a.sym es := by
      intro a ha
      have e1 : Pool.bal (ms.foldl Pool.add []) a.sym = a.mag := by
        rw [Pool.bal_eq, line_of_mem _ hsyms.1 a ha]; rfl
      rw [← e1, bal_foldl_add]
      show 0 + _ = _
      rw [zero_add, (hperm.map _).sum_eq, List.map_map]
      rfl
    refine forall₂_strengthen h6 ?_
    intro t a ha ⟨ht, hq⟩
    obtain ⟨q, k1, _, k2⟩ := C08_round_trip_exact a hq
    exact ⟨q, by rw [ht]; exact k1, by rw [← hval a ha]; exact k2⟩

/-! ### A journal -/

def exWrittenText : Str :=
  s%"account cash\naccount food\n2024/01/02 * pay\n cash $10.50\n food -10.5 $\n2024/01/05 ? eat\n food 3.25$\n cash"

def exWritten1 : PEntry where
  date := s%"2024/01/02"
  mark := s%"*"
  title := s%"pay"
  day := ⟨2024, 1, 2, by decide⟩
  lines := [⟨s%" ", s%"cash", s%" ", s%"$10.50", some (21 / 2, some s%"$")⟩,
    ⟨s%" ", s%"food", s%" ", s%"-10.5 $", some (-21 / 2, some s%"$")⟩]

def exWritten2 : PEntry where
  date := s%"2024/01/05"
  mark := s%"?"
  title := s%"eat"
  day := ⟨2024, 1, 5, by decide⟩
  lines := [⟨s%" ", s%"food", s%" ", s%"3.25$", some (13 / 4, some s%"$")⟩, ⟨s%" ", s%"cash", [], [], none⟩]

instance decIsWordHere (s : Str) : Decidable (isWord s) := by unfold isWord; infer_instance
instance decNoNlHere (s : Str) : Decidable (noNl s) := by unfold noNl; infer_instance

/-- It is written well. -/
theorem exWritten_ok : WrittenJournal (stdEnv june15) [s%"cash", s%"food"] [exWritten1, exWritten2] exWrittenText := by
  have hd : ValidSymbol '.' s%"$" := by decide
  have a1 : WrittenAmount s%"$10.50" (21 / 2) (some s%"$") :=
    ⟨s%"10.50", false, 1050, 2, ⟨s%"10", s%"50", by decide, by decide, by decide, by decide, by decide, by decide⟩,
      by norm_num, Or.inr ⟨_, rfl, hd, by decide⟩⟩
  have a2 : WrittenAmount s%"-10.5 $" (-21 / 2) (some s%"$") :=
    ⟨s%"-10.5", true, 105, 1, ⟨s%"10", s%"5", by decide, by decide, by decide, by decide, by decide, by decide⟩,
      by norm_num, Or.inr ⟨_, rfl, hd, by decide⟩⟩
  have a3 : WrittenAmount s%"3.25$" (13 / 4) (some s%"$") :=
    ⟨s%"3.25", false, 325, 2, ⟨s%"3", s%"25", by decide, by decide, by decide, by decide, by decide, by decide⟩,
      by norm_num, Or.inr ⟨_, rfl, hd, by decide⟩⟩
  refine ⟨by decide +kernel, by decide +kernel, ?_⟩
  intro e he
  simp only [List.mem_cons, List.not_mem_nil, or_false] at he
  rcases he with rfl | rfl
  · refine ⟨by decide +kernel, by decide, by decide, by decide +kernel, ?_, by decide, ?_⟩
    · intro l hl
      simp only [exWritten1, List.mem_cons, List.not_mem_nil, or_false] at hl
      rcases hl with rfl | rfl
      · refine ⟨by decide, by decide, by decide, by decide, by decide, by decide +kernel, by simp, ?_⟩
        intro q s h; cases h; exact ⟨by decide, by decide +kernel, a1⟩
      · refine ⟨by decide, by decide, by decide, by decide, by decide, by decide +kernel, by simp, ?_⟩
        intro q s h; cases h; exact ⟨by decide, by decide +kernel, a2⟩
    · rintro ⟨l, hl, hv⟩
      simp only [exWritten1, List.mem_cons, List.not_mem_nil, or_false] at hl
      rcases hl with rfl | rfl <;> cases hv
  · refine ⟨by decide +kernel, by decide, by decide, by decide +kernel, ?_, by decide, ?_⟩
    · intro l hl
      simp only [exWritten2, List.mem_cons, List.not_mem_nil, or_false] at hl
      rcases hl with rfl | rfl
      · refine ⟨by decide, by decide, by decide, by decide, by decide, by decide +kernel, by simp, ?_⟩
        intro q s h; cases h; exact ⟨by decide, by decide +kernel, a3⟩
      · refine ⟨by decide, by decide, by decide, by decide, by decide, by decide +kernel, by simp, ?_⟩
        intro q s h; cases h
    · intro _
      exact ⟨by decide, some s%"$", by decide⟩

/-- The accounts occur on an earlier day before they are left blank, and the sums are not zero. -/
example : SeenBefore s%"cash" [exWritten1, exWritten2] ∧ SeenBefore s%"food" [exWritten1, exWritten2] ∧
    writtenSum s%"cash" (some s%"$") [exWritten1, exWritten2] = 29 / 4 ∧
    writtenSum s%"food" (some s%"$") [exWritten1, exWritten2] = -29 / 4 := by
  unfold SeenBefore
  decide +kernel

/-- What is printed. -/
example : (disk [("j", String.ofList exWrittenText)]).read s%"j" = some exWrittenText ∧
    ∃ out, (mainProgram Rat (stdEnv june15) exOutside [s%"balance", s%"-f", s%"j"]
      (disk [("j", String.ofList exWrittenText)])).2 = .ok out ∧
      readReport out = [(s%"cash", [s%"$ 7.25"]), (s%"food", [s%"$-7.25"])] := by decide +kernel

end Silverfox
