import Verif.Props.EndToEnd
import Verif.Props.Written
import Verif.Props.Reports
import Verif.Props.FillDays
import Verif.Props.Comments

/-
C121: from the text of a journal with envelopes to the text of its envelope report.
-/

namespace Silverfox

set_option linter.unusedSectionVars false

/-! ### Specification: what is written -/

/-- A line that moves money into an envelope or out of it, and what it means. -/
structure MLine where
  indent : Str
  gap1 : Str
  account : Str
  gap2 : Str
  envelope : Str
  gap3 : Str
  amount : Str
  value : Rat × Option Str

def MLine.text (m : MLine) : Str :=
  m.indent ++ (s%"envelope" ++ m.gap1 ++ (m.account ++ m.gap2 ++ (m.envelope ++ m.gap3 ++ m.amount)))

/-- Specification: the line is written well. -/
structure MLine.Ok (m : MLine) : Prop where
  indent : allWs m.indent ∧ m.indent ≠ []
  gap1 : allWs m.gap1 ∧ m.gap1 ≠ []
  gap2 : allWs m.gap2 ∧ m.gap2 ≠ []
  gap3 : allWs m.gap3 ∧ m.gap3 ≠ []
  words : isWord m.account ∧ isWord m.envelope
  plain : NoComment m.text ∧ noNl m.text
  amount : WrittenAmount m.amount m.value.1 m.value.2

/-- A line of an entry: an ordinary one (see `PLine`), or one that names an envelope. -/
inductive BLine where
  | posting (l : PLine)
  | move (m : MLine)

def BLine.text : BLine → Str
  | .posting l => l.text
  | .move m => m.text

/-- An entry as written. -/
structure BEntry where
  date : Str
  mark : Str
  title : Str
  day : Date
  lines : List BLine

/-- The ordinary lines. -/
def BEntry.plain (b : BEntry) : PEntry :=
  ⟨b.date, b.mark, b.title, b.day, b.lines.filterMap fun l => match l with
    | .posting p => some p
    | .move _ => none⟩

/-- The lines that name envelopes. -/
def BEntry.moves (b : BEntry) : List MLine := b.lines.filterMap fun l => match l with
  | .posting _ => none
  | .move m => some m

/-- Specification: the entry is written well. Beside lines that name envelopes no line is left blank. -/
structure BEntry.Ok (env : Env) (accs : List Str) (b : BEntry) : Prop where
  plain : b.plain.Ok env accs
  moves : ∀ m ∈ b.moves, m.Ok
  full : b.moves ≠ [] → ∀ l ∈ b.plain.lines, l.value ≠ none

/-- The accounts of the `for` lines of an envelope. -/
def MeantDecl.fors {M : Type} (x : MeantDecl M) : List Str := x.1.props.filterMap fun p => match p.2.2 with
  | .forAccount acc => some acc
  | _ => none

/-- The amount of an envelope: the last one written, or nothing. -/
def MeantDecl.target {M : Type} [Mag M] (x : MeantDecl M) : Amount M :=
  ((x.1.props.filterMap fun p => match p.2.2 with
    | .amount _ a => some a
    | _ => none).getLast?).getD Amount.zero

/-- How an envelope is filled: the last way written, or not at all. -/
def MeantDecl.way {M : Type} (x : MeantDecl M) : Funding :=
  ((x.1.props.filterMap fun p => match p.2.2 with
    | .funding f => some f
    | _ => none).getLast?).getD .manual

/-- Specification: an envelope is declared well (see C91), its lines are indented, and its amounts are written like
those of the entries. -/
structure DeclOk (env : Env) (x : MeantDecl Rat) : Prop where
  ok : x.1.Ok env s%"%Y/%m/%d" '.' x.2.1 x.2.2
  indented : x.1.Indented
  amounts : ∀ p ∈ x.1.props, ∀ t a, p.2.2 = .amount t a → WrittenAmount t a.mag a.sym

/-- An account and its envelopes. -/
abbrev DeclAccount := Str × List (MeantDecl Rat)

/-- Specification: the lines of the text are these, but for blank lines and comment lines, blanks at the ends of lines,
and comments at the ends of lines (other than the first line of an envelope: see C49). -/
def HasLines (text : Str) (ls : List Str) : Prop :=
  ∃ plain remarked, inked plain = ls ∧ Commented false plain remarked ∧ (∀ l ∈ plain ++ remarked, noNl l) ∧
    (inked remarked).map trimEnd = (inked (lines text)).map trimEnd

/-- Specification: a text that declares accounts with envelopes, each account once, then has entries. -/
structure EnvelopeJournal (env : Env) (accs : List DeclAccount) (es : List BEntry) (text : Str) : Prop where
  text : HasLines text ((accs.flatMap fun p => (s%"account " ++ p.1) :: p.2.flatMap (·.1.lines)) ++
    es.flatMap fun e => e.plain.header :: e.lines.map BLine.text)
  once : (accs.map Prod.fst).Nodup
  names : ∀ p ∈ accs, isWord p.1 ∧ NoComment p.1
  envelopes : ∀ p ∈ accs, ∀ x ∈ p.2, DeclOk env x
  distinct : ∀ p ∈ accs, ∀ k, ((ofKind k p.2).map (·.1.name)).Nodup
  entries : ∀ e ∈ es, e.Ok env (accs.map Prod.fst)

/-- Specification: the entry has a line for the account and one for an account the envelope is for. -/
def BEntry.Touches (k : Str) (x : MeantDecl Rat) (b : BEntry) : Prop :=
  (∃ l ∈ b.plain.lines, l.account = k) ∧ ∃ l ∈ b.plain.lines, l.account ≠ k ∧ l.account ∈ x.fors

instance decTouches (k : Str) (x : MeantDecl Rat) (b : BEntry) : Decidable (b.Touches k x) := by
  unfold BEntry.Touches; infer_instance

/-- Specification: the schedules have dates, and what moves in an envelope is in its currency. -/
structure EnvelopesFit (today : Date) (accs : List DeclAccount) (es : List BEntry) : Prop where
  today : today.Inner
  schedule : ∀ p ∈ accs, ∀ x ∈ p.2, x.2.1.Safe ∧ x.2.1.Inner
  named : ∀ p ∈ accs, ∀ x ∈ p.2, ∀ b ∈ es, ∀ m ∈ b.moves, m.account = p.1 → m.envelope = x.1.name →
    m.value.2 = x.target.sym
  spent : ∀ p ∈ accs, ∀ x ∈ p.2, ∀ b ∈ es, b.moves = [] → b.Touches p.1 x → ∀ l ∈ b.plain.lines, ∀ v,
    b.plain.worth l = some v → v.2 = x.target.sym

/-! ### Specification: what it means -/

/-- Specification: what the lines of the accounts in question are worth together. -/
def PEntry.gain (e : PEntry) (f : Str → Bool) : Rat :=
  ((e.lines.filterMap fun l => if f l.account then e.worth l else none).map Prod.fst).sum

/-- Specification: what an entry that names no envelope moves in one: the smaller of what the accounts the envelope is
for gain and what the account of the envelope loses or gains, taken out if the account loses. -/
def PEntry.automatic (k : Str) (fors : List Str) (e : PEntry) : Rat :=
  let gained := e.gain fun n => n != k && fors.contains n
  let change := e.gain fun n => n == k
  if change < 0 then -min gained |change| else min gained |change|

/-- Specification: what an entry moves in an envelope. -/
def BEntry.movesIn (k : Str) (x : MeantDecl Rat) (b : BEntry) : List Rat :=
  if b.moves ≠ [] then
    (b.moves.filter fun m => decide (m.account = k ∧ m.envelope = x.1.name)).map fun m => m.value.1
  else if b.Touches k x then [b.plain.automatic k x.fors]
  else []

/-- Specification: is it for now? What is taken out is; what is put in before the last due date is. -/
def ForNow (last : Option Date) (day : Date) (v : Rat) : Prop :=
  v < 0 ∨ ∃ d, last = some d ∧ Date.lt day d = true

instance decForNow (last : Option Date) (day : Date) (v : Rat) : Decidable (ForNow last day v) :=
  match last with
  | none => if h : v < 0 then isTrue (Or.inl h) else isFalse (by rintro (h' | ⟨d, hd, _⟩); exacts [h h', by cases hd])
  | some d => if h : v < 0 then isTrue (Or.inl h) else
      if h2 : Date.lt day d = true then isTrue (Or.inr ⟨d, rfl, h2⟩)
      else isFalse (by rintro (h' | ⟨d', hd, h3⟩); exacts [h h', by cases hd; exact h2 h3])

/-- Specification: what there is now. -/
def nowOf (last : Option Date) (k : Str) (x : MeantDecl Rat) (es : List BEntry) : Rat :=
  (es.flatMap fun b => (b.movesIn k x).map fun v => if ForNow last b.day v then v else 0).sum

/-- Specification: what is saved for the next time. -/
def nextOf (last : Option Date) (k : Str) (x : MeantDecl Rat) (es : List BEntry) : Rat :=
  (es.flatMap fun b => (b.movesIn k x).map fun v => if ForNow last b.day v then 0 else v).sum

/-- Specification: what an envelope holds. -/
def heldOf (k : Str) (x : MeantDecl Rat) (es : List BEntry) : Rat :=
  (es.flatMap (BEntry.movesIn k x)).sum

/-- Specification: the entry does something to the envelope: a line names it, or money moves. -/
def BEntry.Acts (k : Str) (x : MeantDecl Rat) (b : BEntry) : Prop :=
  b.movesIn k x ≠ [] ∧ (b.moves = [] → b.movesIn k x ≠ [0])

instance decActs (k : Str) (x : MeantDecl Rat) (b : BEntry) : Decidable (b.Acts k x) := by
  unfold BEntry.Acts; infer_instance

/-- Specification: the day of the last entry, as they stand, that does something to the envelope. -/
def lastMoved (k : Str) (x : MeantDecl Rat) (es : List BEntry) : Option Date :=
  ((es.filter fun b => decide (b.Acts k x)).getLast?).map BEntry.day

/-- Specification: what is available in a currency: what the lines bring to the account, without what its envelopes
hold. -/
def availableOf (p : DeclAccount) (s : Option Str) (es : List BEntry) : Rat :=
  writtenSum p.1 s (es.map BEntry.plain) - ((p.2.filter fun x => x.target.sym = s).map fun x => heldOf p.1 x es).sum

variable {M : Type} [Mag M]

/-! ### Reading lines -/

/-- The number that is read. -/
def readMag (t : Str) : M :=
  match (Amount.parse t '.' : Res (Amount M)) with
  | .ok a => a.mag
  | .error _ => Mag.zero

theorem WrittenAmount.reads [ReadsNumerals M] {t : Str} {q : Rat} {s : Option Str} (h : WrittenAmount t q s) :
    Amount.parse t '.' = .ok (⟨readMag t, s⟩ : Amount M) := by
  obtain ⟨m, hm⟩ := h.parse (M := M)
  unfold readMag
  rw [hm]

theorem WrittenAmount.readMag_rat {t : Str} {q : Rat} {s : Option Str} (h : WrittenAmount t q s) :
    (readMag t : Rat) = q := by
  unfold readMag
  rw [h.parse_rat]

/-- The words of an amount put together are that amount. -/
theorem WrittenAmount.close {t : Str} {q : Rat} {s : Option Str} (h : WrittenAmount t q s) :
    WrittenAmount (splitWs t).flatten q s := by
  obtain ⟨w, neg, d, k, h1, h2, h3⟩ := h
  have hw : isWord w := ⟨h1.chars.1, h1.noWs⟩
  refine ⟨w, neg, d, k, h1, h2, ?_⟩
  rcases h3 with ⟨hs, rfl⟩ | ⟨sym, hs, hv, ht⟩
  · left
    rw [splitWs_word hw]; exact ⟨hs, by simp⟩
  · right
    refine ⟨sym, hs, hv, ?_⟩
    have hs : isWord sym := ⟨hv.1, fun c hc => (hv.2 c hc).1⟩
    have hcat : ∀ a b : Str, isWord a → isWord b → isWord (a ++ b) := fun a b ha hb =>
      ⟨by simp [ha.1], fun c hc => (List.mem_append.1 hc).elim (ha.2 c) (hb.2 c)⟩
    simp only [List.mem_cons, List.not_mem_nil, or_false] at ht
    rcases ht with rfl | rfl | rfl | rfl
    · rw [splitWs_word (hcat _ _ hs hw)]; simp
    · rw [splitWs_word (hcat _ _ hw hs)]; simp
    · rw [show sym ++ s%" " ++ w = sym ++ ' ' :: w by simp, splitWs_words2 hs hw]; simp
    · rw [show w ++ s%" " ++ sym = w ++ ' ' :: sym by simp, splitWs_words2 hw hs]; simp

/-- The posting that is read. -/
def MLine.posting (m : MLine) : EnvPosting M :=
  ⟨m.account, m.envelope, ⟨readMag (splitWs m.amount).flatten, m.value.2⟩⟩

def BLine.read : BLine → Posting M
  | .posting l => l.posting
  | .move m => .envelope m.posting

theorem MLine.Ok.splitWs {m : MLine} (h : m.Ok) :
    splitWs m.text = s%"envelope" :: m.account :: m.envelope :: Silverfox.splitWs m.amount := by
  unfold MLine.text
  rw [splitWs_ws_left h.indent.1, splitWs_cons_gap (by decide) h.gap1.1 h.gap1.2,
    splitWs_cons_gap h.words.1 h.gap2.1 h.gap2.2, splitWs_cons_gap h.words.2 h.gap3.1 h.gap3.2]

theorem MLine.Ok.parse [ReadsNumerals M] {m : MLine} (h : m.Ok) (names : List Str) (line : Str)
    (hl : Silverfox.splitWs (rc line) = Silverfox.splitWs m.text) :
    Posting.parse line '.' names = .ok (.envelope m.posting : Posting M) := by
  have h1 : Silverfox.splitWs (trim (removeComments line)) =
      s%"envelope" :: m.account :: m.envelope :: Silverfox.splitWs m.amount := by
    rw [splitWs_trim, removeComments_eq_rc, hl, h.splitWs]
  unfold Posting.parse
  simp only [h1, if_true, EnvPosting.parse, List.drop_succ_cons, List.drop_zero, h.amount.close.reads, bind,
    Except.bind, pure, Except.pure]
  rfl

/-- A line that is indented and not blank, without a comment, continues an item. -/
theorem indented_effective {t indent body : Str} (he : t = indent ++ body) (hi : allWs indent ∧ indent ≠ [])
    (hb : ¬ allWs body) (hp : NoComment t ∧ noNl t) :
    (∃ c r, effective t = c :: r ∧ isWs c = true) ∧ noNl (effective t) ∧ ¬ allWs (effective t) := by
  rw [effective_plain hp.1]
  refine ⟨?_, noNl_trimEnd hp.2, ?_⟩
  · obtain ⟨c, r, hc⟩ := List.exists_cons_of_ne_nil hi.2
    exact ⟨c, r ++ trimEnd body, by rw [he, trimEnd_ink _ hb, hc]; rfl, hi.1 c (by simp [hc])⟩
  · intro ha
    obtain ⟨b, hb', e1, _⟩ := trimEnd_spec t
    have h1 : allWs t := by rw [e1]; exact allWs_append.2 ⟨ha, hb'⟩
    rw [he] at h1
    exact hb (allWs_append.1 h1).2

theorem MLine.Ok.effective {m : MLine} (h : m.Ok) :
    (∃ c r, effective m.text = c :: r ∧ isWs c = true) ∧ noNl (effective m.text) ∧ ¬ allWs (effective m.text) := by
  refine indented_effective rfl h.indent ?_ h.plain
  intro ha
  have := (allWs_append.1 (allWs_append.1 ha).1).1
  exact absurd this (by decide)

/-- What the lines of an entry are. -/
theorem BEntry.Ok.line {env : Env} {accs : List Str} {b : BEntry} (h : b.Ok env accs) {l : BLine} (hl : l ∈ b.lines) :
    (∀ p, l = .posting p → p.Ok accs) ∧ (∀ m, l = .move m → m.Ok) := by
  constructor
  · rintro p rfl
    exact h.plain.lines p (List.mem_filterMap.2 ⟨_, hl, rfl⟩)
  · rintro m rfl
    exact h.moves m (List.mem_filterMap.2 ⟨_, hl, rfl⟩)

theorem BEntry.Ok.effective {env : Env} {accs : List Str} {b : BEntry} (h : b.Ok env accs) {l : BLine}
    (hl : l ∈ b.lines) :
    (∃ c r, effective l.text = c :: r ∧ isWs c = true) ∧ noNl (effective l.text) ∧ ¬ allWs (effective l.text) := by
  obtain ⟨h1, h2⟩ := h.line hl
  cases l with
  | posting p => exact (h1 p rfl).effective
  | move m => exact (h2 m rfl).effective

theorem BEntry.Ok.parseLine [ReadsNumerals M] {env : Env} {accs names : List Str} {b : BEntry} (h : b.Ok env accs)
    (hn : ∀ k ∈ accs, k ∈ names) {l : BLine} (hl : l ∈ b.lines) :
    Posting.parse (trim (Silverfox.effective l.text)) '.' names = .ok (l.read : Posting M) := by
  obtain ⟨h1, h2⟩ := h.line hl
  cases l with
  | posting p => exact (h1 p rfl).parse hn _ (splitWs_rc_effective (h1 p rfl).plain.1)
  | move m => exact (h2 m rfl).parse names _ (splitWs_rc_effective (h2 m rfl).plain.1)

/-! ### Reading entries -/

/-- The entry that is read. -/
def BEntryOf (b : BEntry) (x : Entry M) : Prop :=
  (x.date = b.day ∧ [x.status.toChar] = b.mark ∧ x.description = joinWith s%" " (splitWs b.title)) ∧
    x.postings = b.lines.map BLine.read

theorem plain_lines {b : BEntry} (h : b.moves = []) : b.lines = b.plain.lines.map BLine.posting := by
  have key : ∀ ls : List BLine, (ls.filterMap fun l => match l with
      | .posting _ => none
      | .move m => some m) = ([] : List MLine) →
      ls = (ls.filterMap fun l => match l with
        | .posting p => some p
        | .move _ => none).map BLine.posting := by
    intro ls
    induction ls with
    | nil => intro _; rfl
    | cons l ls ih =>
      intro h
      cases l with
      | posting p =>
        rw [List.filterMap_cons_none (by rfl)] at h
        rw [List.filterMap_cons_some (by rfl), List.map_cons, ← ih h]
      | move m => rw [List.filterMap_cons_some (by rfl)] at h; cases h
  exact key b.lines h

theorem BEntryOf.plain {b : BEntry} (h : b.moves = []) {x : Entry M} (hx : BEntryOf b x) : EntryOf b.plain x := by
  refine ⟨hx.1, ?_⟩
  rw [hx.2, plain_lines h, List.map_map]
  rfl

theorem mem_plain {b : BEntry} {p : PLine} : p ∈ b.plain.lines ↔ .posting p ∈ b.lines := by
  unfold BEntry.plain
  simp only [List.mem_filterMap]
  constructor
  · rintro ⟨l, h1, h2⟩
    cases l with
    | posting q => cases h2; exact h1
    | move m => cases h2
  · intro h; exact ⟨_, h, rfl⟩

theorem mem_moves {b : BEntry} {m : MLine} : m ∈ b.moves ↔ .move m ∈ b.lines := by
  unfold BEntry.moves
  simp only [List.mem_filterMap]
  constructor
  · rintro ⟨l, h1, h2⟩
    cases l with
    | posting q => cases h2
    | move m => cases h2; exact h1
  · intro h; exact ⟨_, h, rfl⟩

theorem BEntry.Ok.valid {env : Env} {accs : List Str} {b : BEntry} (h : b.Ok env accs) (x : Entry M)
    (hx : x.postings = b.lines.map BLine.read) : x.validate = .ok () := by
  by_cases hm : b.moves = []
  · refine h.plain.oneSymbol x ?_
    rw [hx, plain_lines hm, List.map_map]
    rfl
  · rw [(C15_validate_iff x).1, hx]
    have : blankCount (b.lines.map (BLine.read (M := M))) = 0 := by
      unfold blankCount
      rw [List.countP_eq_zero]
      intro p hp
      obtain ⟨l, hl, rfl⟩ := List.mem_map.1 hp
      cases l with
      | move m => simp [BLine.read, Posting.amount]
      | posting q =>
        have := h.full hm q (mem_plain.2 hl)
        cases hv : q.value with
        | none => exact absurd hv this
        | some v => simp [BLine.read, PLine.posting, PLine.read, Posting.amount, hv]
    rw [this]
    exact ⟨Nat.zero_le _, Or.inl rfl⟩

theorem BEntry.Ok.parse [ReadsNumerals M] {env : Env} {accs names : List Str} {b : BEntry} (h : b.Ok env accs)
    (hn : ∀ k ∈ accs, k ∈ names) :
    ∃ x : Entry M, BEntryOf b x ∧
      Entry.parse env (Silverfox.effective b.plain.header ++ restOf (b.lines.map BLine.text)) s%"%Y/%m/%d" '.' names =
        .ok x := by
  have hP := h.plain
  have hne : ∀ l ∈ b.lines.map BLine.text, Silverfox.effective l ≠ [] := by
    intro l hl
    obtain ⟨p, hp, rfl⟩ := List.mem_map.1 hl
    obtain ⟨c, r, hc, _⟩ := (h.effective hp).1
    rw [hc]; simp
  have hhead : ¬ allWs (Silverfox.effective b.plain.header) := by
    intro ha
    have h1 := splitWs_rc_effective hP.plain.1
    rw [hP.header.1, splitWs_rc_trim] at h1
    have h2 : rc (Silverfox.effective b.plain.header) = Silverfox.effective b.plain.header := by
      rw [effective_plain hP.plain.1, rc_trimEnd ((noComment_iff _).1 hP.plain.1)]
    rw [h2, splitWs_allWs ha] at h1
    cases h1
  rw [restOf_full _ hne, Entry.parse_ink, inkLines_chunk _ ?_
    (by rw [effective_plain hP.plain.1]; exact noNl_trimEnd hP.plain.2) hhead]
  · have hps : ∀ ls : List BLine, (∀ l ∈ ls, l ∈ b.lines) →
        Entry.parsePostings '.' names (((ls.map BLine.text).map Silverfox.effective).map trim) =
          .ok (ls.map (BLine.read (M := M))) := by
      intro ls
      induction ls with
      | nil => intro _; rfl
      | cons l ls ih =>
        intro hl
        have hl1 := hl l (by simp)
        simp only [List.map_cons, Entry.parsePostings]
        rw [if_neg (by rw [trim_trim, List.isEmpty_iff, trim_eq_nil]; exact (h.effective hl1).2.2),
          ih fun x hx => hl x (by simp [hx]), h.parseLine hn hl1]
        rfl
    have hsay : HeaderSays env s%"%Y/%m/%d" b.plain.header
        (⟨b.day, if b.mark = s%"?" then .pending else if b.mark = s%"~" then .cleared else .reconciled,
          joinWith s%" " (splitWs b.title), none, none, b.lines.map BLine.read⟩ : Entry M) := by
      refine ⟨_, _, _, hP.header.1, hP.date.2.2, ?_, Or.inl ⟨?_, rfl, rfl⟩, rfl⟩
      · have : b.mark ∈ _ := hP.mark
        simp only [List.mem_cons, List.not_mem_nil, or_false] at this
        show (b.mark = _ ∧ _ ∨ b.mark = _ ∧ _ ∨ b.mark = _ ∧ _)
        rcases this with h | h | h <;> simp [h]
      · intro hm
        rcases mem_joinWith hm with hm | ⟨t, ht, hm⟩
        · exact absurd hm (by decide)
        · exact hP.title (((splitWs_infix _).1 t ht).subset hm)
    obtain ⟨e0, h1, h2⟩ := (parseHeader_iff env _ (trim (Silverfox.effective b.plain.header)) b.plain.header
      (splitWs_rc_effective hP.plain.1) _).2 hsay
    refine ⟨{ e0 with postings := b.lines.map BLine.read },
      ⟨⟨congrArg Entry.date h2, ?_, congrArg Entry.description h2⟩, rfl⟩, ?_⟩
    · rw [congrArg Entry.status h2]
      have : b.mark ∈ _ := hP.mark
      simp only [List.mem_cons, List.not_mem_nil, or_false] at this
      rcases this with h | h | h <;> rw [h] <;> rfl
    simp only [h1, bind, Except.bind, hps b.lines fun _ h => h]
    rw [h.valid _ rfl]
    rfl
  · intro l hl
    obtain ⟨t, ht, rfl⟩ := List.mem_map.1 hl
    obtain ⟨p, hp, rfl⟩ := List.mem_map.1 ht
    exact (h.effective hp).2

theorem BEntry.Ok.blankAmount {env : Env} {accs : List Str} {b : BEntry} (h : b.Ok env accs) {x : Entry M}
    (hx : BEntryOf b x) (hb : ∃ p ∈ x.postings, p.amount = none) : b.moves = [] ∧ ∃ a : Amount M,
      b.plain.readRest = some a ∧ x.blankAmount = .ok (some a) := by
  obtain ⟨p, hp, ha⟩ := hb
  rw [hx.2] at hp
  obtain ⟨l, hl, rfl⟩ := List.mem_map.1 hp
  cases l with
  | move m => simp [BLine.read, Posting.amount] at ha
  | posting q =>
    have hv : q.value = none := by simpa [BLine.read, PLine.posting, PLine.read, Posting.amount] using ha
    have hm : b.moves = [] := by
      by_contra hne
      exact h.full hne q (mem_plain.2 hl) hv
    exact ⟨hm, h.plain.sound.blankAmount (hx.plain hm) ⟨q, mem_plain.2 hl, hv⟩⟩

/-- What the ordinary lines bring to an account. -/
theorem BEntryOf.movesOf {env : Env} {accs : List Str} {b : BEntry} (h : b.Ok env accs) {x : Entry M}
    (hx : BEntryOf b x) (k : Str) : x.movesOf k = b.plain.readMoves k := by
  by_cases hm : b.moves = []
  · exact (hx.plain hm).moves h.plain.sound k
  · have hfull := h.full hm
    have key : ∀ ls : List BLine, (∀ l ∈ ls, l ∈ b.lines) →
        ((ls.map BLine.read).filterMap fun p => match p with
          | .classic c => if c.account = k then x.worthOf c else none
          | .envelope _ => none) =
        (ls.filterMap fun l => match l with
          | .posting p => some p
          | .move _ => none).filterMap fun l => if l.account = k then b.plain.readWorth l else none := by
      intro ls
      induction ls with
      | nil => intro _; rfl
      | cons l ls ih =>
        intro hl
        have ih := ih fun j hj => hl j (by simp [hj])
        cases l with
        | move m => simpa [BLine.read] using ih
        | posting q =>
          cases hv : q.value with
          | none => exact absurd hv (hfull q (mem_plain.2 (hl _ (by simp))))
          | some v =>
            have hw : x.worthOf ⟨q.account, q.read, none, none⟩ = b.plain.readWorth q := by
              unfold Entry.worthOf PEntry.readWorth PLine.read
              rw [hv]
              rfl
            rw [List.map_cons, List.filterMap_cons, List.filterMap_cons_some (by rfl), List.filterMap_cons]
            simp only [BLine.read, PLine.posting, hw]
            by_cases hk : q.account = k
            · simp only [hk, if_true]
              cases (b.plain.readWorth q : Option (Amount M)) with
              | none => simpa using ih
              | some v => simpa using ih
            · simp only [hk, if_false]
              exact ih
    unfold Entry.movesOf PEntry.readMoves
    rw [hx.2]
    refine Eq.trans (List.filterMap_congr fun p _ => ?_) (key b.lines fun _ h => h)
    cases p <;> rfl

/-! ### Reading declarations -/

/-- The line as it is read. -/
def PropLine.into (M : Type) [Mag M] : PropLine Rat → PropLine M
  | .forAccount a => .forAccount a
  | .amount t a => .amount t ⟨readMag t, a.sym⟩
  | .funding f => .funding f

/-- The declaration as it is read. -/
def EnvDecl.into (M : Type) [Mag M] (d : EnvDecl Rat) : EnvDecl M :=
  ⟨d.indent, d.kind, d.gap, d.name, d.due, d.starting, d.props.map fun p => (p.1, p.2.1, p.2.2.into M)⟩

def declInto (M : Type) [Mag M] (x : MeantDecl Rat) : MeantDecl M := (x.1.into M, x.2)

theorem into_value (p : PropLine Rat) : (p.into M).value = p.value ∧ (p.into M).key = p.key := by
  cases p <;> exact ⟨rfl, rfl⟩

theorem into_lines (d : EnvDecl Rat) : (d.into M).lines = d.lines := by
  unfold EnvDecl.lines EnvDecl.propLines EnvDecl.into
  rw [List.map_map]
  refine congrArg₂ List.cons rfl (List.map_congr_left fun p _ => ?_)
  simp only [Function.comp, PropLine.text, into_value]

theorem PropLine.Ok.into [ReadsNumerals M] {p : PropLine Rat} (h : p.Ok '.')
    (ha : ∀ t a, p = .amount t a → WrittenAmount t a.mag a.sym) : (p.into M).Ok '.' := by
  cases p with
  | forAccount a => exact ⟨h.noComment, h.oneLine, h.first, h.last, h.means⟩
  | amount t a => exact ⟨h.noComment, h.oneLine, h.first, h.last, (ha t a rfl).reads⟩
  | funding f => exact ⟨h.noComment, h.oneLine, h.first, h.last, trivial⟩

theorem DeclOk.into [ReadsNumerals M] {env : Env} {x : MeantDecl Rat} (h : DeclOk env x) :
    (declInto M x).1.Ok env s%"%Y/%m/%d" '.' (declInto M x).2.1 (declInto M x).2.2 ∧ (declInto M x).1.Indented := by
  refine ⟨⟨h.ok.indent, h.ok.gap, h.ok.name, h.ok.due, h.ok.starting, ?_⟩, h.indented.1, ?_⟩
  · intro p hp
    obtain ⟨q, hq, rfl⟩ := List.mem_map.1 hp
    obtain ⟨q1, q2, q3, q4, q5⟩ := h.ok.props q hq
    exact ⟨q1, q2, q3, q4, q5.into (h.amounts q hq)⟩
  · intro p hp
    obtain ⟨q, hq, rfl⟩ := List.mem_map.1 hp
    exact h.indented.2 q hq

theorem into_ofKind (k : EnvelopeKind) (ds : List (MeantDecl Rat)) :
    ofKind k (ds.map (declInto M)) = (ofKind k ds).map (declInto M) := by
  unfold ofKind
  rw [List.filter_map]
  rfl

theorem into_flatMap (ds : List (MeantDecl Rat)) :
    ((ds.map (declInto M)).flatMap fun x => x.1.lines) = ds.flatMap fun x => x.1.lines := by
  rw [List.flatMap_map]
  exact List.flatMap_congr fun x _ => into_lines x.1

theorem mapInsert_fresh {α : Type} (m : List (Str × α)) (k : Str) (v : α) (h : k ∉ m.map Prod.fst) :
    mapInsert m k v = m ++ [(k, v)] := by
  induction m with
  | nil => rfl
  | cons p m ih =>
    simp only [List.map_cons, List.mem_cons, not_or] at h
    rw [mapInsert, if_neg (fun e => h.1 e.symm), ih h.2]
    rfl

theorem effective_id {l : Str} (h1 : rc l = l) (h2 : ∃ r c, l = r ++ [c] ∧ isWs c = false) : effective l = l := by
  obtain ⟨r, c, rfl, hc⟩ := h2
  unfold effective
  rw [trimEnd_id (.inr ⟨r, c, rfl, hc⟩), removeComments_eq_rc, h1]

/-- The account that is declared, as it is read. -/
def readAccount (M : Type) [Mag M] (p : DeclAccount) : Account M := declaredAccount p.1 (p.2.map (declInto M))

theorem decl_effective [ReadsNumerals M] {env : Env} {x : MeantDecl Rat} (h : DeclOk env x) (l : Str)
    (hl : l ∈ x.1.lines) : effective l = l ∧ ∃ c r, l = c :: r ∧ isWs c = true := by
  obtain ⟨h1, h2⟩ := decl_rc h.ok h.indented l hl
  refine ⟨effective_id h1 (decl_lines h.ok l (List.mem_cons_of_mem _ hl)).2, ?_⟩
  cases l with
  | nil => simp at h2
  | cons c r => exact ⟨c, r, rfl, by simpa using h2⟩

/-- A declaration of an account with envelopes is read. -/
theorem declared_reading [ReadsNumerals M] (env : Env) (p : DeclAccount) (hn : isWord p.1 ∧ NoComment p.1)
    (he : ∀ x ∈ p.2, DeclOk env x) (hd : ∀ k, ((ofKind k p.2).map (·.1.name)).Nodup) (l : Ledger M)
    (h1 : l.decimal = '.') (h2 : l.dateFormat = s%"%Y/%m/%d") :
    Reading env (effective (s%"account " ++ p.1) ++ restOf (p.2.flatMap fun x => x.1.lines)) l
      { l with accounts := mapInsert l.accounts p.1 (readAccount M p) } := by
  have hw : isWord s%"account" ∧ NoComment s%"account" := by decide
  have hline : effective (s%"account " ++ p.1) = s%"account" ++ s%" " ++ p.1 := by
    refine effective_id ?_ ⟨s%"account" ++ s%" " ++ p.1.dropLast, p.1.getLast hn.1.1, ?_, hn.1.2 _ (List.getLast_mem _)⟩
    · rw [show s%"account " ++ p.1 = s%"account" ++ (s%" " ++ p.1) from rfl,
        rc_gap ((noComment_iff _).1 hw.2) (by decide) (by decide), (noComment_iff _).1 hn.2]
    · rw [List.append_assoc (s%"account" ++ s%" "), List.dropLast_append_getLast]
      rfl
  have hrest : restOf (p.2.flatMap fun x => x.1.lines) = ((p.2.flatMap fun x => x.1.lines).map fun l => '\n' :: l).flatten := by
    have hmem : ∀ l ∈ p.2.flatMap fun x => x.1.lines, effective l = l ∧ ∃ c r, l = c :: r ∧ isWs c = true := by
      intro l hl
      obtain ⟨x, hx, hl⟩ := List.mem_flatMap.1 hl
      exact decl_effective (M := M) (he x hx) l hl
    rw [restOf_full _ fun l hl => by
      obtain ⟨h1, c, r, h2, _⟩ := hmem l hl
      rw [h1, h2]; simp]
    congr 2
    conv => rhs; rw [← List.map_id (p.2.flatMap fun x => x.1.lines)]
    exact List.map_congr_left fun l hl => (hmem l hl).1
  have hjoin : ∀ (x : Str) (ls : List Str), x ++ (ls.map fun l => '\n' :: l).flatten = joinWith ['\n'] (x :: ls) := by
    intro x ls
    induction ls generalizing x with
    | nil => simp [joinWith]
    | cons y ls ih =>
      rw [joinWith_cons_nl x (by simp), ← ih]
      simp
  have hr := account_read (M := M) env l.dateFormat s%"account" s%" " p.1 l.decimal (p.2.map (declInto M)) hw
    ⟨by decide, by decide, by decide⟩ hn (by
      intro x hx
      obtain ⟨y, hy, rfl⟩ := List.mem_map.1 hx
      rw [h1, h2]
      exact (he y hy).into.1) (by
      intro k
      rw [into_ofKind, List.map_map]
      exact hd k)
  rw [into_flatMap, ← hjoin, ← hline, ← hrest] at hr
  refine Reading.account (readAccount M p) ?_ hr
  rw [hline, List.append_assoc, List.append_assoc, ← List.append_assoc s%"account",
    splitWs_cons_gap hw.1 (by decide) (by decide)]
  rfl

theorem declarations_read [ReadsNumerals M] (env : Env) (inc : Ledger M × World → Str → Res (Ledger M × World)) (w : World)
    (rest : List Str) (accs done : List DeclAccount) (honce : ((done ++ accs).map Prod.fst).Nodup)
    (hn : ∀ p ∈ accs, isWord p.1 ∧ NoComment p.1) (he : ∀ p ∈ accs, ∀ x ∈ p.2, DeclOk env x)
    (hd : ∀ p ∈ accs, ∀ k, ((ofKind k p.2).map (·.1.name)).Nodup) (l : Ledger M)
    (hl : l.decimal = '.' ∧ l.dateFormat = s%"%Y/%m/%d" ∧ l.accounts = done.map (fun p => (p.1, readAccount M p)) ∧
      l.entries = []) :
    ∃ l', (l'.decimal = '.' ∧ l'.dateFormat = s%"%Y/%m/%d" ∧
        l'.accounts = (done ++ accs).map (fun p => (p.1, readAccount M p)) ∧ l'.entries = []) ∧
      readItems env inc (accs.map (fun p => effective (s%"account " ++ p.1) ++ restOf (p.2.flatMap fun x => x.1.lines))
        ++ rest) (l, w) = readItems env inc rest (l', w) := by
  induction accs generalizing done l with
  | nil => exact ⟨l, by simpa using hl, rfl⟩
  | cons p accs ih =>
    have h1 := declared_reading (M := M) env p (hn p (by simp)) (he p (by simp)) (hd p (by simp)) l hl.1 hl.2.1
    have hf : p.1 ∉ l.accounts.map Prod.fst := by
      rw [hl.2.2.1, List.map_map]
      intro hm
      rw [List.map_append, List.nodup_append] at honce
      exact honce.2.2 p.1 hm p.1 (by simp) rfl
    obtain ⟨l', h2, h3⟩ := ih (done ++ [p]) (by simpa using honce) (fun q hq => hn q (by simp [hq]))
      (fun q hq => he q (by simp [hq])) (fun q hq => hd q (by simp [hq]))
      { l with accounts := mapInsert l.accounts p.1 (readAccount M p) }
      ⟨hl.1, hl.2.1, by
        show mapInsert l.accounts p.1 (readAccount M p) = _
        rw [mapInsert_fresh _ _ _ hf, hl.2.2.1]; simp, hl.2.2.2⟩
    refine ⟨l', by simpa using h2, ?_⟩
    rw [List.map_cons, List.cons_append, readItems, parseChunk_of_reading env _ _ _ _ _ h1]
    exact h3

/-! ### What an entry does to an envelope -/

/-- Does it go into what there is now? -/
def toNow (last : Option Date) (day : Date) (v : M) : Bool :=
  Mag.lt v Mag.zero || (Mag.lt Mag.zero v && last.any fun d => Date.lt day d)

/-- Is it saved for the next time? -/
def toNext (last : Option Date) (day : Date) (v : M) : Bool :=
  !Mag.lt v Mag.zero && Mag.lt Mag.zero v && !last.any fun d => Date.lt day d

/-- What the lines of the accounts in question are read as, together. -/
def PEntry.readGain (e : PEntry) (f : Str → Bool) : M :=
  ((e.lines.filterMap fun l => if f l.account then e.readWorth l else none).map Amount.mag).foldl Mag.add Mag.zero

/-- What is moved without being asked for. -/
def PEntry.readAutomatic (k : Str) (fors : List Str) (e : PEntry) : M :=
  let gained : M := e.readGain fun n => n != k && fors.contains n
  let change : M := e.readGain fun n => n == k
  if Mag.lt change Mag.zero then Mag.neg (Mag.min gained (Mag.abs change)) else Mag.min gained (Mag.abs change)

/-- What is moved. -/
def BEntry.readIn (k : Str) (x : MeantDecl Rat) (b : BEntry) : List M :=
  if b.moves ≠ [] then
    (b.moves.filter fun m => decide (m.account = k ∧ m.envelope = x.1.name)).map fun m =>
      readMag (splitWs m.amount).flatten
  else if b.Touches k x then
    let m : M := Mag.min (b.plain.readGain fun n => n != k && x.fors.contains n)
      (Mag.abs (b.plain.readGain fun n => n == k))
    if Mag.eq m Mag.zero then [] else [b.plain.readAutomatic k x.fors]
  else []

/-- What is known of an envelope that has been read. -/
structure ReadEnvelope (k : Str) (x : MeantDecl Rat) (e : Envelope M) : Prop where
  account : e.account = k
  name : e.name = x.1.name
  sym : e.amount.sym = x.target.sym
  amount : e.amount = MeantDecl.target (declInto M x)
  freq : e.freq = x.2.1
  starting : e.starting = x.2.2
  kind : e.kind = x.1.kind
  auto : ∀ a, a ∈ e.auto ↔ a ∈ x.fors
  one : e.OneCurrency
  funding : e.funding = x.way

theorem ReadEnvelope.keeps {k : Str} {x : MeantDecl Rat} {e e' : Envelope M} (h : ReadEnvelope k x e)
    (hk : e.SameButMoney e' ∧ e'.now.sym = e.now.sym ∧ e'.next.sym = e.next.sym) : ReadEnvelope k x e' := by
  obtain ⟨f1, f2, f3, f4, f5, f6, f7, f8⟩ := SameButMoney.fields hk.1
  exact ⟨by rw [f2]; exact h.account, by rw [f1]; exact h.name, by rw [f3]; exact h.sym, by rw [f3]; exact h.amount,
    by rw [f6]; exact h.freq, by rw [f8]; exact h.starting, by rw [f4]; exact h.kind, by rw [f5]; exact h.auto,
    ⟨by rw [hk.2.1, f3]; exact h.one.1, by rw [hk.2.2, f3]; exact h.one.2⟩, by rw [f7]; exact h.funding⟩

theorem applyAmount_value (today date : Date) (e : Envelope M) (a : Amount M) (last : Option Date) (hc : e.OneCurrency)
    (hl : e.freq.lastDue today = .ok last) (ha : a.sym = e.amount.sym) :
    ∃ e', e.applyAmount today a date = .ok e' ∧
      e'.now.mag = ([a.mag].filter (toNow last date)).foldl Mag.add e.now.mag ∧
      e'.next.mag = ([a.mag].filter (toNext last date)).foldl Mag.add e.next.mag ∧ e'.lastTx = date := by
  obtain ⟨h1, h2⟩ := hc
  unfold Envelope.applyAmount toNow toNext
  cases hn : Mag.lt a.mag (Mag.zero : M) with
  | true => simp [hn, Amount.add, ha, h1, bind, Except.bind, pure, Except.pure]
  | false =>
    cases hp : Mag.lt (Mag.zero : M) a.mag with
    | false => simp [hn, hp]
    | true =>
      cases last with
      | none => simp [hn, hp, hl, Amount.add, ha, h2, bind, Except.bind, pure, Except.pure]
      | some d =>
        cases hd : Date.lt date d <;>
          simp [hn, hp, hl, hd, Amount.add, ha, h1, h2, bind, Except.bind, pure, Except.pure]

theorem applyAll_value (today date : Date) (last : Option Date) (as : List (Amount M)) (e : Envelope M)
    (hc : e.OneCurrency) (hl : e.freq.lastDue today = .ok last) (ha : ∀ a ∈ as, a.sym = e.amount.sym) :
    ∃ e', applyAll today date as e = .ok e' ∧
      e'.now.mag = ((as.map Amount.mag).filter (toNow last date)).foldl Mag.add e.now.mag ∧
      e'.next.mag = ((as.map Amount.mag).filter (toNext last date)).foldl Mag.add e.next.mag ∧
      e'.lastTx = (as.map Amount.mag).foldl (fun _ _ => date) e.lastTx := by
  induction as generalizing e with
  | nil => exact ⟨e, rfl, rfl, rfl, rfl⟩
  | cons a as ih =>
    obtain ⟨e1, h1, h2, h3, h7⟩ := applyAmount_value today date e a last hc hl (ha a (by simp))
    have hk := applyAmount_keeps _ _ _ _ _ h1
    obtain ⟨f1, f2, f3, f4, f5, f6, f7, f8⟩ := SameButMoney.fields hk.1
    obtain ⟨e', h4, h5, h6, h8⟩ := ih e1 ⟨by rw [hk.2.1, f3]; exact hc.1, by rw [hk.2.2.1, f3]; exact hc.2⟩
      (by rw [f6]; exact hl) (fun b hb => by rw [f3]; exact ha b (by simp [hb]))
    refine ⟨e', by simp only [applyAll, bind, Except.bind, h1]; exact h4, ?_, ?_, ?_⟩
    · rw [h5, h2, ← List.foldl_append, ← List.filter_append]; rfl
    · rw [h6, h3, ← List.foldl_append, ← List.filter_append]; rfl
    · rw [h8, h7]; rfl

theorem hasEnvelope_iff {b : BEntry} {y : Entry M} (hx : BEntryOf b y) : y.hasEnvelopePosting = true ↔ b.moves ≠ [] := by
  unfold Entry.hasEnvelopePosting
  rw [hx.2, List.any_eq_true]
  constructor
  · rintro ⟨p, hp, h⟩
    obtain ⟨l, hl, rfl⟩ := List.mem_map.1 hp
    cases l with
    | posting q => simp [BLine.read, PLine.posting, Posting.isEnvelope] at h
    | move m => exact List.ne_nil_of_mem (mem_moves.2 hl)
  · intro h
    obtain ⟨m, ms, hm⟩ := List.exists_cons_of_ne_nil h
    exact ⟨_, List.mem_map_of_mem (mem_moves.1 (by rw [hm]; simp : m ∈ b.moves)), rfl⟩

theorem manual_read {b : BEntry} {y : Entry M} (hx : BEntryOf b y) (e : Envelope M) :
    manualMoves y e = (b.moves.filter fun m => decide (m.account = e.account ∧ m.envelope = e.name)).map fun m =>
      (m.posting : EnvPosting M).amount := by
  unfold manualMoves BEntry.moves
  rw [hx.2]
  induction b.lines with
  | nil => rfl
  | cons l ls ih =>
    cases l with
    | posting q =>
      rw [List.map_cons, List.filterMap_cons_none (by rfl), List.filterMap_cons_none (by rfl)]
      exact ih
    | move m =>
      rw [List.map_cons, List.filterMap_cons (a := BLine.read (.move m)), List.filterMap_cons_some (by rfl), List.filter_cons]
      by_cases hm : m.account = e.account ∧ m.envelope = e.name
      · simp only [BLine.read, MLine.posting, hm, and_self, if_true, decide_true, List.map_cons]
        exact congrArg _ ih
      · have : ¬ ((MLine.posting m : EnvPosting M).account = e.account ∧ (MLine.posting m : EnvPosting M).envelope = e.name) := hm
        simp only [BLine.read, this, hm, if_false, decide_false, Bool.false_eq_true]
        exact ih

theorem readWorth_sym {e : PEntry} {l : PLine} {a : Amount M} (h : e.readWorth l = some a) :
    ∃ v, e.worth l = some v ∧ v.2 = a.sym := by
  unfold PEntry.readWorth at h
  unfold PEntry.worth
  cases hv : l.value with
  | some v => rw [hv] at h; cases h; exact ⟨v, rfl, rfl⟩
  | none =>
    rw [hv] at h
    have key : ∀ ls : List PLine, (ls.filterMap (PLine.read (M := M))).map Amount.sym = (ls.filterMap PLine.value).map Prod.snd := by
      intro ls
      induction ls with
      | nil => rfl
      | cons l ls ih =>
        cases hl : l.value with
        | none =>
          rw [List.filterMap_cons_none (by simp [PLine.read, hl]), List.filterMap_cons_none hl]; exact ih
        | some v =>
          rw [List.filterMap_cons_some (b := ⟨l.mag, v.2⟩) (by simp [PLine.read, hl]), List.filterMap_cons_some hl, List.map_cons,
            List.map_cons, ih]
    have key := key e.lines
    simp only [PEntry.readRest] at h
    simp only [PEntry.rest, PEntry.given]
    cases h1 : e.lines.filterMap (PLine.read (M := M)) with
    | nil => rw [h1] at h; cases h
    | cons b bs =>
      rw [h1] at h key
      cases h
      cases h2 : e.lines.filterMap PLine.value with
      | nil => rw [h2] at key; cases key
      | cons w ws =>
        rw [h2] at key
        exact ⟨_, rfl, (List.cons.inj key).1.symm⟩

theorem touches_iff {b : BEntry} {y : Entry M} (hx : BEntryOf b y) (hm : b.moves = []) {k : Str} {x : MeantDecl Rat}
    {e : Envelope M} (he : ReadEnvelope k x e) : touchesBoth y e = true ↔ b.Touches k x := by
  unfold touchesBoth BEntry.Touches
  rw [Bool.and_eq_true, List.any_eq_true, List.any_eq_true, (hx.plain hm).2, he.account]
  constructor
  · rintro ⟨⟨p, hp, h1⟩, q, hq, h2⟩
    obtain ⟨l, hl, rfl⟩ := List.mem_map.1 hp
    obtain ⟨j, hj, rfl⟩ := List.mem_map.1 hq
    refine ⟨⟨l, hl, by simpa [PLine.posting, Posting.account] using h1⟩, j, hj, ?_⟩
    simpa [PLine.posting, Posting.account, he.auto] using h2
  · rintro ⟨⟨l, hl, h1⟩, j, hj, h2⟩
    refine ⟨⟨_, List.mem_map_of_mem hl, by simpa [PLine.posting, Posting.account] using h1⟩, _, List.mem_map_of_mem hj, ?_⟩
    simpa [PLine.posting, Posting.account, he.auto] using h2

theorem inferLoop_read {env : Env} {accs : List Str} {b : BEntry} (hb : b.Ok env accs) {y : Entry M} (hx : BEntryOf b y)
    (hm : b.moves = []) {k : Str} {x : MeantDecl Rat} {e : Envelope M} (he : ReadEnvelope k x e)
    (hs : ∀ l ∈ b.plain.lines, ∀ v, b.plain.worth l = some v → v.2 = x.target.sym) (ls : List PLine)
    (hls : ∀ l ∈ ls, l ∈ b.plain.lines) (s a : Amount M) (h1 : s.sym = e.amount.sym) (h2 : a.sym = e.amount.sym) :
    e.inferLoop y (ls.map PLine.posting) s a = .ok
      (⟨((ls.filterMap fun l => if l.account == k then b.plain.readWorth l else none).map Amount.mag).foldl Mag.add s.mag,
        e.amount.sym⟩,
       ⟨((ls.filterMap fun l => if l.account != k && x.fors.contains l.account then b.plain.readWorth l else none).map
          Amount.mag).foldl Mag.add a.mag, e.amount.sym⟩) := by
  induction ls generalizing s a with
  | nil => cases s; cases a; simp only at h1 h2; subst h1; subst h2; rfl
  | cons l ls ih =>
    have hl := hls l (by simp)
    have ih := ih fun j hj => hls j (by simp [hj])
    obtain ⟨c, hw, hi⟩ : ∃ c : Amount M, b.plain.readWorth l = some c ∧ e.inferAmount y l.posting = .ok c := by
      have hsym : ∀ c : Amount M, b.plain.readWorth l = some c → c.sym = e.amount.sym := by
        intro c hc
        obtain ⟨v, hv1, hv2⟩ := readWorth_sym hc
        rw [← hv2, hs l hl v hv1, he.sym]
      cases hv : l.value with
      | some v =>
        have hw : b.plain.readWorth l = some (⟨l.mag, v.2⟩ : Amount M) := by simp [PEntry.readWorth, hv]
        refine ⟨_, hw, ?_⟩
        have := hsym _ hw
        simp only at this
        simp [Envelope.inferAmount, PLine.posting, PLine.read, hv, Posting.amount, bind, Except.bind, pure, Except.pure, this]
      | none =>
        obtain ⟨c, h3, h4⟩ := hb.plain.sound.blankAmount (hx.plain hm) ⟨l, hl, hv⟩
        have hw : b.plain.readWorth l = some c := by simp only [PEntry.readWorth, hv, h3]
        refine ⟨c, hw, ?_⟩
        have := hsym _ hw
        simp [Envelope.inferAmount, PLine.posting, PLine.read, hv, Posting.amount, bind, Except.bind, pure, Except.pure,
          h4, unwrap, this]
    have hsym : c.sym = e.amount.sym := by
      obtain ⟨v, hv1, hv2⟩ := readWorth_sym hw
      rw [← hv2, hs l hl v hv1, he.sym]
    have hacc : (l.posting : Posting M).account = l.account := rfl
    simp only [List.map_cons, Envelope.inferLoop, hi, bind, Except.bind, hacc, he.account]
    by_cases hk : l.account = k
    · have e1 : (l.account == k) = true := by simpa using hk
      have e2 : (l.account != k && x.fors.contains l.account) = false := by simp [hk]
      rw [if_pos hk, List.filterMap_cons, List.filterMap_cons]
      simp only [e1, e2, if_true, Bool.false_eq_true, if_false, hw, Amount.add, h1, hsym, List.map_cons, List.foldl_cons]
      rw [ih ⟨Mag.add s.mag c.mag, e.amount.sym⟩ a rfl h2]
    · have e1 : (l.account == k) = false := by simpa using hk
      rw [if_neg hk]
      by_cases hf : l.account ∈ x.fors
      · have e2 : (l.account != k && x.fors.contains l.account) = true := by simp [hk, hf]
        have e3 : e.auto.contains l.account = true := by simpa using (he.auto _).2 hf
        rw [List.filterMap_cons, List.filterMap_cons]
        simp only [e1, e2, e3, if_true, Bool.false_eq_true, if_false, hw, Amount.add, h2, hsym, List.map_cons, List.foldl_cons]
        rw [ih s ⟨Mag.add a.mag c.mag, e.amount.sym⟩ h1 rfl]
      · have e2 : (l.account != k && x.fors.contains l.account) = false := by simp [hf]
        have e3 : e.auto.contains l.account = false := by
          have := mt (he.auto l.account).1 hf
          simpa using this
        rw [List.filterMap_cons, List.filterMap_cons]
        simp only [e1, e2, e3, Bool.false_eq_true, if_false]
        rw [ih _ _ h1 h2]

/-- An entry moves in an envelope what is read for it. -/
theorem processEntry_read {env : Env} {accs : List Str} {b : BEntry} (hb : b.Ok env accs) {y : Entry M} (hx : BEntryOf b y)
    {today : Date} {last : Option Date} {k : Str} {x : MeantDecl Rat} {e : Envelope M} (he : ReadEnvelope k x e)
    (hl : x.2.1.lastDue today = .ok last)
    (hnamed : ∀ m ∈ b.moves, m.account = k → m.envelope = x.1.name → m.value.2 = x.target.sym)
    (hspent : b.moves = [] → b.Touches k x → ∀ l ∈ b.plain.lines, ∀ v, b.plain.worth l = some v → v.2 = x.target.sym) :
    ∃ e', e.processEntry today y = .ok e' ∧ ReadEnvelope k x e' ∧
      e'.now.mag = ((b.readIn k x).filter (toNow last b.day)).foldl Mag.add e.now.mag ∧
      e'.next.mag = ((b.readIn k x).filter (toNext last b.day)).foldl Mag.add e.next.mag ∧
      e'.lastTx = (b.readIn k x : List M).foldl (fun _ _ => b.day) e.lastTx := by
  have hl' : e.freq.lastDue today = .ok last := by rw [he.freq]; exact hl
  suffices h : ∃ e', e.processEntry today y = .ok e' ∧
      e'.now.mag = ((b.readIn k x).filter (toNow last b.day)).foldl Mag.add e.now.mag ∧
      e'.next.mag = ((b.readIn k x).filter (toNext last b.day)).foldl Mag.add e.next.mag ∧
      e'.lastTx = (b.readIn k x : List M).foldl (fun _ _ => b.day) e.lastTx by
    obtain ⟨e', h1, h2, h3, h4⟩ := h
    exact ⟨e', h1, he.keeps (processEntry_keeps _ _ _ _ h1), h2, h3, h4⟩
  by_cases hm : b.moves = []
  · have hno : y.hasEnvelopePosting = false := by
      rw [← Bool.not_eq_true, hasEnvelope_iff hx]; exact fun h => h hm
    unfold Envelope.processEntry
    rw [if_neg (by simp [hno])]
    unfold BEntry.readIn
    rw [if_neg (fun h => h hm)]
    by_cases ht : b.Touches k x
    · have hloop := inferLoop_read hb hx hm he (hspent hm ht) _ (fun _ h => h) ⟨Mag.zero, e.amount.sym⟩
        ⟨Mag.zero, e.amount.sym⟩ rfl rfl
      rw [infer_touched today e y ((touches_iff hx hm he).2 ht), (hx.plain hm).2, if_pos ht]
      simp only [bind, Except.bind, hloop]
      have g1 : ((b.plain.lines.filterMap fun l => if l.account == k then b.plain.readWorth l else none).map
          Amount.mag).foldl Mag.add Mag.zero = (b.plain.readGain fun n => n == k : M) := rfl
      have g2 : ((b.plain.lines.filterMap fun l => if l.account != k && x.fors.contains l.account then
          b.plain.readWorth l else none).map Amount.mag).foldl Mag.add Mag.zero =
          (b.plain.readGain fun n => n != k && x.fors.contains n : M) := rfl
      rw [g1, g2]
      by_cases hz : Mag.eq (Mag.min (b.plain.readGain fun n => n != k && x.fors.contains n)
          (Mag.abs (b.plain.readGain fun n => n == k))) (Mag.zero : M) = true
      · rw [if_pos hz]
        simp only [hz, Bool.not_true, Bool.false_eq_true, if_false]
        exact ⟨e, rfl, rfl, rfl, rfl⟩
      · rw [if_neg hz]
        have hz : Mag.eq (Mag.min (b.plain.readGain fun n => n != k && x.fors.contains n)
          (Mag.abs (b.plain.readGain fun n => n == k))) (Mag.zero : M) = false := by simpa using hz
        simp only [hz, Bool.not_false, if_true]
        have := applyAmount_value today y.date e ⟨b.plain.readAutomatic k x.fors, e.amount.sym⟩ last he.one hl' rfl
        rw [hx.1.1] at this ⊢
        exact this
    · rw [if_neg ht]
      refine ⟨e, infer_untouched today e y ?_, rfl, rfl, rfl⟩
      rw [← Bool.not_eq_true, touches_iff hx hm he]; exact ht
  · rw [processEntry_manual today e y ((hasEnvelope_iff hx).2 hm), manual_read hx, he.account, he.name]
    unfold BEntry.readIn
    rw [if_pos hm]
    have := applyAll_value today y.date last ((b.moves.filter fun m => decide (m.account = k ∧ m.envelope = x.1.name)).map fun m =>
      (m.posting : EnvPosting M).amount) e he.one hl' (by
        intro a ha
        obtain ⟨m, hm, rfl⟩ := List.mem_map.1 ha
        obtain ⟨h1, h2⟩ := List.mem_filter.1 hm
        obtain ⟨h3, h4⟩ := of_decide_eq_true h2
        rw [he.sym, ← hnamed m h1 h3 h4]
        rfl)
    rw [List.map_map, hx.1.1] at this
    rw [hx.1.1]
    exact this

/-! ### The whole journal -/

/-- The last due date. -/
def lastOf (today : Date) (x : MeantDecl Rat) : Option Date :=
  match x.2.1.lastDue today with
  | .ok o => o
  | .error _ => none

def nowRead (last : Option Date) (k : Str) (x : MeantDecl Rat) (es : List BEntry) : M :=
  (es.flatMap fun b => (b.readIn k x).filter (toNow last b.day)).foldl Mag.add Mag.zero

def nextRead (last : Option Date) (k : Str) (x : MeantDecl Rat) (es : List BEntry) : M :=
  (es.flatMap fun b => (b.readIn k x).filter (toNext last b.day)).foldl Mag.add Mag.zero

/-- The day of the last movement. -/
def lastRead (M : Type) [Mag M] (k : Str) (x : MeantDecl Rat) (es : List BEntry) : Date :=
  es.foldl (fun d b => (b.readIn k x : List M).foldl (fun _ _ => b.day) d) Date.zero

/-- An envelope after entries have been read. -/
structure EnvelopeNow (today : Date) (k : Str) (es : List BEntry) (x : MeantDecl Rat) (e : Envelope M) : Prop where
  read : ReadEnvelope k x e
  now : e.now.mag = nowRead (lastOf today x) k x es
  next : e.next.mag = nextRead (lastOf today x) k x es
  lastTx : e.lastTx = lastRead M k x es

/-- An account after entries have been read. -/
structure AccountNow (today : Date) (es : List BEntry) (p : DeclAccount) (a : Account M) : Prop where
  name : a.name = p.1
  expenses : List.Forall₂ (EnvelopeNow today p.1 es) (ofKind .expense p.2) a.expenses
  goals : List.Forall₂ (EnvelopeNow today p.1 es) (ofKind .goal p.2) a.goals
  real : a.real = (es.flatMap fun b => b.plain.readMoves p.1).foldl Pool.add []

theorem getD_sym {A : Option (Amount M)} {B : Option (Amount Rat)} (h : A.map Amount.sym = B.map Amount.sym) :
    (A.getD Amount.zero).sym = (B.getD Amount.zero).sym := by
  cases A with
  | none =>
    cases B with
    | none => rfl
    | some b => cases h
  | some a =>
    cases B with
    | none => cases h
    | some b => exact Option.some.inj h

theorem into_target_sym (x : MeantDecl Rat) : (MeantDecl.target (declInto M x)).sym = x.target.sym := by
  unfold MeantDecl.target declInto EnvDecl.into
  simp only
  have key : ∀ ps : List (Str × Str × PropLine Rat),
      ((ps.map fun p => (p.1, p.2.1, p.2.2.into M)).filterMap fun p => match p.2.2 with
        | .amount _ a => some a
        | _ => none).map Amount.sym =
      (ps.filterMap fun p => match p.2.2 with
        | .amount _ a => some a
        | _ => none).map Amount.sym := by
    intro ps
    induction ps with
    | nil => rfl
    | cons p ps ih =>
      obtain ⟨g, g', q⟩ := p
      cases q with
      | forAccount a => simpa [PropLine.into] using ih
      | amount t a => simpa [PropLine.into] using ih
      | funding f => simpa [PropLine.into] using ih
  refine getD_sym ?_
  rw [← List.getLast?_map, ← List.getLast?_map]
  refine (congrArg List.getLast? (key x.1.props)).trans (congrArg (fun l => (List.map Amount.sym l).getLast?) ?_)
  exact List.filterMap_congr fun p _ => by cases p.2.2 <;> rfl

theorem mem_fors {x : MeantDecl Rat} {a : Str} : a ∈ x.fors ↔ ∃ p ∈ x.1.props, p.2.2 = .forAccount a := by
  unfold MeantDecl.fors
  rw [List.mem_filterMap]
  constructor
  · rintro ⟨p, hp, h⟩
    refine ⟨p, hp, ?_⟩
    cases hq : p.2.2 with
    | forAccount b => rw [hq] at h; cases h; rfl
    | amount t b => rw [hq] at h; cases h
    | funding f => rw [hq] at h; cases h
  · rintro ⟨p, hp, h⟩
    exact ⟨p, hp, by rw [h]⟩

theorem into_way (x : MeantDecl Rat) : (declInto M x).way = x.way := by
  unfold MeantDecl.way declInto EnvDecl.into
  simp only
  congr 2
  rw [List.filterMap_map]
  refine List.filterMap_congr fun p _ => ?_
  obtain ⟨g, g', q⟩ := p
  cases q <;> rfl

theorem declared_now (today : Date) (k : Str) (x : MeantDecl Rat) :
    EnvelopeNow today k [] x (MeantDecl.envelope k (declInto M x)) := by
  have h := isWritten k (declInto M x)
  refine ⟨⟨h.account, h.name, ?_, h.amount, h.freq, h.starting, h.kind, ?_, ?_, ?_⟩, ?_, ?_, ?_⟩
  · rw [h.amount]; exact into_target_sym x
  · intro a
    rw [h.auto, mem_fors]
    constructor
    · rintro ⟨p, hp, h⟩
      obtain ⟨q, hq, rfl⟩ := List.mem_map.1 hp
      refine ⟨q, hq, ?_⟩
      cases hv : q.2.2 with
      | forAccount b => simp only [hv, PropLine.into] at h; cases h; rfl
      | amount t b => simp only [hv, PropLine.into] at h; cases h
      | funding f => simp only [hv, PropLine.into] at h; cases h
    · rintro ⟨p, hp, h⟩
      exact ⟨_, List.mem_map_of_mem hp, by simp only [h]; rfl⟩
  · exact ⟨by rw [h.now], by rw [h.next]⟩
  · rw [h.funding]; exact into_way x
  · rw [h.now]; rfl
  · rw [h.next]; rfl
  · have key : ∀ (ps : List (Str × Str × PropLine M)) (e : Envelope M),
        (ps.foldl (fun e p => p.2.2.apply e) e).lastTx = e.lastTx := by
      intro ps
      induction ps with
      | nil => intro e; rfl
      | cons p ps ih =>
        intro e
        rw [List.foldl_cons, ih]
        cases p.2.2 <;> rfl
    exact key _ _

theorem declaredAccount_now (today : Date) (p : DeclAccount) : AccountNow today [] p (readAccount M p) := by
  refine ⟨rfl, ?_, ?_, rfl⟩
  · show List.Forall₂ _ _ ((ofKind .expense (p.2.map (declInto M))).map _)
    rw [into_ofKind, List.map_map, List.forall₂_map_right_iff, List.forall₂_same]
    exact fun x _ => declared_now today p.1 x
  · show List.Forall₂ _ _ ((ofKind .goal (p.2.map (declInto M))).map _)
    rw [into_ofKind, List.map_map, List.forall₂_map_right_iff, List.forall₂_same]
    exact fun x _ => declared_now today p.1 x

theorem mem_ofKind {k : EnvelopeKind} {ds : List (MeantDecl M)} {x : MeantDecl M} (h : x ∈ ofKind k ds) :
    x ∈ ds ∧ x.1.kind = k := by
  unfold ofKind at h
  simpa using h

theorem processEnvelopes_read {today : Date} {k : Str} {es : List BEntry} {b : BEntry} {y : Entry M}
    {xs : List (MeantDecl Rat)} {as : List (Envelope M)} (h : List.Forall₂ (EnvelopeNow today k es) xs as)
    (hstep : ∀ x ∈ xs, ∀ e : Envelope M, EnvelopeNow today k es x e → ∃ e', e.processEntry today y = .ok e' ∧
      EnvelopeNow today k (es ++ [b]) x e') :
    ∃ as', Account.processEnvelopes today y as = .ok as' ∧ List.Forall₂ (EnvelopeNow today k (es ++ [b])) xs as' := by
  induction h with
  | nil => exact ⟨[], rfl, .nil⟩
  | cons h1 _ ih =>
    obtain ⟨e', h2, h3⟩ := hstep _ (by simp) _ h1
    obtain ⟨as', h4, h5⟩ := ih fun x hx => hstep x (by simp [hx])
    exact ⟨e' :: as', by simp only [Account.processEnvelopes, h2, h4, bind, Except.bind]; rfl, .cons h3 h5⟩

theorem EnvelopesFit.last {today : Date} {accs : List DeclAccount} {es : List BEntry} (h : EnvelopesFit today accs es)
    {p : DeclAccount} (hp : p ∈ accs) {x : MeantDecl Rat} (hx : x ∈ p.2) :
    x.2.1.lastDue today = .ok (lastOf today x) := by
  obtain ⟨d, hd⟩ := C28_last_due_never_crashes_partial today x.2.1 h.today (h.schedule p hp x hx).2 (h.schedule p hp x hx).1
  unfold lastOf
  rw [hd]

theorem account_step {env : Env} {accs : List DeclAccount} {es : List BEntry} (hf : EnvelopesFit env.today accs es)
    {b : BEntry} (hbm : b ∈ es) (hb : b.Ok env (accs.map Prod.fst)) {y : Entry M} (hx : BEntryOf b y) {p : DeclAccount}
    (hp : p ∈ accs) {done : List BEntry} {a : Account M} (ha : AccountNow env.today done p a) :
    ∃ a', a.processEntry env.today y = .ok a' ∧ AccountNow env.today (done ++ [b]) p a' := by
  have hstep : ∀ x ∈ p.2, ∀ e : Envelope M, EnvelopeNow env.today p.1 done x e → ∃ e', e.processEntry env.today y = .ok e' ∧
      EnvelopeNow env.today p.1 (done ++ [b]) x e' := by
    intro x hxp e he
    obtain ⟨e', h1, h2, h3, h4, h5⟩ := processEntry_read hb hx he.read (hf.last hp hxp) (hf.named p hp x hxp b hbm)
      (hf.spent p hp x hxp b hbm)
    refine ⟨e', h1, h2, ?_, ?_, ?_⟩
    · rw [h3, he.now]; unfold nowRead; rw [List.flatMap_append, List.foldl_append]; simp
    · rw [h4, he.next]; unfold nextRead; rw [List.flatMap_append, List.foldl_append]; simp
    · rw [h5, he.lastTx]; unfold lastRead; rw [List.foldl_append]; rfl
  obtain ⟨e1, h1, h2⟩ := processEnvelopes_read ha.expenses fun x hx => hstep x (mem_ofKind hx).1
  obtain ⟨e2, h3, h4⟩ := processEnvelopes_read ha.goals fun x hx => hstep x (mem_ofKind hx).1
  obtain ⟨r, hr⟩ := processReal_total a.name y y.postings (fun q hq hn => by
    obtain ⟨_, c, _, hc⟩ := hb.blankAmount hx ⟨q, hq, hn⟩
    exact ⟨_, hc⟩) a.real
  have hok : a.processEntry env.today y = .ok { a with expenses := e1, goals := e2, real := r } := by
    simp only [Account.processEntry, h1, h3, hr, bind, Except.bind]; rfl
  refine ⟨_, hok, ha.name, h2, h4, ?_⟩
  have := (processEntry_real env.today y a _ hok).2
  simp only at this ⊢
  rw [this, ha.real, ha.name, hx.movesOf hb, List.flatMap_append, List.foldl_append]
  simp

/-- What is known of a ledger that has been read so far. -/
structure EnvelopeLedger (today : Date) (accs : List DeclAccount) (es : List BEntry) (l : Ledger M) : Prop where
  decimal : l.decimal = '.'
  dateFormat : l.dateFormat = s%"%Y/%m/%d"
  accounts : List.Forall₂ (fun p q => q.1 = p.1 ∧ AccountNow today es p q.2) accs l.accounts

theorem EnvelopeLedger.names {today : Date} {accs : List DeclAccount} {es : List BEntry} {l : Ledger M}
    (h : EnvelopeLedger today accs es l) : l.accounts.map Prod.fst = accs.map Prod.fst := by
  obtain ⟨_, _, h⟩ := h
  generalize l.accounts = as at h
  induction h with
  | nil => rfl
  | cons h1 _ ih => rw [List.map_cons, List.map_cons, ih, h1.1]

theorem processAll_read {env : Env} {accs : List DeclAccount} {es : List BEntry} (hf : EnvelopesFit env.today accs es)
    {b : BEntry} (hbm : b ∈ es) (hb : b.Ok env (accs.map Prod.fst)) {y : Entry M} (hx : BEntryOf b y) {done : List BEntry}
    {ps : List DeclAccount} (hps : ∀ p ∈ ps, p ∈ accs) {as : List (Str × Account M)}
    (h : List.Forall₂ (fun p q => q.1 = p.1 ∧ AccountNow env.today done p q.2) ps as) :
    ∃ as', Ledger.processAll env.today y as = .ok as' ∧
      List.Forall₂ (fun p q => q.1 = p.1 ∧ AccountNow env.today (done ++ [b]) p q.2) ps as' := by
  induction h with
  | nil => exact ⟨[], rfl, .nil⟩
  | cons h1 _ ih =>
    obtain ⟨a', h2, h3⟩ := account_step hf hbm hb hx (hps _ (by simp)) h1.2
    obtain ⟨as', h4, h5⟩ := ih fun p hp => hps p (by simp [hp])
    rename_i q _ _ _
    exact ⟨(q.1, a') :: as', by simp only [Ledger.processAll, h2, h4, bind, Except.bind]; rfl, .cons ⟨h1.1, h3⟩ h5⟩

theorem bentry_reading [ReadsNumerals M] {env : Env} (hord : FairOrder env.ord) {accs : List DeclAccount}
    {es : List BEntry} (hf : EnvelopesFit env.today accs es) {b : BEntry} (hbm : b ∈ es)
    (hb : b.Ok env (accs.map Prod.fst)) {done : List BEntry} {l : Ledger M} (hl : EnvelopeLedger env.today accs done l) :
    ∃ y l', BEntryOf b y ∧ Reading env (effective b.plain.header ++ restOf (b.lines.map BLine.text)) l l' ∧
      EnvelopeLedger env.today accs (done ++ [b]) l' ∧
      l'.entries = stableSort (fun a b => Date.lt a.date b.date) (l.entries ++ [y]) := by
  obtain ⟨y, hx, hp⟩ := hb.parse (M := M) (names := l.accountNames) (fun k hk => by
    show k ∈ l.accounts.map Prod.fst
    rw [hl.names]; exact hk)
  obtain ⟨as', h1, h2⟩ := processAll_read hf hbm hb hx (fun _ h => h) hl.accounts
  refine ⟨y, _, hx, Reading.entry b.date y _ ?_ hb.plain.date.2.1 ?_ ((addEntry_iff env hord l _ y).2 ⟨as', h1, rfl⟩), ?_, rfl⟩
  · have hw : splitWs (effective b.plain.header ++ restOf (b.lines.map BLine.text)) =
        b.date :: b.mark :: (splitWs b.title ++ splitWs (restOf (b.lines.map BLine.text))) := by
      have h5 : splitWs (effective b.plain.header) = b.date :: b.mark :: splitWs b.title := by
        rw [effective_plain hb.plain.plain.1, splitWs_trimEnd, hb.plain.header.1]; rfl
      have h6 : restOf (b.lines.map BLine.text) = [] ∨ ∃ r, restOf (b.lines.map BLine.text) = '\n' :: r := by
        generalize b.lines.map BLine.text = ls
        induction ls with
        | nil => exact Or.inl rfl
        | cons l ls ih =>
          rw [restOf_cons]
          split
          · exact ih
          · exact Or.inr ⟨_, rfl⟩
      rcases h6 with h6 | ⟨r, h6⟩
      · rw [h6, List.append_nil, h5, show splitWs [] = [] from rfl, List.append_nil]
      · rw [h6, splitWs_append_ws _ (by decide), h5, splitWs_ws_cons (by decide)]
        rfl
    rw [hw]; rfl
  · rw [hl.decimal, hl.dateFormat]; exact hp
  · exact ⟨hl.decimal, hl.dateFormat, h2⟩

theorem bentries_read [ReadsNumerals M] (env : Env) (hord : FairOrder env.ord)
    (inc : Ledger M × World → Str → Res (Ledger M × World)) (w : World) {accs : List DeclAccount} {all : List BEntry}
    (hf : EnvelopesFit env.today accs all) (es : List BEntry) (hall : ∀ b ∈ es, b ∈ all)
    (hes : ∀ b ∈ es, b.Ok env (accs.map Prod.fst)) (done : List BEntry) (l : Ledger M)
    (hl : EnvelopeLedger env.today accs done l) (xs0 : List (Entry M)) (h0 : DateOrdered xs0 l.entries) :
    ∃ xs l', List.Forall₂ BEntryOf es xs ∧ EnvelopeLedger env.today accs (done ++ es) l' ∧
      DateOrdered (xs0 ++ xs) l'.entries ∧
      readItems env inc (es.map fun b => effective b.plain.header ++ restOf (b.lines.map BLine.text)) (l, w) = .ok (l', w) := by
  induction es generalizing l xs0 done with
  | nil => exact ⟨[], l, .nil, by simpa using hl, by simpa using h0, rfl⟩
  | cons e es ih =>
    obtain ⟨x, l1, h1, h2, h3, h4⟩ := bentry_reading hord hf (hall e (by simp)) (hes e (by simp)) hl
    obtain ⟨xs, l', h5, h6, h7, h8⟩ := ih (fun j hj => hall j (by simp [hj])) (fun j hj => hes j (by simp [hj]))
      (done ++ [e]) l1 h3 (xs0 ++ [x]) (by rw [h4]; exact h0.snoc x)
    refine ⟨x :: xs, l', .cons h1 h5, by simpa using h6, by simpa using h7, ?_⟩
    rw [List.map_cons, readItems, parseChunk_of_reading env _ _ _ _ _ h2]
    exact h8

/-- A text whose lines are these is read like them. -/
theorem HasLines.of {text : Str} {ls : List Str} (h : inked (lines text) = ls) : HasLines text ls :=
  ⟨lines text, lines text, h, .refl _ _, by
    intro l hl
    rcases List.mem_append.1 hl with hl | hl <;> exact lines_noNl text l hl, rfl⟩

theorem eff_inked (ls : List Str) : eff ls = eff (inked ls) := by
  induction ls with
  | nil => rfl
  | cons l ls ih =>
    have e : ∀ (x : Str) (xs : List Str), eff (x :: xs) = eff [x] ++ eff xs := fun x xs => eff_append [x] xs
    by_cases hb : l.all isWs = true
    · have h1 : inked (l :: ls) = inked ls := by simp [inked, hb]
      rw [h1, ← ih, e]
      have : eff [l] = [] := by
        have hw : allWs l := fun c hc => List.all_eq_true.1 hb c hc
        simp only [eff, List.map_cons, List.map_nil, effective_nil (Or.inl hw)]
        rfl
      rw [this]; rfl
    · have h1 : inked (l :: ls) = l :: inked ls := by simp [inked, hb]
      rw [h1, e, e l (inked ls), ih]

theorem eff_same_ends {a b : List Str} (h : (inked a).map trimEnd = (inked b).map trimEnd) : eff a = eff b := by
  have key : ∀ ls : List Str, eff ls = ((ls.map trimEnd).map removeComments).filter fun l => !l.isEmpty := by
    intro ls; unfold eff; rw [List.map_map]; rfl
  rw [eff_inked a, eff_inked b, key, key, h]

theorem HasLines.reads {text : Str} {ls : List Str} (h : HasLines text ls) (env : Env)
    (inc : Ledger M × World → Str → Res (Ledger M × World)) (st st' : Ledger M × World)
    (hr : Ledger.addLinesFrom env inc ls st [] = .ok st') :
    Ledger.addLinesFrom env inc (lines text) st [] = .ok st' := by
  obtain ⟨plain, remarked, h1, h2, h3, h4⟩ := h
  have hrel := addLinesFrom_rel (W := Eq) env inc (fun a b p hab => by
      obtain ⟨a1, a2⟩ := a
      obtain ⟨b1, b2⟩ := b
      obtain ⟨hab1, hab2⟩ := hab
      simp only at hab1 hab2
      subst hab1 hab2
      cases inc (a1, a2) p with
      | ok x => exact ⟨rfl, rfl⟩
      | error f => exact rfl) false plain remarked h2
    (fun l hl => h3 l (by simp [hl])) (fun l hl => h3 l (by simp [hl])) st st ⟨rfl, rfl⟩ [] []
    ⟨.refl _, Or.inl ⟨rfl, rfl⟩⟩
  rw [addLinesFrom_inked env inc plain, h1, hr] at hrel
  rw [addLinesFrom_eff, ← eff_same_ends h4, ← addLinesFrom_eff]
  cases hx : Ledger.addLinesFrom env inc remarked st [] with
  | error f => rw [hx] at hrel; exact hrel.elim
  | ok x =>
    rw [hx] at hrel
    rw [Prod.ext hrel.1 hrel.2]

/-- A journal with envelopes that is written well is loaded. -/
theorem EnvelopeJournal.loads [ReadsNumerals M] {env : Env} (hord : FairOrder env.ord) {accs : List DeclAccount}
    {es : List BEntry} {text : Str} (h : EnvelopeJournal env accs es text) (hf : EnvelopesFit env.today accs es)
    (fuel : Nat) (w : World) (path : Str) (hr : w.read path = some text) :
    ∃ (xs : List (Entry M)) (l : Ledger M), List.Forall₂ BEntryOf es xs ∧ EnvelopeLedger env.today accs es l ∧
      DateOrdered xs l.entries ∧ Ledger.fromFile env (fuel + 1) w path = .ok (l, w.cdParent path) := by
  obtain ⟨ls, hls⟩ : ∃ ls, ls = (accs.flatMap fun p => (s%"account " ++ p.1) :: p.2.flatMap (·.1.lines)) ++
    es.flatMap fun e => e.plain.header :: e.lines.map BLine.text := ⟨_, rfl⟩
  have hit : Itemised ls ([] :: (accs.map (fun p => effective (s%"account " ++ p.1) ++
      restOf (p.2.flatMap fun x => x.1.lines)) ++
      es.map fun b => effective b.plain.header ++ restOf (b.lines.map BLine.text))) := by
    refine ⟨⟨[], accs.map (fun p => (s%"account " ++ p.1, p.2.flatMap fun x => x.1.lines)) ++
      es.map (fun b => (b.plain.header, b.lines.map BLine.text)), ?_, by simp [Continuing], ?_, ?_⟩⟩
    · rw [hls, List.flatMap_append, List.flatMap_map, List.flatMap_map]
      rfl
    · intro b hb
      rcases List.mem_append.1 hb with hb | hb
      · obtain ⟨p, hp, rfl⟩ := List.mem_map.1 hb
        have hn := h.names p hp
        constructor
        · intro t ht c hc
          obtain ⟨x, hx, ht⟩ := List.mem_flatMap.1 ht
          obtain ⟨h1, c', r, h2, h3⟩ := decl_effective (M := M) (h.envelopes p hp x hx) t ht
          rw [h1, h2] at hc
          cases hc; exact h3
        · refine ⟨'a', s%"ccount " ++ trimEnd p.1, ?_, by decide⟩
          have h1 : ¬ allWs p.1 := by
            intro ha
            obtain ⟨c, r, hc⟩ := List.exists_cons_of_ne_nil hn.1.1
            have h1 := ha c (by simp [hc])
            rw [hn.1.2 c (by simp [hc])] at h1; cases h1
          have h2 : NoComment (s%"account " ++ p.1) := by
            rw [noComment_iff, show s%"account " ++ p.1 = s%"account" ++ (s%" " ++ p.1) from rfl,
              rc_gap (by decide) (by decide) (by decide), (noComment_iff _).1 hn.2]
          show effective (s%"account " ++ p.1) = _
          rw [effective_plain h2, trimEnd_ink _ h1]
          rfl
      · obtain ⟨e, he, rfl⟩ := List.mem_map.1 hb
        have he := h.entries e he
        constructor
        · intro t ht c hc
          obtain ⟨p, hp, rfl⟩ := List.mem_map.1 ht
          obtain ⟨c', r, h1, h2⟩ := (he.effective hp).1
          rw [h1] at hc
          cases hc; exact h2
        · obtain ⟨c, r, h1, h2⟩ := he.plain.header.2
          show ∃ c r, effective e.plain.header = _ ∧ _
          obtain ⟨b, hb, h3, _⟩ := trimEnd_spec e.plain.header
          rw [effective_plain he.plain.plain.1]
          cases ht : trimEnd e.plain.header with
          | nil =>
            rw [ht, List.nil_append] at h3
            have h4 := hb c (by rw [← h3, h1]; simp)
            rw [h2] at h4; cases h4
          | cons c' r' =>
            rw [ht, h1] at h3
            cases h3
            exact ⟨c, r', rfl, h2⟩
    · rw [List.map_append, List.map_map, List.map_map]; rfl
  obtain ⟨l1, ⟨g1, g2, g3, g4⟩, h3⟩ := declarations_read (M := M) env (Ledger.addFromFile env fuel) (w.cdParent path)
    (es.map fun b => effective b.plain.header ++ restOf (b.lines.map BLine.text)) accs [] h.once h.names h.envelopes
    h.distinct (Ledger.new path) ⟨rfl, rfl, rfl, rfl⟩
  obtain ⟨xs, l, h4, h5, h6, h7⟩ := bentries_read env hord (Ledger.addFromFile env fuel) (w.cdParent path) hf es
    (fun _ h => h) h.entries [] l1 ⟨g1, g2, by
      rw [g3, List.nil_append, List.forall₂_map_right_iff, List.forall₂_same]
      exact fun p _ => ⟨rfl, declaredAccount_now env.today p⟩⟩ [] (by rw [g4]; exact ⟨List.Pairwise.nil, .refl _, fun _ => rfl⟩)
  refine ⟨xs, l, h4, by simpa using h5, by simpa using h6, ?_⟩
  have hfile : ∀ cs, Itemised ls cs → Ledger.addLinesFrom env (Ledger.addFromFile env fuel) ls (Ledger.new path, w.cdParent path) [] =
      readItems (M := M) env (Ledger.addFromFile env fuel) cs (Ledger.new path, w.cdParent path) := by
    intro cs hc
    obtain ⟨lead, blocks, g1, g2, g3, rfl⟩ := hc.exist
    rw [g1]
    exact addLinesFrom_items env _ blocks g3 lead g2 _ []
  unfold Ledger.fromFile
  rw [Ledger.addFromFile, hr]
  simp only
  refine h.text.reads env _ _ _ ?_
  rw [← hls, hfile _ hit, readItems, parseChunk_of_nothing env _ _ [] rfl]
  show readItems env _ _ (Ledger.new path, w.cdParent path) = _
  rw [h3, h7]

end Silverfox
