import Verif.Props.ToTheCent
import Verif.Props.Imported
import Verif.Props.Import
import Verif.Props.Table
import Verif.Props.Rules
import Verif.Props.Sessions
import Verif.Props.Declare
import Verif.Props.Notation
import Mathlib.Data.List.Forall2

/-
C119: what a bank statement does to the books.
-/

namespace Silverfox

set_option linter.unusedSectionVars false

/-! ### Specification -/

/-- A row of a bank statement as one would write it, and what it means. -/
structure BankRow where
  date : Str
  title : Str
  amount : Str
  day : Date
  value : Rat
  currency : Option Str

/-- Specification: the record, with these columns, is the row, with the amount in the notation of the bank (the decimal
symbol `dec`, perhaps digits in groups); no percent signs in it. -/
structure BankRow.In (dec : Char) (cols record : List Str) (b : BankRow) : Prop where
  date : (s%"date", b.date) ∈ cols.zip record
  title : (s%"description", b.title) ∈ cols.zip record
  amount : ∃ t, (s%"amount", t) ∈ cols.zip record ∧ InNotation dec b.amount t
  clean : ∀ v ∈ record, '%' ∉ v

/-- Specification: the row is written well, with dates in the format `fmt`. The currency is not one of the signs that
mean something else when they stand alone, and there are at most eight decimals. -/
structure BankRow.Ok (env : Env) (fmt : Str) (b : BankRow) : Prop where
  date : env.parseDate b.date fmt = some b.day
  day : WritableDay env s%"%Y/%m/%d" b.day
  title : '[' ∉ b.title ∧ NoComment b.title ∧ '\n' ∉ b.title ∧ '\r' ∉ b.title
  amount : WrittenAmount b.amount b.value b.currency
  plain : NoComment b.amount ∧ NoOps b.amount
  currency : ∀ s, b.currency = some s → s ∉ [s%"!", s%"!!", s%"@", s%"="]
  small : ∃ D : Int, b.value * 100000000 = D ∧ D.natAbs < 2 ^ 51

/-- Specification: an account name that can stand in the rules. -/
structure RuleAccount (accs : List Str) (k : Str) : Prop where
  word : isWord k
  declared : k ∈ accs
  clean : '%' ∉ k
  other : k ≠ s%"-" ∧ k ≠ s%"envelope"

/-- Specification: rules that name the columns, the date format and, if it is not the point, the decimal symbol, and book
the amount to `a` and the rest to `b`; there may be blank lines anywhere. -/
structure StatementRules (accs cols : List Str) (fmt : Str) (dec : Char) (a b rules : Str) : Prop where
  text : ∃ more, inked (lines rules) = [s%"fields " ++ joinWith s%"," cols, s%"date_format " ++ fmt, s%"account1 " ++ a,
    s%"amount1 %amount%", s%"account2 " ++ b] ++ more ∧ (more = [] ∧ dec = '.' ∨ more = [s%"decimal_symbol " ++ [dec]])
  sign : DecimalSign dec
  plain : NoComment (s%"fields " ++ joinWith s%"," cols) ∧ NoComment (s%"date_format " ++ fmt)
  columns : cols.Nodup ∧ ∀ c ∈ cols, isWord c ∧ ',' ∉ c ∧ '%' ∉ c
  named : s%"date" ∈ cols
  format : startsInk fmt = true ∧ trim fmt ≠ s%"-"
  first : RuleAccount accs a
  second : RuleAccount accs b

/-- Specification: the entry that a row stands for, as one would write it by hand. -/
def BankRow.entry (a b : Str) (r : BankRow) : PEntry where
  date := r.date
  mark := s%"~"
  title := r.title
  day := r.day
  lines := [⟨s%" ", a, s%" ", r.amount, some (r.value, r.currency)⟩, ⟨s%" ", b, [], [], none⟩]

/-- Specification: what the rows come to in a currency. -/
def statementSum (s : Option Str) (rows : List BankRow) : Rat :=
  (rows.map fun r => if r.currency = s then r.value else 0).sum

/-! ### Printed amounts -/

variable {M : Type} [Mag M]

theorem IsNumeral.plain {w : Str} {neg : Bool} {d k : Nat} (h : IsNumeral w neg d k) :
    ∀ c ∈ w, c ∉ ['!', '@', '=', ';', '/', '\n', '\r'] := by
  obtain ⟨_, r, hr, hc⟩ := h.chars
  intro c h1 hm
  have key : isDigit c = true ∨ c = '.' ∨ c = '-' := by
    rw [hr] at h1
    rcases List.mem_append.1 h1 with h1 | h1
    · cases neg <;> simp at h1
      exact Or.inr (Or.inr h1)
    · rcases hc c h1 with h | h
      · exact Or.inl h
      · exact Or.inr (Or.inl h)
  simp only [List.mem_cons, List.not_mem_nil, or_false] at hm
  rcases hm with rfl | rfl | rfl | rfl | rfl | rfl | rfl <;> revert key <;> decide

theorem not_op_of {t : Str} {c : Char} (hc : c ∈ t) (h : c ∉ ['!', '@', '=', ';', '/', '\n', '\r']) :
    t ∉ [s%"!", s%"!!", s%"@", s%"="] := by
  intro hm
  simp only [List.mem_cons, List.not_mem_nil, or_false] at hm
  apply h
  rcases hm with rfl | rfl | rfl | rfl <;> simp at hc <;> simp [hc]

theorem display_written (x : Amount M) {neg : Bool} {d k : Nat} (hn : IsNumeral (Mag.fmt (round8 x.mag)) neg d k)
    (hs : ∀ s, x.sym = some s → ValidSymbol '.' s ∧ NoComment s ∧ s ∉ [s%"!", s%"!!", s%"@", s%"="]) :
    ∃ lead t, x.display = lead ++ t ∧ (lead = [] ∨ lead = [' ']) ∧
      WrittenAmount t ((if neg then -1 else 1) * ((d : Rat) / 10 ^ k)) x.sym ∧ NoOps t ∧ rc t = t ∧
      '\n' ∉ t ∧ t.getLast? ≠ some '\r' := by
  obtain ⟨m, y⟩ := x
  simp only at hs hn ⊢
  have hp := hn.plain
  have hrc : rc (Mag.fmt (round8 m)) = Mag.fmt (round8 m) := rc_none fun c hc => by
    have := hp c hc; simp at this; exact ⟨this.2.2.2.1, this.2.2.2.2.1⟩
  generalize hw : Mag.fmt (round8 m) = w at hn hp hrc
  have hword : isWord w := ⟨hn.chars.1, hn.noWs⟩
  obtain ⟨c0, r0, hc0⟩ := List.exists_cons_of_ne_nil hword.1
  have hop : ∀ t, (∀ c ∈ w, c ∈ t) → t ∉ [s%"!", s%"!!", s%"@", s%"="] := fun t ht =>
    not_op_of (ht c0 (by simp [hc0])) (hp c0 (by simp [hc0]))
  have hws : ∀ t : Str, (∀ c ∈ t, isWs c = false) → '\n' ∉ t ∧ '\r' ∉ t := by
    intro t ht
    constructor <;> intro hm <;> (have := ht _ hm; revert this; decide)
  have hlast : ∀ t : Str, '\r' ∉ t → t.getLast? ≠ some '\r' := fun t ht h => ht (List.mem_of_getLast? h)
  cases y with
  | none =>
    have hW : WrittenAmount w ((if neg then -1 else 1) * ((d : Rat) / 10 ^ k)) none :=
      ⟨w, neg, d, k, hn, rfl, Or.inl ⟨rfl, rfl⟩⟩
    have hO : NoOps w := by
      unfold NoOps
      rw [splitWs_word hword]
      intro t ht
      rw [List.mem_singleton.1 ht]
      exact hop w fun _ h => h
    obtain ⟨e1, e2⟩ := hws w hword.2
    unfold Amount.display magText
    simp only [hw]
    split
    · exact ⟨[], w, rfl, Or.inl rfl, hW, hO, hrc, e1, hlast w e2⟩
    · exact ⟨[' '], w, rfl, Or.inr rfl, hW, hO, hrc, e1, hlast w e2⟩
  | some sym =>
    obtain ⟨hv, hc, hno⟩ := hs sym rfl
    have hsw : isWord sym := ⟨hv.1, fun c hc => (hv.2 c hc).1⟩
    have hrs := (noComment_iff sym).1 hc
    obtain ⟨e1, e2⟩ := hws w hword.2
    obtain ⟨f1, f2⟩ := hws sym hsw.2
    have hW : ∀ t ∈ [sym ++ w, w ++ sym, sym ++ s%" " ++ w, w ++ s%" " ++ sym],
        WrittenAmount t ((if neg then -1 else 1) * ((d : Rat) / 10 ^ k)) (some sym) :=
      fun t ht => ⟨w, neg, d, k, hn, rfl, Or.inr ⟨sym, rfl, hv, ht⟩⟩
    have two : ∀ a b : Str, isWord a → isWord b → a ∉ [s%"!", s%"!!", s%"@", s%"="] → b ∉ [s%"!", s%"!!", s%"@", s%"="] →
        NoOps (a ++ s%" " ++ b) := by
      intro a b ha hb h1 h2
      unfold NoOps
      rw [show a ++ s%" " ++ b = a ++ ' ' :: b by simp, splitWs_words2 ha hb]
      intro t ht
      simp only [List.mem_cons, List.not_mem_nil, or_false] at ht
      rcases ht with rfl | rfl
      · exact h1
      · exact h2
    unfold Amount.display magText
    simp only [hw]
    split
    · split
      · refine ⟨[], sym ++ w, rfl, Or.inl rfl, hW _ (by simp), ?_, ?_, ?_, ?_⟩
        · unfold NoOps
          rw [splitWs_word ⟨by simp [hsw.1], fun c hc => (List.mem_append.1 hc).elim (hsw.2 c) (hword.2 c)⟩]
          intro t ht
          rw [List.mem_singleton.1 ht]
          exact hop _ fun _ h => List.mem_append_right _ h
        · rw [rc_append hrs ?_, hrc]
          have := hp c0 (by simp [hc0])
          rw [hc0]; simp at this ⊢; exact this.2.2.2.2.1
        · simp [e1, f1]
        · exact hlast _ (by simp [e2, f2])
      · refine ⟨[], sym ++ s%" " ++ w, by simp, Or.inl rfl, hW _ (by simp), two _ _ hsw hword hno (hop _ fun _ h => h), ?_, ?_, ?_⟩
        · rw [List.append_assoc]
          show rc (sym ++ ' ' :: w) = _
          rw [rc_space hrs, hrc]; rfl
        · simp [e1, f1]
        · exact hlast _ (by simp [e2, f2])
    · have g : rc (w ++ s%" " ++ sym) = w ++ s%" " ++ sym := by
        rw [List.append_assoc]
        show rc (w ++ ' ' :: sym) = _
        rw [rc_space hrc, hrs]; rfl
      have g1 : '\n' ∉ w ++ s%" " ++ sym := by simp [e1, f1]
      have g2 : (w ++ s%" " ++ sym).getLast? ≠ some '\r' := hlast _ (by simp [e2, f2])
      split
      · exact ⟨[], w ++ s%" " ++ sym, by simp, Or.inl rfl, hW _ (by simp), two _ _ hword hsw (hop _ fun _ h => h) hno, g, g1, g2⟩
      · exact ⟨[' '], w ++ s%" " ++ sym, by simp, Or.inr rfl, hW _ (by simp), two _ _ hword hsw (hop _ fun _ h => h) hno, g, g1, g2⟩

/-- An amount of at most eight decimals is printed as such an amount again. -/
theorem printed_again (t : Str) (q : Rat) (s : Option Str) (h : WrittenAmount t q s) (hc : NoComment t)
    (hs : ∀ y, s = some y → y ∉ [s%"!", s%"!!", s%"@", s%"="]) (D : Int)
    (hD : q * 100000000 = D) (hb : D.natAbs < 2 ^ 51) :
    ∃ x : Amount F64, Amount.parse t '.' = .ok x ∧ x.sym = s ∧
      ∃ lead t', x.display = lead ++ t' ∧ (lead = [] ∨ lead = [' ']) ∧ WrittenAmount t' q s ∧ NoOps t' ∧ rc t' = t' ∧
        '\n' ∉ t' ∧ t'.getLast? ≠ some '\r' := by
  have hp : Amount.parse t '.' = .ok (⟨PLine.mag ⟨[], [], [], t, none⟩, s⟩ : Amount F64) :=
    WrittenAmount.parse_mag (l := ⟨[], [], [], t, none⟩) h
  obtain ⟨neg, n, e, hn⟩ := WrittenAmount.typed (l := ⟨[], [], [], t, none⟩) h D hD
  refine ⟨_, hp, rfl, ?_⟩
  generalize (PLine.mag ⟨[], [], [], t, none⟩ : F64) = x at *
  subst e
  have hlt : n < 2 ^ 51 := by
    rw [hn] at hb
    cases neg <;> simpa [F64.sgn] using hb
  obtain ⟨hr, e⟩ := typed_fin neg n hlt
  have hfix := round8_fixed neg n hlt hr
  rw [← e] at hfix
  obtain ⟨d, k, q1, q2⟩ := fmt_shows neg n hlt
  have eq : q = (if neg then -1 else 1) * ((d : Rat) / 10 ^ k) := by
    have h2 : (d : Rat) * 10 ^ 8 = n * 10 ^ k := by exact_mod_cast q2
    have hk : (0 : Rat) < 10 ^ k := by positivity
    have e : (d : Rat) / 10 ^ k = n / 100000000 := by
      rw [div_eq_div_iff hk.ne' (by norm_num)]
      rw [← h2]; norm_num
    rw [e]
    have : q = (D : Rat) / 100000000 := by rw [← hD]; field_simp
    rw [this, hn]
    cases neg <;> simp [F64.sgn] <;> ring
  rw [eq]
  refine display_written (⟨F64.mkRound neg (n * F64.unit) 100000000, s⟩ : Amount F64) (neg := neg) (d := d) (k := k) ?_ ?_
  · simp only [hfix]; exact q1
  · intro sym hsym
    simp only at hsym
    obtain ⟨_, _, _, _, _, _, h3 | ⟨sym', e1, hv, ht⟩⟩ := h
    · rw [h3.1] at hsym; cases hsym
    · rw [e1] at hsym; cases hsym
      refine ⟨hv, ?_, hs _ e1⟩
      have hin : sym <:+: t := by
        simp only [List.mem_cons, List.not_mem_nil, or_false] at ht
        rcases ht with rfl | rfl | rfl | rfl
        · exact (List.prefix_append _ _).isInfix
        · exact (List.suffix_append _ _).isInfix
        · rw [List.append_assoc]; exact (List.prefix_append _ _).isInfix
        · exact (List.suffix_append _ _).isInfix
      exact ⟨fun hm => hc.1 (hin.subset hm), fun hm => hc.2 (hm.trans hin)⟩

/-! ### The rules -/

/-- What the rules set. -/
def statementVals (cols : List Str) (fmt : Str) (dec : Char) (a b : Str) : RuleVals :=
  { RuleVals.default with
    accounts := [(s%"1", a), (s%"2", b)]
    amounts := [(s%"1", s%"%amount%")]
    dateFormat := fmt
    decimal := dec
    fields := cols }

theorem ruleLines_inked (ls : List Str) (h : ∀ l ∈ inked ls, NoComment l) : ruleLines ls = inked ls := by
  induction ls with
  | nil => rfl
  | cons l ls ih =>
    by_cases hb : l.all isWs = true
    · have h1 : inked (l :: ls) = inked ls := by simp [inked, hb]
      rw [h1] at h ⊢
      rw [← ih h]
      have hw : allWs l := fun c hc => List.all_eq_true.1 hb c hc
      have : (trim (removeComments l)).isEmpty = true := by
        rw [removeComments_eq_rc, rc_allWs hw, List.isEmpty_iff, trim_eq_nil]; exact hw
      simp [ruleLines, this]
    · have h1 : inked (l :: ls) = l :: inked ls := by simp [inked, hb]
      rw [h1] at h ⊢
      rw [← ih fun x hx => h x (by simp [hx])]
      have e : removeComments l = l := by rw [removeComments_eq_rc]; exact (noComment_iff l).1 (h l (by simp))
      have : (trim l).isEmpty = false := by
        rw [Bool.eq_false_iff, ne_eq, List.isEmpty_iff, trim_eq_nil]
        intro ha; exact hb (List.all_eq_true.2 ha)
      simp [ruleLines, e, this]

theorem splitOn_join (cols : List Str) (hne : cols ≠ []) (h : ∀ c ∈ cols, ',' ∉ c) :
    splitOn ',' (joinWith s%"," cols) = cols := by
  induction cols with
  | nil => exact absurd rfl hne
  | cons c cols ih =>
    cases cols with
    | nil => exact splitOn_none (h c (by simp))
    | cons d cols =>
      show splitOn ',' (c ++ s%"," ++ joinWith s%"," (d :: cols)) = _
      rw [List.append_assoc]
      show splitOn ',' (c ++ ',' :: joinWith s%"," (d :: cols)) = _
      rw [splitOn_append, splitOn_none (h c (by simp)), ih (by simp) fun x hx => h x (by simp [hx])]
      rfl

theorem word_startsInk {k : Str} (h : isWord k) : startsInk k = true := by
  obtain ⟨c, r, rfl⟩ := List.exists_cons_of_ne_nil h.1
  simp [startsInk, h.2 c (by simp)]

theorem rule_of (n value : Str) (hn : ∀ c ∈ n, isWs c = false ∧ c.utf8Size = 1) (hne : n ≠ [])
    (hv : startsInk value = true) (hd : trim value ≠ s%"-") (v : RuleVals) :
    splitRule (n ++ ' ' :: value) = .ok (n, value) ∧ applyRule v (n ++ ' ' :: value) = v.set n value := by
  have h := C65_layout [] n value ' ' [] (by simp) hn hne (Or.inl rfl) (by simp) (Or.inl hv)
  simp only [List.nil_append] at h
  refine ⟨h, ?_⟩
  unfold applyRule
  rw [h]
  simp only [bind, Except.bind, if_neg hd]

theorem StatementRules.read {accs cols : List Str} {fmt a b rules : Str} {dec : Char} (h : StatementRules accs cols fmt dec a b rules)
    (hacc : ∀ k ∈ accs, isWord k ∧ NoComment (s%"account " ++ k)) (inc : Rules → Str → Res Rules) :
    addLines inc (lines rules) Rules.default .root = .ok (.mk (statementVals cols fmt dec a b) .nil) := by
  have hcols : cols ≠ [] := List.ne_nil_of_mem h.named
  have hsplit := splitOn_join cols hcols fun c hc => (h.columns.2 c hc).2.1
  have hnc : ∀ k ∈ accs, NoComment k := fun k hk =>
    ⟨fun hm => (hacc k hk).2.1 (List.mem_append_right _ hm), fun hm =>
      (hacc k hk).2.2 (hm.trans (List.suffix_append _ _).isInfix)⟩
  have hpl : ∀ (p k : Str), NoComment (p ++ s%" ") → p.getLast? ≠ some '/' → k ∈ accs → NoComment (p ++ ' ' :: k) := by
    intro p k h1 h2 h3
    rw [noComment_iff] at h1 ⊢
    have h4 : rc p = p := by
      have := (noComment_iff (p ++ s%" ")).2 h1
      exact (noComment_iff p).1 ⟨fun hm => this.1 (List.mem_append_left _ hm), fun hm =>
        this.2 (hm.trans (List.prefix_append _ _).isInfix)⟩
    rw [rc_space h4, (noComment_iff k).1 (hnc k h3)]
  have hjoin : trim (joinWith s%"," cols) ≠ s%"-" ∧ startsInk (joinWith s%"," cols) = true := by
    constructor
    · intro he
      have hin : ∀ c ∈ joinWith s%"," cols, isWs c = false := by
        intro c hc
        rcases mem_joinWith hc with hm | ⟨t, ht, hm⟩
        · simp at hm; rw [hm]; decide
        · exact (h.columns.2 t ht).1.2 c hm
      have hw : isWord (joinWith s%"," cols) := by
        refine ⟨?_, hin⟩
        intro e
        rw [e] at he; revert he; decide
      rw [word_trim hw] at he
      rw [he] at hsplit
      have := h.named
      rw [← hsplit] at this
      revert this; decide
    · obtain ⟨c, cs, rfl⟩ := List.exists_cons_of_ne_nil hcols
      have hc := word_startsInk (h.columns.2 c (by simp)).1
      obtain ⟨x, r, hx⟩ := List.exists_cons_of_ne_nil (h.columns.2 c (by simp)).1.1
      rw [hx] at hc ⊢
      cases cs with
      | nil => exact hc
      | cons d cs => exact hc
  obtain ⟨more, htext, hmore⟩ := h.text
  have hdc : NoComment (s%"decimal_symbol " ++ [dec]) := by
    rw [noComment_iff, show s%"decimal_symbol " ++ [dec] = s%"decimal_symbol" ++ ' ' :: [dec] by simp, rc_space (by decide)]
    congr 2
    by_cases e : dec = '/'
    · subst e; decide
    · exact rc_none fun c hc => by rw [List.mem_singleton.1 hc]; exact ⟨h.sign.plain.2.2.2.1, e⟩
  have hlines : ruleLines (lines rules) = inked (lines rules) := by
    refine ruleLines_inked _ ?_
    rw [htext]
    intro l hl
    rcases List.mem_append.1 hl with hl | hl
    · simp only [List.mem_cons, List.not_mem_nil, or_false] at hl
      rcases hl with rfl | rfl | rfl | rfl | rfl
      · exact h.plain.1
      · exact h.plain.2
      · exact hpl s%"account1" a (by decide) (by decide) h.first.declared
      · decide
      · exact hpl s%"account2" b (by decide) (by decide) h.second.declared
    · rcases hmore with ⟨rfl, _⟩ | rfl
      · cases hl
      · rw [List.mem_singleton.1 hl]; exact hdc
  have nm : ∀ n ∈ [s%"fields", s%"date_format", s%"account1", s%"amount1", s%"account2", s%"decimal_symbol"],
      (∀ c ∈ n, isWs c = false ∧ c.utf8Size = 1) ∧ n ≠ [] := by decide
  have r1 := rule_of s%"fields" (joinWith s%"," cols) (nm _ (by simp)).1 (by simp) hjoin.2 hjoin.1
  have r2 := rule_of s%"date_format" fmt (nm _ (by simp)).1 (by simp) h.format.1 h.format.2
  have r3 := rule_of s%"account1" a (nm _ (by simp)).1 (by simp) (word_startsInk h.first.word)
    (by rw [word_trim h.first.word]; exact h.first.other.1)
  have r4 := rule_of s%"amount1" s%"%amount%" (nm _ (by simp)).1 (by simp) (by decide) (by decide)
  have r5 := rule_of s%"account2" b (nm _ (by simp)).1 (by simp) (word_startsInk h.second.word)
    (by rw [word_trim h.second.word]; exact h.second.other.1)
  have hdash : [dec] ≠ s%"-" := by
    intro e
    simp only [List.cons.injEq, and_true] at e
    exact h.sign.plain.2.1 e
  have hdw : isWord [dec] := ⟨by simp, fun c hc => by rw [List.mem_singleton.1 hc]; exact h.sign.plain.2.2.1⟩
  have r6 := rule_of s%"decimal_symbol" [dec] (nm _ (by simp)).1 (by simp) (word_startsInk hdw)
    (by rw [word_trim hdw]; exact hdash)
  have ht : (cols.map trim) = cols := by
    conv_rhs => rw [← List.map_id cols]
    exact List.map_congr_left fun c hc => word_trim (h.columns.2 c hc).1
  have s1 : ∀ v : RuleVals, v.set s%"fields" (joinWith s%"," cols) = .ok { v with fields := v.fields ++ cols } := by
    intro v
    rw [show v.set s%"fields" (joinWith s%"," cols) =
      .ok { v with fields := v.fields ++ (splitOn ',' (joinWith s%"," cols)).map trim } from rfl, hsplit, ht]
  have s6 : ∀ v : RuleVals, v.set s%"decimal_symbol" [dec] = .ok { v with decimal := dec } := by
    intro v
    have h1 : ¬ utf8Len [dec] > 1 := by
      show ¬ ([dec].map Char.utf8Size).sum > 1
      simp [h.sign.short]
    show (if utf8Len [dec] > 1 then _ else _) = _
    rw [if_neg h1]
    rfl
  have key : ∀ (n value : Str), n.head?.isSome = true → startsInk n = true → startsWith s%"if" (n ++ ' ' :: value) = false →
      isInclude n = false → splitRule (n ++ ' ' :: value) = .ok (n, value) → (RuleItem.rule (n ++ ' ' :: value)).Wf := by
    intro n value h0 h1 h2 h3 h4
    refine ⟨?_, h2, ?_⟩
    · cases n with
      | nil => cases h0
      | cons c n => exact h1
    · intro n' v' h5
      rw [h4] at h5
      cases h5
      exact h3
  have v := RuleVals.default
  rcases hmore with ⟨rfl, rfl⟩ | rfl
  · rw [addLines_items inc (lines rules) ([s%"fields" ++ ' ' :: joinWith s%"," cols, s%"date_format" ++ ' ' :: fmt,
      s%"account1" ++ ' ' :: a, s%"amount1" ++ ' ' :: s%"%amount%", s%"account2" ++ ' ' :: b].map RuleItem.rule) ?_ ?_]
    · simp only [List.map_cons, List.map_nil, build, r1, r2, r3, r4, r5, Rules.default, Rules.vals, Rules.subs]
      rw [s1]
      rfl
    · intro i hi
      simp only [List.map_cons, List.map_nil, List.mem_cons, List.not_mem_nil, or_false] at hi
      rcases hi with rfl | rfl | rfl | rfl | rfl
      · exact key _ _ rfl rfl rfl rfl (r1 v).1
      · exact key _ _ rfl rfl rfl rfl (r2 v).1
      · exact key _ _ rfl rfl rfl rfl (r3 v).1
      · exact key _ _ rfl rfl rfl rfl (r4 v).1
      · exact key _ _ rfl rfl rfl rfl (r5 v).1
    · rw [hlines, htext]
      rfl
  · rw [addLines_items inc (lines rules) ([s%"fields" ++ ' ' :: joinWith s%"," cols, s%"date_format" ++ ' ' :: fmt,
      s%"account1" ++ ' ' :: a, s%"amount1" ++ ' ' :: s%"%amount%", s%"account2" ++ ' ' :: b,
      s%"decimal_symbol" ++ ' ' :: [dec]].map RuleItem.rule) ?_ ?_]
    · simp only [List.map_cons, List.map_nil, build, r1, r2, r3, r4, r5, r6, Rules.default, Rules.vals, Rules.subs]
      rw [s1]
      simp only [s6]
      rfl
    · intro i hi
      simp only [List.map_cons, List.map_nil, List.mem_cons, List.not_mem_nil, or_false] at hi
      rcases hi with rfl | rfl | rfl | rfl | rfl | rfl
      · exact key _ _ rfl rfl rfl rfl (r1 v).1
      · exact key _ _ rfl rfl rfl rfl (r2 v).1
      · exact key _ _ rfl rfl rfl rfl (r3 v).1
      · exact key _ _ rfl rfl rfl rfl (r4 v).1
      · exact key _ _ rfl rfl rfl rfl (r5 v).1
      · exact key _ _ rfl rfl rfl rfl (r6 v).1
    · rw [hlines, htext]
      rfl

/-! ### The entry of a row -/

theorem noMixUp_short (vars : List (Str × Str)) (value : Str → Str) (segs : List Seg) (h : segs.length ≤ 2) :
    NoMixUp vars value segs := by
  intro A x run y B he _ _ hr _
  exfalso
  have := congrArg List.length he
  simp only [List.length_append, List.length_cons] at this
  have : run.length ≠ 0 := fun h => hr (List.length_eq_zero_iff.1 h)
  omega

theorem says_text (cols : List (Str × Str)) {s : Str} (h : '%' ∉ s) : Says cols s s :=
  ⟨[.text s], by simp [render, Seg.render], by simpa [Clean] using h, by simp, noMixUp_short _ _ _ (by simp),
    by simp [meant, Seg.meant]⟩

theorem says_var {cols : List (Str × Str)} (hn : (cols.map Prod.fst).Nodup) {n v : Str} (h : (n, v) ∈ cols) {s : Str} (hs : '%' ∉ s) :
    Says cols (s ++ '%' :: (n ++ ['%'])) (s ++ v) :=
  ⟨[.text s, .var n], by simp [render, Seg.render], by simpa [Clean] using hs,
    by simpa using ⟨v, h⟩, noMixUp_short _ _ _ (by simp), by
      have := valueIn_mem hn h
      simp only at this
      simp [meant, Seg.meant, this]⟩

/-- The text of an entry. -/
def PEntry.full (e : PEntry) : Str := e.header ++ '\n' :: (e.lines.flatMap fun l => l.text ++ ['\n'])

/-- The entry is what the row stands for: the amount to `a`, and `b` left blank. -/
def StandsFor (a b : Str) (r : BankRow) (e : PEntry) : Prop :=
  (e.day = r.day ∧ e.mark = s%"~" ∧ e.title = r.title) ∧ ∃ l1 l2 : PLine, (e.lines = [l1, l2] ∨ e.lines = [l2, l1]) ∧ l1.account = a ∧
    l1.value = some (r.value, r.currency) ∧ l2.account = b ∧ l2.value = none

theorem perm_two {α : Type} {l : List α} {x y : α} (h : l.Perm [x, y]) : l = [x, y] ∨ l = [y, x] := by
  match l, h.length_eq with
  | [u, v], _ =>
    have hu : u ∈ [x, y] := h.subset (by simp)
    simp only [List.mem_cons, List.not_mem_nil, or_false] at hu
    rcases hu with rfl | rfl
    · left
      have := (List.perm_cons _).1 h
      rw [List.perm_singleton.1 this]
    · right
      have := (List.perm_cons _).1 (h.trans (List.Perm.swap _ _ _))
      rw [List.perm_singleton.1 this]

theorem map_fst_zip_sub {α β : Type} : ∀ (l : List α) (m : List β), ((l.zip m).map Prod.fst).Sublist l
  | [], _ => by simp
  | _ :: _, [] => by simp
  | a :: l, b :: m => by simpa using map_fst_zip_sub l m

theorem rc_line {ind k gap t : Str} (h1 : allWs ind) (h2 : rc k = k) (h3 : allWs gap) (h4 : gap ≠ []) (h5 : rc t = t) :
    rc (ind ++ k ++ gap ++ t) = ind ++ k ++ gap ++ t := by
  rw [List.append_assoc, List.append_assoc, rc_ws h1, rc_gap h2 h3 h4, h5]

theorem row_entry {env : Env} (hord : FairOrder env.ord) {accs cols known record : List Str} {fmt a b rules : Str}
    {dec : Char} (h : StatementRules accs cols fmt dec a b rules) (hacc : ∀ k ∈ accs, isWord k ∧ NoComment (s%"account " ++ k))
    (hn : ∀ k ∈ accs, k ∈ known) {r : BankRow} (hin : r.In dec cols record) (hr : r.Ok env fmt) :
    ∃ (x : Entry F64) (pe : PEntry), (statementVals cols fmt dec a b).entry env record known = .ok x ∧
      x.asParsable env s%"%Y/%m/%d" = .ok pe.full ∧ pe.Ok env accs ∧ StandsFor a b r pe ∧
      (∀ t ∈ pe.header :: pe.lines.map PLine.text, t.getLast? ≠ some '\r') ∧
      (∀ p ∈ x.postings, p.amount = none → ∃ m, x.blankAmount = .ok m) ∧
      ∃ me : PEntry, me.Ok env accs ∧ StandsFor a b r me ∧
        EntryOf me { x with description := joinWith s%" " (Silverfox.splitWs me.title) } := by
  have hnc : ∀ k ∈ accs, rc k = k := fun k hk => (noComment_iff k).1
    ⟨fun hm => (hacc k hk).2.1 (List.mem_append_right _ hm), fun hm =>
      (hacc k hk).2.2 (hm.trans (List.suffix_append _ _).isInfix)⟩
  obtain ⟨D, hD, hDb⟩ := hr.small
  obtain ⟨y, hy, hys, lead, t', d1, d2, d3, d4, d5, d6, d7⟩ := printed_again r.amount r.value r.currency hr.amount hr.plain.1
    hr.currency D hD hDb
  have hz : ((cols.zip record).map Prod.fst).Nodup :=
    List.Nodup.sublist (map_fst_zip_sub _ _) h.columns.1
  have hgood : GoodColumns (cols.zip record) := by
    refine ⟨hz, ?_⟩
    intro p hp
    obtain ⟨p1, p2⟩ := p
    have h1 := List.of_mem_zip hp
    exact ⟨(h.columns.2 _ h1.1).2.2, (h.columns.2 _ h1.1).1.1, hin.clean _ h1.2⟩
  -- the line for `a`
  let l1 : PLine := ⟨s%"    ", a, List.replicate (50 - a.length) ' ' ++ ' ' :: lead, t', some (r.value, r.currency)⟩
  let l2 : PLine := ⟨s%"    ", b, List.replicate (50 - b.length) ' ' ++ s%" ", [], none⟩
  let p1 : Posting F64 := .classic ⟨a, some y, none, none⟩
  let p2 : Posting F64 := .classic ⟨b, none, none, none⟩
  have hws : ∀ n, allWs (List.replicate n ' ') := by
    intro n c hc
    rw [(List.mem_replicate.1 hc).2]; decide
  have hlead : allWs lead := by rcases d2 with rfl | rfl <;> decide
  have t1 : s%"    " ++ p1.display = l1.text := by
    show s%"    " ++ (padRight 50 a ++ ' ' :: (y.display ++ [] ++ [])) = s%"    " ++ a ++ (List.replicate (50 - a.length) ' ' ++ ' ' :: lead) ++ t'
    rw [d1]; simp [padRight]
  have t2 : s%"    " ++ p2.display = l2.text := by
    show s%"    " ++ (padRight 50 b ++ ' ' :: ([] ++ [] ++ [])) = s%"    " ++ b ++ (List.replicate (50 - b.length) ' ' ++ s%" ") ++ []
    simp [padRight]
  have g1 : allWs l1.gap := allWs_append.2 ⟨hws _, fun c hc => by
    rcases List.mem_cons.1 hc with rfl | hc
    · decide
    · exact hlead c hc⟩
  have g2 : allWs l2.gap := allWs_append.2 ⟨hws _, by decide⟩
  have hi : allWs s%"    " := by decide
  have hnl : '\n' ∉ lead := by rcases d2 with rfl | rfl <;> decide
  have ok1 : l1.Ok accs := by
    refine ⟨⟨hi, by simp [l1]⟩, h.first.word, h.first.other.2, h.first.declared, g1, ⟨?_, ?_⟩, by simp [l1], ?_⟩
    · rw [noComment_iff]
      exact rc_line hi (hnc _ h.first.declared) g1 (by simp [l1]) d5
    · show '\n' ∉ s%"    " ++ a ++ (List.replicate (50 - a.length) ' ' ++ ' ' :: lead) ++ t'
      have := word_noNl h.first.word
      unfold noNl at this
      simp [this, hnl, d6, List.mem_replicate]
    · intro q s hq
      cases hq
      exact ⟨by simp [l1], d4, d3⟩
  have ok2 : l2.Ok accs := by
    refine ⟨⟨hi, by simp [l2]⟩, h.second.word, h.second.other.2, h.second.declared, g2, ⟨?_, ?_⟩, by simp [l2], by simp [l2]⟩
    · rw [noComment_iff]
      exact rc_line hi (hnc _ h.second.declared) g2 (by simp [l2]) rfl
    · show '\n' ∉ s%"    " ++ b ++ (List.replicate (50 - b.length) ' ' ++ s%" ") ++ []
      have := word_noNl h.second.word
      unfold noNl at this
      simp [this, List.mem_replicate]
  have e1 : l1.text.getLast? ≠ some '\r' := by
    obtain ⟨c, u, hc⟩ := List.exists_cons_of_ne_nil (l := t') (by rintro rfl; exact d3.words.1 rfl)
    show (s%"    " ++ a ++ (List.replicate (50 - a.length) ' ' ++ ' ' :: lead) ++ t').getLast? ≠ _
    rw [List.getLast?_append_of_ne_nil _ (by rw [hc]; simp)]
    exact d7
  have e2 : l2.text.getLast? ≠ some '\r' := by
    show (s%"    " ++ b ++ (List.replicate (50 - b.length) ' ' ++ s%" ") ++ []).getLast? ≠ _
    rw [List.append_nil, ← List.append_assoc, List.getLast?_append_of_ne_nil _ (by simp)]
    decide
  have hclean : '%' ∉ a ++ s%" " := by
    intro hm
    rcases List.mem_append.1 hm with hm | hm
    · exact h.first.clean hm
    · revert hm; decide
  have hnla : '\n' ∉ r.amount := by
    intro hm
    rw [← hr.amount.words.2] at hm
    rcases mem_joinWith hm with hm | ⟨t, ht, hm⟩
    · revert hm; decide
    · have := (splitWs_isWord _ t ht).2 _ hm
      revert this; decide
  let l0 : PLine := ⟨s%" ", a, s%" ", r.amount, some (r.value, r.currency)⟩
  have hs : allWs s%" " := by decide
  have hrc := (noComment_iff _).1 hr.plain.1
  have hok : l0.Ok accs := by
    refine ⟨⟨hs, by simp [l0]⟩, h.first.word, h.first.other.2, h.first.declared, hs, ⟨?_, ?_⟩, by simp [l0], ?_⟩
    · rw [noComment_iff]
      exact rc_line hs (hnc _ h.first.declared) hs (by simp [l0]) hrc
    · show '\n' ∉ s%" " ++ a ++ s%" " ++ r.amount
      have := word_noNl h.first.word
      unfold noNl at this
      simp [this, hnla]
    · intro q s hq
      cases hq
      exact ⟨by simp [l0], hr.plain.2, hr.amount⟩
  have hp0 : p1 = l0.posting := by
    have hm : (l0.mag : F64) = y.mag := by
      have := WrittenAmount.parse_mag (M := F64) (l := l0) hr.amount
      rw [show l0.amount = r.amount from rfl, hy] at this
      injection this with this
      rw [this]
    show Posting.classic _ = Posting.classic ⟨a, some ⟨l0.mag, r.currency⟩, none, none⟩
    rw [hm, ← hys]
  obtain ⟨ta, hta, hno⟩ := hin.amount
  have q1 : Posting.parse (a ++ s%" " ++ ta) dec known = .ok p1 :=
    notation_posting h.sign hno hr.amount h.first.word (hnc _ h.first.declared) h.first.other.2 (hn _ h.first.declared) hy
  have q2 : Posting.parse b dec known = .ok p2 :=
    blank_posting dec h.second.word (hnc _ h.second.declared) h.second.other.2 (hn _ h.second.declared)
  obtain ⟨ds, w1, w2, w3, w4⟩ := hr.day
  obtain ⟨x, hx, x1, x2, x3, x4, x5, x6⟩ := C95_record (M := F64) env (statementVals cols fmt dec a b) record known (fun l => hord _ l) hgood
    (by simp [amountRules, statementVals]) r.date r.day (says_var hz hin.date (s := []) (by simp)) hr.date r.title
    (says_var hz hin.title (s := []) (by simp)) s%"~" .cleared (says_text (s := s%"~") _ (by decide)) .cleared none none
    (Or.inl ⟨(fun c hc => nomatch hc), rfl⟩) (Or.inl ⟨(fun c hc => nomatch hc), rfl⟩) [p1, p2] [p1, p2]
    (.cons ⟨_, _, Or.inl ⟨s%"%amount%", by simp [amountRules, statementVals], rfl⟩,
      says_var hz hta (s := a ++ s%" ") hclean, q1⟩
      (.cons ⟨_, _, Or.inr ⟨by simp [amountRules, statementVals], rfl⟩, says_text _ h.second.clean, q2⟩ .nil)) (.enough (by simp))
  have hblank : x.blankAmount = .ok (some ⟨Mag.neg y.mag, y.sym⟩) := by
    have hg : givenAmounts x.postings = [y] := by
      rcases perm_two x6 with e | e <;> rw [e] <;> rfl
    exact blankAmount_single x y.sym y [] ⟨p2, x6.symm.subset (by simp), rfl⟩ (by
      intro u hu
      rw [hg, List.mem_singleton] at hu
      rw [hu]) hg
  have hEok : ∀ (u : PLine) (ls : List PLine), u.Ok accs → u.value = some (r.value, r.currency) →
      (ls = [u, l2] ∨ ls = [l2, u]) → (⟨ds, s%"~", r.title, r.day, ls⟩ : PEntry).Ok env accs := by
    intro u ls hu hu1 hls
    refine ⟨⟨w3.1, w4, w2⟩, by simp, hr.title.1, ⟨?_, ?_⟩, ?_, ?_, ?_⟩
    · rw [noComment_iff]
      show rc (ds ++ s%" " ++ s%"~" ++ s%" " ++ r.title) = _
      rw [show ds ++ s%" " ++ s%"~" ++ s%" " ++ r.title = ds ++ ' ' :: (s%"~" ++ ' ' :: r.title) by simp,
        rc_space ((noComment_iff _).1 w3.2), rc_space (a := s%"~") (by decide), (noComment_iff _).1 hr.title.2.1]
      simp [PEntry.header]
    · show '\n' ∉ ds ++ s%" " ++ s%"~" ++ s%" " ++ r.title
      have := word_noNl w3.1
      unfold noNl at this
      simp [this, hr.title.2.2.1]
    · intro l hl
      rcases hls with rfl | rfl <;> simp only [List.mem_cons, List.not_mem_nil, or_false] at hl <;>
        rcases hl with rfl | rfl <;> assumption
    · rcases hls with rfl | rfl <;> simp [hu1, l2]
    · intro _
      have : (⟨ds, s%"~", r.title, r.day, ls⟩ : PEntry).given = [(r.value, r.currency)] := by
        rcases hls with rfl | rfl <;> simp [PEntry.given, hu1, l2]
      rw [this]
      exact ⟨by simp, r.currency, by simp⟩
  have mk : ∀ (ps : List (Posting F64)) (ls : List PLine), x.postings = ps →
      (ps.map fun p => s%"    " ++ p.display ++ ['\n']).flatten = ls.flatMap (fun l => l.text ++ ['\n']) →
      (ps = [p1, p2] ∧ ls = [l1, l2] ∨ ps = [p2, p1] ∧ ls = [l2, l1]) → ∃ (x : Entry F64) (pe : PEntry), (statementVals cols fmt dec a b).entry env record known = .ok x ∧
      x.asParsable env s%"%Y/%m/%d" = .ok pe.full ∧ pe.Ok env accs ∧ StandsFor a b r pe ∧
      (∀ t ∈ pe.header :: pe.lines.map PLine.text, t.getLast? ≠ some '\r') ∧
      (∀ p ∈ x.postings, p.amount = none → ∃ m, x.blankAmount = .ok m) ∧
      ∃ me : PEntry, me.Ok env accs ∧ StandsFor a b r me ∧
        EntryOf me { x with description := joinWith s%" " (Silverfox.splitWs me.title) } := by
    intro ps ls hps htx hpl
    have hls : ls = [l1, l2] ∨ ls = [l2, l1] := hpl.imp And.right And.right
    have hmem : ∀ l ∈ ls, l = l1 ∨ l = l2 := by
      rcases hls with rfl | rfl <;> intro l hl <;> simp only [List.mem_cons, List.not_mem_nil, or_false] at hl
      · exact hl
      · exact hl.symm
    refine ⟨x, ⟨ds, s%"~", r.title, r.day, ls⟩, hx, ?_, ?_, ?_, ?_, fun _ _ _ => ⟨_, hblank⟩, ?_⟩
    · unfold Entry.asParsable
      rw [x1, x2, x3, x4, x5, hps, htx, w1]
      simp only [unwrap, bind, Except.bind, pure, Except.pure, PEntry.full, PEntry.header, Status.toChar]
      simp
    · exact hEok l1 ls ok1 rfl hls
    · exact ⟨⟨rfl, rfl, rfl⟩, l1, l2, hls, rfl, rfl, rfl, rfl⟩
    · intro t ht
      rcases List.mem_cons.1 ht with rfl | ht
      · intro he
        have := List.mem_of_getLast? he
        have hd : '\r' ∉ ds := fun hm => by have := w3.1.2 _ hm; revert this; decide
        simp [PEntry.header, hd, hr.title.2.2.2] at this
      · obtain ⟨l, hl, rfl⟩ := List.mem_map.1 ht
        rcases hmem l hl with rfl | rfl
        · exact e1
        · exact e2
    · rcases hpl with ⟨rfl, _⟩ | ⟨rfl, _⟩
      · refine ⟨⟨ds, s%"~", r.title, r.day, [l0, l2]⟩, hEok l0 _ hok rfl (Or.inl rfl),
          ⟨⟨rfl, rfl, rfl⟩, l0, l2, Or.inl rfl, rfl, rfl, rfl, rfl⟩, ⟨x1, by show [x.status.toChar] = _; rw [x3]; rfl, rfl⟩, ?_⟩
        show x.postings = [l0.posting, l2.posting]
        rw [hps, hp0]; rfl
      · refine ⟨⟨ds, s%"~", r.title, r.day, [l2, l0]⟩, hEok l0 _ hok rfl (Or.inr rfl),
          ⟨⟨rfl, rfl, rfl⟩, l0, l2, Or.inr rfl, rfl, rfl, rfl, rfl⟩, ⟨x1, by show [x.status.toChar] = _; rw [x3]; rfl, rfl⟩, ?_⟩
        show x.postings = [l2.posting, l0.posting]
        rw [hps, hp0]; rfl
  rcases perm_two x6 with e | e
  · exact mk _ [l1, l2] e (by rw [List.map_cons, List.map_cons, t1, t2]; simp) (Or.inl ⟨rfl, rfl⟩)
  · exact mk _ [l2, l1] e (by rw [List.map_cons, List.map_cons, t1, t2]; simp) (Or.inr ⟨rfl, rfl⟩)

/-! ### The file -/

theorem inked_append (xs ys : List Str) : inked (xs ++ ys) = inked xs ++ inked ys := by simp [inked]

theorem inked_cons_ink {x : Str} (h : ¬ allWs x) (xs : List Str) : inked (x :: xs) = x :: inked xs := by
  have : x.all isWs = false := by
    rw [Bool.eq_false_iff]
    intro ha; exact h (List.all_eq_true.1 ha)
  simp [inked, this]

theorem stripCr_none {x : Str} (h : x.getLast? ≠ some '\r') : stripCr x = x := by unfold stripCr; rw [if_neg h]

/-- A text behind a line end comes after the lines before. -/
theorem inked_lines_append (t rest : Str) (h : t.getLast? ≠ some '\r') :
    inked (lines (t ++ '\n' :: rest)) = inked (lines t) ++ inked (lines rest) := by
  obtain ⟨q, l, rfl, hl, hq⟩ := lastLine t
  have last : inked (stripCr l :: lines rest) = inked (lines l) ++ inked (lines rest) := by
    by_cases hn : l = []
    · subst hn; rfl
    · have : l.getLast? ≠ some '\r' := by rwa [List.getLast?_append_of_ne_nil _ hn] at h
      rw [stripCr_none this, lines_last l hl hn, ← inked_append]; rfl
  rcases hq with rfl | ⟨q', rfl⟩
  · rw [List.nil_append, lines_line l hl, last]
  · rw [List.append_assoc, List.append_assoc, List.append_assoc]
    show inked (lines (q' ++ '\n' :: (l ++ '\n' :: rest))) = inked (lines (q' ++ '\n' :: l)) ++ _
    rw [lines_append_complete q' (l ++ _), lines_append_complete q' l, lines_line l hl, inked_append, inked_append, last,
      List.append_assoc]

theorem lines_full (ls : List PLine) (h : ∀ l ∈ ls, noNl l.text ∧ l.text.getLast? ≠ some '\r') :
    lines (ls.flatMap fun l => l.text ++ ['\n']) = ls.map PLine.text := by
  induction ls with
  | nil => rfl
  | cons l ls ih =>
    rw [List.flatMap_cons, List.append_assoc]
    show lines (l.text ++ '\n' :: _) = _
    rw [lines_line _ (h l (by simp)).1, stripCr_none (h l (by simp)).2, List.map_cons, ← ih fun x hx => h x (by simp [hx])]
    rfl

theorem inked_full {env : Env} {accs : List Str} {e : PEntry} (h : e.Ok env accs)
    (hr : ∀ t ∈ e.header :: e.lines.map PLine.text, t.getLast? ≠ some '\r') :
    inked (lines e.full) = e.header :: e.lines.map PLine.text := by
  unfold PEntry.full
  rw [lines_line _ h.plain.2, stripCr_none (hr _ (by simp)), lines_full e.lines fun l hl =>
    ⟨(h.lines l hl).plain.2, hr _ (by simp; exact Or.inr ⟨l, hl, rfl⟩)⟩, inked_cons_ink]
  · congr 1
    apply List.filter_eq_self.2
    intro t ht
    obtain ⟨l, hl, rfl⟩ := List.mem_map.1 ht
    have := (h.lines l hl).ink
    rw [Bool.not_eq_true', Bool.eq_false_iff]
    intro ha; exact this (List.all_eq_true.1 ha)
  · obtain ⟨c, r, h1, h2⟩ := h.header.2
    intro ha
    have := ha c (by rw [h1]; simp)
    rw [h2] at this; cases this

theorem full_last (e : PEntry) : e.full.getLast? = some '\n' := by
  unfold PEntry.full
  induction e.lines using List.reverseRecOn with
  | nil => simp
  | append_singleton ls l ih => 
    rw [List.flatMap_append, List.flatMap_singleton, show ∀ h X t : Str, h ++ '\n' :: (X ++ (t ++ ['\n'])) = (h ++ '\n' :: X ++ t) ++ ['\n'] by
      simp, List.getLast?_append_of_ne_nil _ (by simp)]
    rfl

theorem rows_imported {env : Env} (hord : FairOrder env.ord) {accs cols known : List Str} {fmt a b rules : Str}
    {dec : Char} (h : StatementRules accs cols fmt dec a b rules) (hn : ∀ k ∈ accs, k ∈ known) (path : Str) (hpath : endsInName path = true)
    (rows : List BankRow) (records : List (List Str)) (hin : List.Forall₂ (fun r record => BankRow.In dec cols record r) rows records)
    (hr : ∀ r ∈ rows, r.Ok env fmt) (w : World) (l : Ledger F64) (hl : PlainLedger accs l) (hlp : l.filePath = path)
    (happ : w.canAppend (resolve w.cwd path) = true) (es : List PEntry) (text : Str)
    (hfile : w.file (resolve w.cwd path) = some text) (hj : WrittenJournal env accs es text)
    (hcr : text.getLast? ≠ some '\r') :
    ∃ w1 l1 pes text', Ledger.importLoop env (.mk (statementVals cols fmt dec a b) .nil) known records w l = (w1, .ok l1) ∧
      w1.cwd = w.cwd ∧ w1.canAppend = w.canAppend ∧ w1.file (resolve w.cwd path) = some text' ∧
      (∀ p, p ≠ resolve w.cwd path → w1.file p = w.file p) ∧ List.Forall₂ (StandsFor a b) rows pes ∧
      WrittenJournal env accs (es ++ pes) text' ∧ text <+: text' := by
  induction hin generalizing w l es text with
  | nil => exact ⟨w, l, [], text, rfl, rfl, rfl, hfile, fun _ _ => rfl, .nil, by simpa using hj, List.prefix_refl _⟩
  | @cons r record rows records h1 _ ih =>
    obtain ⟨x, pe, x1, x2, x3, x4, x5, x6, _⟩ := row_entry hord h hj.accounts hn h1 (hr r (by simp))
    obtain ⟨as', p1, p2, p3⟩ := processAll_total env.today x l.accounts hl.bare x6
    have hadd := (addEntry_iff env hord l _ x).2 ⟨as', p1, rfl⟩
    generalize hl1 : ({ l with accounts := as', entries := stableSort (fun a b => Date.lt a.date b.date) (l.entries ++ [x]) } :
      Ledger F64) = l1 at hadd
    have hpl : PlainLedger accs l1 ∧ l1.filePath = path := by
      subst hl1
      exact ⟨⟨hl.decimal, hl.dateFormat, fun k hk => by
        show k ∈ as'.map Prod.fst
        rw [p2]; exact hl.names k hk, p3⟩, hlp⟩
    have hap : l.appendEntry env w x = (w.write (resolve w.cwd path) (text ++ '\n' :: pe.full), .ok l1) := by
      unfold Ledger.appendEntry
      rw [hlp, hl.dateFormat, x2, hpath, happ, hfile]
      simp only [World.append, hpath, happ, hfile]
      simp [hadd]
    obtain ⟨w1, l2, pes, text', i1, i2, i3, i4, i5, i6, i7, i8⟩ := ih (fun r hr' => hr r (by simp [hr']))
      (w.write (resolve w.cwd path) (text ++ '\n' :: pe.full)) l1 hpl.1 hpl.2 happ (es ++ [pe]) (text ++ '\n' :: pe.full)
      (by simp [World.write]) ⟨by
        rw [inked_lines_append _ _ hcr, inked_full x3 x5, hj.text]
        simp, hj.accounts, by
        intro e he
        rcases List.mem_append.1 he with he | he
        · exact hj.entries e he
        · rw [List.mem_singleton.1 he]; exact x3⟩ (by
        rw [List.getLast?_append_of_ne_nil _ (by simp), List.getLast?_cons, full_last]
        decide)
    refine ⟨w1, l2, pe :: pes, text', ?_, i2, i3, i4, ?_, .cons x4 i6, by simpa using i7, (List.prefix_append _ _).trans i8⟩
    · simp only [Ledger.importLoop, Rules.entry, SubRules.entry, x1, hap]
      exact i1
    · intro p hp
      rw [i5 p hp]
      simp [World.write, hp]

/-! ### What the entries of the rows come to -/

theorem StandsFor.given {a b : Str} {r : BankRow} {e : PEntry} (h : StandsFor a b r e) : e.given = [(r.value, r.currency)] := by
  obtain ⟨_, l1, l2, h1, _, h3, _, h5⟩ := h
  unfold PEntry.given
  rcases h1 with h1 | h1 <;> rw [h1] <;> simp [h3, h5]

theorem StandsFor.weighed {a b : Str} {r : BankRow} {e : PEntry} (h : StandsFor a b r e) (k : Str) :
    (e.weighed k).Perm ((r.entry a b).weighed k) := by
  have hg := h.given
  have hg' : (r.entry a b).given = [(r.value, r.currency)] := rfl
  obtain ⟨_, l1, l2, h1, h2, h3, h4, h5⟩ := h
  have f1 : (if l1.account = k then (e.worth l1).map fun v => (v, e.weight l1) else none) =
      if a = k then some ((r.value, r.currency), |r.value|) else none := by
    simp [h2, PEntry.worth, PEntry.weight, h3]
  have f2 : (if l2.account = k then (e.worth l2).map fun v => (v, e.weight l2) else none) =
      if b = k then some ((-r.value, r.currency), 3 * |r.value|) else none := by
    simp only [h4, PEntry.worth, PEntry.weight, h5, PEntry.rest, hg]
    norm_num
  have f : (r.entry a b).weighed k = [if a = k then some ((r.value, r.currency), |r.value|) else none,
      if b = k then some ((-r.value, r.currency), 3 * |r.value|) else none].filterMap id := by
    simp only [PEntry.weighed, PEntry.worth, PEntry.weight, PEntry.rest, hg']
    simp only [BankRow.entry]
    norm_num [List.filterMap_cons]
  have g : e.weighed k = (e.lines.map fun l => if l.account = k then (e.worth l).map fun v => (v, e.weight l) else none).filterMap id := by
    rw [List.filterMap_map]; rfl
  rw [f, g]
  apply List.Perm.filterMap
  rcases h1 with h1 | h1 <;> rw [h1] <;> simp only [List.map_cons, List.map_nil, f1, f2]
  · exact .refl _
  · exact .swap _ _ _

theorem stand_weighed {a b : Str} {rows : List BankRow} {pes : List PEntry} (h : List.Forall₂ (StandsFor a b) rows pes) (k : Str) :
    (pes.flatMap (PEntry.weighed k)).Perm ((rows.map (BankRow.entry a b)).flatMap (PEntry.weighed k)) := by
  induction h with
  | nil => exact .refl _
  | cons h1 _ ih => exact (h1.weighed k).append ih

theorem stand_weighedIn {a b : Str} {rows : List BankRow} {pes : List PEntry} (h : List.Forall₂ (StandsFor a b) rows pes) (k : Str)
    (s : Option Str) (es : List PEntry) : (weighedIn k s (es ++ pes)).Perm (weighedIn k s (es ++ rows.map (BankRow.entry a b))) := by
  unfold weighedIn
  rw [List.flatMap_append, List.flatMap_append]
  exact ((stand_weighed h k).append_left _).filter _

theorem stand_line {a b : Str} {r : BankRow} {e : PEntry} (h : StandsFor a b r e) (P : Str → Option (Rat × Option Str) → Prop) :
    (∃ l ∈ e.lines, P l.account l.value) ↔ ∃ l ∈ (r.entry a b).lines, P l.account l.value := by
  obtain ⟨_, l1, l2, h1, h2, h3, h4, h5⟩ := h
  rcases h1 with h1 | h1 <;> rw [h1] <;> simp [BankRow.entry, h2, h3, h4, h5]
  tauto

theorem stand_mem {a b : Str} {rows : List BankRow} {pes : List PEntry} (h : List.Forall₂ (StandsFor a b) rows pes) (es : List PEntry)
    (P : PEntry → Prop) (hP : ∀ r e, StandsFor a b r e → (P e ↔ P (r.entry a b))) :
    (∃ e ∈ es ++ pes, P e) ↔ ∃ e ∈ es ++ rows.map (BankRow.entry a b), P e := by
  have key : (∃ e ∈ pes, P e) ↔ ∃ e ∈ rows.map (BankRow.entry a b), P e := by
    induction h with
    | nil => simp
    | cons h1 _ ih => simp only [List.map_cons, List.mem_cons, exists_eq_or_imp, hP _ _ h1, ih]
  simp only [List.mem_append, or_and_right, exists_or, key]

theorem stand_seen {a b : Str} {rows : List BankRow} {pes : List PEntry} (h : List.Forall₂ (StandsFor a b) rows pes) (k : Str)
    (es : List PEntry) (hs : SeenBefore k (es ++ rows.map (BankRow.entry a b))) : SeenBefore k (es ++ pes) := by
  by_contra hc
  unfold SeenBefore at hc
  push Not at hc
  obtain ⟨e, he, h1, h2⟩ := hc
  have h2 : ¬ ∃ e' ∈ es ++ pes, Date.lt e'.day e.day = true ∧ ∃ l ∈ e'.lines, l.account = k := by
    rintro ⟨e', g1, g2, l, g3, g4⟩
    exact h2 e' g1 g2 l g3 g4
  rw [stand_mem h es (fun e' => Date.lt e'.day e.day = true ∧ ∃ l ∈ e'.lines, l.account = k) fun r e' hr => by
    rw [hr.1.1]
    exact and_congr Iff.rfl (stand_line hr fun x _ => x = k)] at h2
  have := (stand_mem h es (fun e => (∃ l ∈ e.lines, l.account = k ∧ l.value = none) ∧
    ¬ ∃ e' ∈ es ++ rows.map (BankRow.entry a b), Date.lt e'.day e.day = true ∧ ∃ l ∈ e'.lines, l.account = k) fun r e' hr => by
      rw [hr.1.1]
      exact and_congr (stand_line hr fun x v => x = k ∧ v = none) Iff.rfl).1 ⟨e, he, h1, h2⟩
  obtain ⟨e1, g1, g2, g3⟩ := this
  exact g3 (hs e1 g1 g2)

theorem entry_moves (a b k : Str) (r : BankRow) : (BankRow.entry a b r).moves k =
    (if k = a then [(r.value, r.currency)] else []) ++ (if k = b then [(-r.value, r.currency)] else []) := by
  simp only [PEntry.moves, PEntry.worth, PEntry.rest, PEntry.given, BankRow.entry]
  by_cases ha : a = k <;> by_cases hb : b = k <;> simp [ha, hb, Ne.symm, eq_comm]

theorem statement_moves (a b k : Str) (s : Option Str) (rows : List BankRow) :
    writtenSum k s (rows.map (BankRow.entry a b)) =
      (if k = a then statementSum s rows else 0) - (if k = b then statementSum s rows else 0) := by
  induction rows with
  | nil => simp [writtenSum, statementSum]
  | cons r rows ih =>
    have h1 : ∀ (e : PEntry) es, writtenSum k s (e :: es) = ((e.moves k).map fun v => if v.2 = s then v.1 else 0).sum + writtenSum k s es := by
      intro e es
      simp [writtenSum]
    have h2 : statementSum s (r :: rows) = (if r.currency = s then r.value else 0) + statementSum s rows := by simp [statementSum]
    rw [List.map_cons, h1, ih, h2, entry_moves]
    generalize statementSum s rows = S
    split_ifs <;> simp [*]
    all_goals ring

theorem resolve_again (w : World) (path : Str) (hp : path.head? = some '/' ∨ '/' ∉ path) (hn : endsInName path = true) :
    resolve (w.cdParent path).cwd path = resolve w.cwd path := by
  rcases hp with hp | hp
  · exact resolve_absolute _ _ _ hp
  · have hh : path.head? ≠ some '/' := fun h => hp (List.mem_of_head? h)
    have hs := splitOn_none hp
    unfold endsInName at hn
    rw [hs] at hn
    simp only [List.getLast?_singleton, Bool.and_eq_true, bne_iff_ne] at hn
    have key : ∀ cwd, resolve cwd path = cwd ++ [path] := by
      intro cwd
      unfold resolve
      rw [hs, if_neg hh]
      simp [stepPath, hn.1.1, hn.1.2, hn.2]
    rw [key, key]
    simp [World.cdParent, key]

theorem exists_mem_append {α : Type} (P : α → Prop) (xs ys : List α) :
    (∃ x ∈ xs ++ ys, P x) ↔ (∃ x ∈ xs, P x) ∨ ∃ x ∈ ys, P x := by
  simp only [List.mem_append, or_and_right, exists_or]

theorem readRecords_some (rs : List (List Str)) : readRecords (rs.map some) = .ok rs := by
  induction rs with
  | nil => rfl
  | cons r rs ih => simp only [List.map_cons, readRecords, ih]; rfl

/-! ### C119 -/

/-- The import command on a written journal. -/
theorem statement_imported (env : Env) (hord : FairOrder env.ord) (o : Outside) (w : World) (accs cols : List Str)
    (es : List PEntry) (rows : List BankRow) (header : List Str) (records : List (List Str))
    (text path csvFile csvText fmt : Str) (dec : Char) (a b rules : Str)
    (hj : WrittenJournal env accs es text) (hr : w.read path = some text) (hcr : text.getLast? ≠ some '\r')
    (happ : w.canAppend (resolve w.cwd path) = true) (hp : path.head? = some '/' ∨ '/' ∉ path)
    (hfuel : o.fuel ≠ 0) (c : Str) (args : List Str) (fs : List Flag) (hc : c.head? = some 'i') (hargs : Spelled fs args)
    (hpath : journalFor o fs = some path) (hcsv : (fs.filterMap Flag.csv?).getLast? = some csvFile)
    (hread : (w.cdParent path).read csvFile = some csvText) (htable : env.csv csvText = (header :: records).map some)
    (hrules : (w.cdParent path).read ((fs.filterMap Flag.rules?).getLast?.getD (csvFile ++ s%".rules")) = some rules)
    (hsr : StatementRules accs cols fmt dec a b rules)
    (hin : List.Forall₂ (fun r record => BankRow.In dec cols record r) rows records) (hok : ∀ r ∈ rows, r.Ok env fmt) :
    ∃ w1 added pes, mainProgram F64 env o (c :: args) w = (w1, .ok []) ∧ w1.file (resolve w.cwd path) = some (text ++ added) ∧
      (∀ p, p ≠ resolve w.cwd path → w1.file p = w.file p) ∧ List.Forall₂ (StandsFor a b) rows pes ∧
      WrittenJournal env accs (es ++ pes) (text ++ added) ∧
      World.read { w1 with cwd := w.cwd } path = some (text ++ added) := by
  have hname : endsInName path = true := by
    unfold World.read at hr
    split at hr
    · assumption
    · cases hr
  have hfile : w.file (resolve w.cwd path) = some text := by
    unfold World.read at hr
    rwa [if_pos hname] at hr
  obtain ⟨fuel, hf⟩ := Nat.exists_eq_succ_of_ne_zero hfuel
  obtain ⟨xs, l, l1, l2, l3, l4⟩ := hj.loads (M := F64) hord fuel w path hr
  have hlp : l.filePath = path := (fromFile_sound env _ _ _ _ _ l4).1.choose_spec.filePath.1
  have hres := resolve_again w path hp hname
  obtain ⟨w1, l', pes, text', i1, i2, i3, i4, i5, i6, i7, added, i8⟩ := rows_imported hord hsr l2.names path hname rows records hin
    hok (w.cdParent path) l l2 hlp (by rw [hres]; exact happ) es text (by rw [hres]; exact hfile) hj hcr
  rw [hres] at i4 i5
  have hmain : mainProgram F64 env o (c :: args) w = (w1, .ok []) := by
    rw [mainProgram_eq env o c args w .import_ fs hc hargs, execute_ledger env o .import_ fs w (w.cdParent path) l
      ⟨path, l, w.cdParent path, hpath, by rw [hf]; exact l4, by
        by_cases hm : Flag.noMove ∈ fs
        · exact Or.inl ⟨hm, rfl, rfl⟩
        · exact Or.inr ⟨hm, fill_bare env hord l l2 _⟩⟩]
    have himp : importerFromFile env (w.cdParent path) o.fuel csvFile (fs.filterMap Flag.rules?).getLast? =
        .ok (.mk (statementVals cols fmt dec a b) .nil, records) := by
      unfold importerFromFile
      rw [hread]
      simp only [hrules]
      unfold importerFromStrs
      rw [hsr.read hj.accounts]
      simp only [bind, Except.bind]
      rw [htable, show ((header :: records).map some).drop (asUsize (Rules.mk (statementVals cols fmt dec a b) .nil).vals.skip) =
        records.map some from rfl, readRecords_some]
      rfl
    unfold runSub
    simp only [flagsOf, hcsv]
    unfold Ledger.importCsv
    rw [himp]
    simp only [i1]
  subst i8
  exact ⟨w1, added, pes, hmain, i4, i5, i6, i7, by unfold World.read; rw [if_pos hname]; exact i4⟩

/-- **C119.** Importing a bank statement changes the balances by exactly what the statement says. A statement whose rows
are written well, with rules that book the amounts to `a` and the other side to `b`, is imported without complaint; no
other file is touched, and the journal keeps what it had. The bank may write any decimal symbol that the rules name, and
points or commas between the digits (`InNotation`). After that, on any day, the balance report prints for every
account and currency exactly what it came to before, plus the sum of the rows for `a`, less it for `b`: to the last
digit, with doubles. -/
theorem C119_statement (env env' : Env) (hord : FairOrder env.ord) (hord' : FairOrder env'.ord)
    (hdates : env'.parseDate = env.parseDate) (o o' : Outside) (w : World) (accs cols : List Str) (es : List PEntry)
    (rows : List BankRow) (header : List Str) (records : List (List Str)) (text path csvFile csvText fmt : Str) (dec : Char) (a b rules : Str)
    -- the journal
    (hj : WrittenJournal env accs es text) (hr : w.read path = some text) (hcr : text.getLast? ≠ some '\r')
    (happ : w.canAppend (resolve w.cwd path) = true) (hp : path.head? = some '/' ∨ '/' ∉ path)
    -- the command
    (hfuel : o.fuel ≠ 0) (c : Str) (args : List Str) (fs : List Flag) (hc : c.head? = some 'i') (hargs : Spelled fs args)
    (hpath : journalFor o fs = some path) (hcsv : (fs.filterMap Flag.csv?).getLast? = some csvFile)
    -- the statement and the rules
    (hread : (w.cdParent path).read csvFile = some csvText) (htable : env.csv csvText = (header :: records).map some)
    (hrules : (w.cdParent path).read ((fs.filterMap Flag.rules?).getLast?.getD (csvFile ++ s%".rules")) = some rules)
    (hsr : StatementRules accs cols fmt dec a b rules)
    (hin : List.Forall₂ (fun r record => BankRow.In dec cols record r) rows records) (hok : ∀ r ∈ rows, r.Ok env fmt)
    -- the books
    (h8 : EightDecimals es) (hseen : ∀ k, SeenBefore k (es ++ rows.map (BankRow.entry a b)))
    (hsmall : ∀ k, Small k (es ++ rows.map (BankRow.entry a b)))
    -- the report
    (hfuel' : o'.fuel ≠ 0) (c' : Str) (args' : List Str) (fs' : List Flag) (hc' : c'.head? = some 'b')
    (hargs' : Spelled fs' args') (hpath' : journalFor o' fs' = some path) :
    ∃ w1 added, mainProgram F64 env o (c :: args) w = (w1, .ok []) ∧ w1.file (resolve w.cwd path) = some (text ++ added) ∧
      (∀ p, p ≠ resolve w.cwd path → w1.file p = w.file p) ∧
      ∃ w2 out, mainProgram F64 env' o' (c' :: args') { w1 with cwd := w.cwd } = (w2, .ok out) ∧ w2.file = w1.file ∧
        (readReport out).Pairwise (fun x y => strLt x.1 y.1 = true) ∧
        (∀ k, k ∈ (readReport out).map Prod.fst ↔ (∃ e ∈ es, ∃ l ∈ e.lines, l.account = k) ∨ (rows ≠ [] ∧ (k = a ∨ k = b))) ∧
        ∀ k ts, (k, ts) ∈ readReport out → ∃ cs : List (Option Str), cs.Nodup ∧
          (∀ s, s ∈ cs ↔ (∃ e ∈ es, ∃ v ∈ e.moves k, v.2 = s) ∨ ((k = a ∨ k = b) ∧ ∃ r ∈ rows, r.currency = s)) ∧
          List.Forall₂ (fun t s => Amount.parse t '.' = .ok (⟨writtenSum k s es +
            ((if k = a then statementSum s rows else 0) - (if k = b then statementSum s rows else 0)), s⟩ : Amount Rat)) ts cs := by
  obtain ⟨w1, added, pes, hmain, i4, i5, i6, i7, i8⟩ := statement_imported env hord o w accs cols es rows header records text path
    csvFile csvText fmt dec a b rules hj hr hcr happ hp hfuel c args fs hc hargs hpath hcsv hread htable hrules hsr hin hok
  refine ⟨w1, added, hmain, i4, i5, ?_⟩
  have hj' : WrittenJournal env' accs (es ++ pes) (text ++ added) :=
    ⟨i7.text, i7.accounts, fun e he => by
      have := i7.entries e he
      exact ⟨by rw [hdates]; exact this.date, this.mark, this.title, this.plain, this.lines, this.blanks, this.oneCurrency⟩⟩
  obtain ⟨w2, out, g1, g2, g3, g4, g5⟩ := C118_the_report_is_exact env' hord' o' { w1 with cwd := w.cwd } accs (es ++ pes) (text ++ added) path hj'
    i8 hfuel' c' args' fs' hc' hargs' hpath'
    (by
      intro e he
      rcases List.mem_append.1 he with he | he
      · exact h8 e he
      · obtain ⟨r, hr', hs⟩ := forall₂_mem_right i6 he
        intro v hv
        rw [hs.given, List.mem_singleton] at hv
        rw [hv]
        obtain ⟨D, hD, _⟩ := (hok r hr').small
        exact ⟨D, hD⟩) (fun k => stand_seen i6 k es (hseen k))
    (by
      intro k s
      rw [(stand_weighedIn i6 k s es).length_eq, ((stand_weighedIn i6 k s es).map Prod.snd).sum_eq]
      exact hsmall k s)
  refine ⟨w2, out, g1, g2, g3, ?_, ?_⟩
  · intro k
    rw [g4 k, stand_mem i6 es _ fun r e hs => stand_line hs fun x _ => x = k]
    simp only [List.mem_append, or_and_right, exists_or]
    refine or_congr Iff.rfl ?_
    constructor
    · rintro ⟨e, he, l, hl, rfl⟩
      obtain ⟨r, hr', rfl⟩ := List.mem_map.1 he
      refine ⟨List.ne_nil_of_mem hr', ?_⟩
      simp only [BankRow.entry, List.mem_cons, List.not_mem_nil, or_false] at hl
      rcases hl with rfl | rfl
      · exact Or.inl rfl
      · exact Or.inr rfl
    · rintro ⟨hne, hk⟩
      obtain ⟨r, rows', hrr⟩ := List.exists_cons_of_ne_nil hne
      refine ⟨BankRow.entry a b r, by simp [hrr], ?_⟩
      rcases hk with rfl | rfl <;> simp [BankRow.entry]
  · intro k ts hm
    obtain ⟨cs, k1, k2, k3⟩ := g5 k ts hm
    refine ⟨cs, k1, ?_, ?_⟩
    · intro s
      rw [k2 s, stand_mem i6 es (fun e => ∃ v ∈ e.moves k, v.2 = s) fun r e hs => by
        have := (hs.weighed k).map Prod.fst
        rw [weighed_moves, weighed_moves] at this
        simp only [this.mem_iff], exists_mem_append]
      refine or_congr Iff.rfl ?_
      constructor
      · rintro ⟨e, he, v, hv, rfl⟩
        obtain ⟨r, hr', rfl⟩ := List.mem_map.1 he
        rw [entry_moves] at hv
        split_ifs at hv <;> simp at hv
        · rename_i h1 h2
          exact ⟨Or.inl h1, r, hr', by rcases hv with rfl | rfl <;> rfl⟩
        · rename_i h1 h2
          exact ⟨Or.inl h1, r, hr', by rw [hv]⟩
        · rename_i h1 h2
          exact ⟨Or.inr h2, r, hr', by rw [hv]⟩
      · rintro ⟨hk, r, hr', rfl⟩
        refine ⟨BankRow.entry a b r, List.mem_map_of_mem hr', ?_⟩
        rw [entry_moves]
        rcases hk with rfl | rfl
        · exact ⟨(r.value, r.currency), by simp, rfl⟩
        · exact ⟨(-r.value, r.currency), by simp, rfl⟩
    · have : ∀ s, writtenSum k s (es ++ pes) = writtenSum k s es +
          ((if k = a then statementSum s rows else 0) - (if k = b then statementSum s rows else 0)) := by
        intro s
        rw [← statement_moves, writtenSum_weighed, ((stand_weighedIn i6 k s es).map _).sum_eq, ← writtenSum_weighed]
        simp [writtenSum]
      simpa only [this] using k3

/-! ### A statement -/

def exStatement : Str := s%"Day,What,Amount\n2024-02-01,tea,$-2.30\n2024-02-03,gift,$5\n"
def exStatementRules : Str :=
  s%"fields date,description,amount\n\ndate_format %Y-%m-%d\naccount1 cash\namount1 %amount%\naccount2 food\n"
def exRow1 : BankRow := ⟨s%"2024-02-01", s%"tea", s%"$-2.30", ⟨2024, 2, 1, by decide⟩, -23 / 10, some s%"$"⟩
def exRow2 : BankRow := ⟨s%"2024-02-03", s%"gift", s%"$5", ⟨2024, 2, 3, by decide⟩, 5, some s%"$"⟩
def exRecords : List (List Str) := [[s%"2024-02-01", s%"tea", s%"$-2.30"], [s%"2024-02-03", s%"gift", s%"$5"]]
def exStatementDisk : World :=
  disk [("j", String.ofList exWrittenText), ("b.csv", String.ofList exStatement), ("b.csv.rules", String.ofList exStatementRules)]

/-- The journal of C116, a statement and its rules meet the conditions. -/
example : exStatementDisk.read s%"j" = some exWrittenText ∧ exWrittenText.getLast? ≠ some '\r' ∧
    (exStatementDisk.cdParent s%"j").read s%"b.csv" = some exStatement ∧
    (exStatementDisk.cdParent s%"j").read s%"b.csv.rules" = some exStatementRules ∧
    (stdEnv june15).csv exStatement = ([s%"Day", s%"What", s%"Amount"] :: exRecords).map some ∧
    StatementRules [s%"cash", s%"food"] [s%"date", s%"description", s%"amount"] s%"%Y-%m-%d" '.' s%"cash" s%"food" exStatementRules ∧
    List.Forall₂ (fun r record => BankRow.In '.' [s%"date", s%"description", s%"amount"] record r) [exRow1, exRow2] exRecords ∧
    (∀ r ∈ [exRow1, exRow2], r.Ok (stdEnv june15) s%"%Y-%m-%d") ∧
    (∀ k, SeenBefore k ([exWritten1, exWritten2] ++ [exRow1, exRow2].map (BankRow.entry s%"cash" s%"food"))) ∧
    ∀ k, Small k ([exWritten1, exWritten2] ++ [exRow1, exRow2].map (BankRow.entry s%"cash" s%"food")) := by
  refine ⟨by decide +kernel, by decide +kernel, by decide +kernel, by decide +kernel, by decide +kernel, ?_, ?_, ?_, ?_, ?_⟩
  · exact ⟨⟨[], by decide +kernel, Or.inl ⟨rfl, rfl⟩⟩, ⟨by decide, by decide⟩, by decide +kernel, by decide +kernel, by decide, by decide,
      ⟨by decide, by decide, by decide, by decide⟩, ⟨by decide, by decide, by decide, by decide⟩⟩
  · exact .cons ⟨by decide, by decide, ⟨s%"$-2.30", by decide, ⟨by decide +kernel, by decide, by decide, by decide +kernel⟩⟩, by decide⟩
      (.cons ⟨by decide, by decide, ⟨s%"$5", by decide, ⟨by decide +kernel, by decide, by decide, by decide +kernel⟩⟩, by decide⟩ .nil)
  · have hd : ValidSymbol '.' s%"$" := by decide
    have a1 : WrittenAmount s%"$-2.30" (-23 / 10) (some s%"$") :=
      ⟨s%"-2.30", true, 230, 2, ⟨s%"2", s%"30", by decide, by decide, by decide, by decide, by decide, by decide⟩,
        by norm_num, Or.inr ⟨_, rfl, hd, by decide⟩⟩
    have a2 : WrittenAmount s%"$5" 5 (some s%"$") :=
      ⟨s%"5", false, 5, 0, ⟨s%"5", s%"", by decide, by decide, by decide, by decide, by decide, by decide⟩,
        by norm_num, Or.inr ⟨_, rfl, hd, by decide⟩⟩
    intro r hr
    simp only [List.mem_cons, List.not_mem_nil, or_false] at hr
    rcases hr with rfl | rfl
    · exact ⟨by decide +kernel, writableDay_default _ rfl rfl _ (by decide), by decide +kernel, a1, by decide +kernel, by decide +kernel,
        ⟨-230000000, by norm_num [exRow1], by decide⟩⟩
    · exact ⟨by decide +kernel, writableDay_default _ rfl rfl _ (by decide), by decide +kernel, a2, by decide +kernel, by decide +kernel,
        ⟨500000000, by norm_num [exRow2], by decide⟩⟩
  · generalize hes : [exWritten1, exWritten2] ++ [exRow1, exRow2].map (BankRow.entry s%"cash" s%"food") = es
    have h1 : SeenBefore s%"cash" es := by subst hes; unfold SeenBefore; decide +kernel
    have h2 : SeenBefore s%"food" es := by subst hes; unfold SeenBefore; decide +kernel
    have h3 : ∀ e ∈ es, ∀ l ∈ e.lines, l.account = s%"cash" ∨ l.account = s%"food" := by subst hes; decide +kernel
    intro k e he ⟨l, hl, hk, hv⟩
    rcases h3 e he l hl with h | h
    · rw [← hk, h]; exact h1 e he ⟨l, hl, h, hv⟩
    · rw [← hk, h]; exact h2 e he ⟨l, hl, h, hv⟩
  · intro k
    apply small_of_all
    by_cases h1 : k = s%"cash"
    · subst h1; decide +kernel
    · by_cases h2 : k = s%"food"
      · subst h2; decide +kernel
      · have : ([exWritten1, exWritten2] ++ [exRow1, exRow2].map (BankRow.entry s%"cash" s%"food")).flatMap (PEntry.weighed k) = [] := by
          simp [PEntry.weighed, exWritten1, exWritten2, BankRow.entry, Ne.symm h1, Ne.symm h2]
        rw [this]; norm_num

/-- What is printed afterwards: 7.25 less 2.30, and 5 more. -/
example : ∃ out, (mainProgram F64 (stdEnv june15) exOutside [s%"balance", s%"-f", s%"j"]
      { (mainProgram F64 (stdEnv june15) exOutside [s%"import", s%"-f", s%"j", s%"--csv", s%"b.csv"] exStatementDisk).1 with
        cwd := exStatementDisk.cwd }).2 = .ok out ∧
      readReport out = [(s%"cash", [s%"$ 9.95"]), (s%"food", [s%"$-9.95"])] := by decide +kernel

def exCommaStatement : Str := s%"Day,What,Amount\n2024-02-01,tea,\"-1.002,30 EUR\"\n"

/-- A bank that writes a decimal comma and groups the digits with points: the rules and the row meet the conditions, for the same amount
as one writes it in a journal. -/
example : StatementRules [s%"cash", s%"food"] [s%"date", s%"description", s%"amount"] s%"%Y-%m-%d" ',' s%"cash" s%"food"
      (exStatementRules ++ s%"decimal_symbol ,\n") ∧
    (stdEnv june15).csv exCommaStatement = [some [s%"Day", s%"What", s%"Amount"], some [s%"2024-02-01", s%"tea", s%"-1.002,30 EUR"]] ∧
    BankRow.In ',' [s%"date", s%"description", s%"amount"] [s%"2024-02-01", s%"tea", s%"-1.002,30 EUR"]
      ⟨s%"2024-02-01", s%"tea", s%"-1002.30 EUR", ⟨2024, 2, 1, by decide⟩, -10023 / 10, some s%"EUR"⟩ := by
  refine ⟨⟨⟨[s%"decimal_symbol ,"], by decide +kernel, Or.inr rfl⟩, ⟨by decide, by decide⟩, by decide +kernel, by decide +kernel, by decide,
    by decide, ⟨by decide, by decide, by decide, by decide⟩, ⟨by decide, by decide, by decide, by decide⟩⟩, by decide +kernel,
    ⟨by decide, by decide, ⟨s%"-1.002,30 EUR", by decide, ⟨by decide +kernel, by decide, by decide, by decide +kernel⟩⟩, by decide⟩⟩

/-- And what the balance report says afterwards. -/
example : ∃ out, (mainProgram F64 (stdEnv june15) exOutside [s%"balance", s%"-f", s%"j"]
      { (mainProgram F64 (stdEnv june15) exOutside [s%"import", s%"-f", s%"j", s%"--csv", s%"b.csv"]
          (disk [("j", String.ofList exWrittenText), ("b.csv", String.ofList exCommaStatement),
            ("b.csv.rules", String.ofList (exStatementRules ++ s%"decimal_symbol ,\n"))])).1 with
        cwd := exStatementDisk.cwd }).2 = .ok out ∧
      readReport out = [(s%"cash", [s%"$ 7.25", s%"-1002.3 EUR"]), (s%"food", [s%"$-7.25", s%" 1002.3 EUR"])] := by decide +kernel

end Silverfox
