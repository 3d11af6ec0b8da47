import Verif.Props.FillText

/-
C133: filling the envelopes day after day, from the text of the journal.
-/

namespace Silverfox

set_option linter.unusedSectionVars false

/-! ### Specification -/

/-- The lines of entries. -/
def entryLines (es : List BEntry) : List Str := es.flatMap fun e => e.plain.header :: e.lines.map BLine.text

/-- A day: what is added to the end of the journal by hand before the envelopes are filled. -/
structure Morning where
  today : Date
  /-- the date as the program writes it -/
  day : Str
  news : List BEntry
  /-- the text of the news -/
  added : Str

/-- Specification: the news are written well, and what they move in an envelope is in its currency; dates are written
in a way that can be read. -/
structure Morning.Ok (env : Env) (accs : List DeclAccount) (m : Morning) : Prop where
  written : (m.added = [] ∧ m.news = []) ∨ ∃ t, m.added = '\n' :: t ∧ HasLines t (entryLines m.news)
  entries : ∀ b ∈ m.news, b.Ok env (accs.map Prod.fst)
  fits : EnvelopesFit m.today accs m.news
  date : env.fmtDate m.today s%"%Y/%m/%d" = some m.day ∧ env.parseDate m.day s%"%Y/%m/%d" = some m.today
  plain : isWord m.day ∧ NoComment m.day ∧ m.day ∉ keywords
  notZero : m.today ≠ Date.zero

/-- Specification: the same line as it is understood when it is read again: its amount to eight digits. -/
structure Reread (m m' : MLine) : Prop where
  text : m'.text = m.text
  account : m'.account = m.account
  envelope : m'.envelope = m.envelope
  currency : m'.value.2 = m.value.2
  ok : m'.Ok
  digits : ∃ i : Int, m'.value.1 = (i : Rat) / 100000000
  near : |m'.value.1 - m.value.1| ≤ 1 / 200000000

/-- Specification: the entry that was added, as it is understood when it is read again. -/
def refill (today : Date) (day : Str) (ms : List MLine) : BEntry :=
  ⟨day, s%"~", s%"move to envelopes", today, ms.map BLine.move⟩

/-- Specification: the report (see C121). -/
def EnvelopeReport (today : Date) (accs : List DeclAccount) (es : List BEntry) (out : List Str) : Prop :=
  ∃ (shown : List DeclAccount) (blocks : List (List Str)), shown.Perm accs ∧
    shown.Pairwise (fun a b => strLt a.1 b.1 = true) ∧ List.Forall₂ (AccountPart today es) shown blocks ∧
    out = blocks.flatten

/-- Specification: what filling the envelopes on a day does if the journal has the entries `es` (see C122): which text is
added, which entries the journal has then, and what is printed. -/
def FilledOn (accs : List DeclAccount) (m : Morning) (es after : List BEntry) (text : Str) (out : List Str) : Prop :=
  ∃ served mss, served.Perm accs ∧ List.Forall₂ (AccountFills m.today es) served mss ∧
    ((mss.flatten = [] ∧ after = es ∧ text = [] ∧ EnvelopeReport m.today accs es out) ∨
      (mss.flatten ≠ [] ∧ text = (fillOf m.today m.day mss.flatten).addition ∧
        (∃ ms, List.Forall₂ Reread mss.flatten ms ∧ after = es ++ [refill m.today m.day ms]) ∧
        EnvelopeReport m.today accs (es ++ [fillOf m.today m.day mss.flatten]) out))

/-- Specification: day after day: the entries and the text of the journal in the beginning, what is printed on each day,
and the entries and the text in the end. -/
inductive Diary (accs : List DeclAccount) : List Morning → List BEntry → Str → List (List Str) → List BEntry → Str → Prop
  | nil (es text) : Diary accs [] es text [] es text
  | cons {m ms es text after filled out outs es' text'} : FilledOn accs m (es ++ m.news) after filled out →
      Diary accs ms after (text ++ m.added ++ filled) outs es' text' →
      Diary accs (m :: ms) es text (out :: outs) es' text'

/-- The program is run on each of the days, after the news of the day have been written at the end of the file `a`. -/
def eachMorning (M : Type) [Mag M] (env : Env) (o : Outside) (args : List Str) (a : APath) :
    List Morning → World → World × List (Res (List Str))
  | [], w => (w, [])
  | m :: ms, w =>
    let r := mainProgram M (env.on m.today) o args (w.write a ((w.file a).getD [] ++ m.added))
    let rest := eachMorning M env o args a ms { r.1 with cwd := w.cwd }
    (rest.1, r.2 :: rest.2)

/-! ### Texts that grow -/

theorem inked_linesOf (xs : List Str) : (inked (linesOf xs)).map trimEnd = (inked xs).map trimEnd := by
  have hcr : ∀ x : Str, (stripCr x).all isWs = x.all isWs := by
    intro x
    unfold stripCr
    split
    · rename_i h
      obtain ⟨r, rfl⟩ := List.getLast?_eq_some_iff.1 h
      rw [List.dropLast_concat, List.all_append]
      simp [isWs_cr]
    · rfl
  induction xs with
  | nil => rfl
  | cons x xs ih =>
    cases xs with
    | nil =>
      unfold linesOf
      split
      · rename_i h; subst h; rfl
      · rfl
    | cons y ys =>
      rw [linesOf_cons]
      show (inked ([stripCr x] ++ linesOf (y :: ys))).map trimEnd = (inked ([x] ++ y :: ys)).map trimEnd
      rw [inked_append, List.map_append, ih, inked_append, List.map_append]
      congr 1
      unfold inked
      rw [List.filter_singleton, List.filter_singleton, hcr]
      cases x.all isWs
      · simp [stripCr_trimEnd]
      · rfl

theorem said_lines_append (s t : Str) : (inked (lines (s ++ '\n' :: t))).map trimEnd =
    (inked (lines s)).map trimEnd ++ (inked (lines t)).map trimEnd := by
  rw [lines_segs, lines_segs, lines_segs, inked_linesOf, inked_linesOf, inked_linesOf, segs, splitOn_append, inked_append,
    List.map_append]

/-- If the first line that says something begins an item other than an account, it does not matter what was before. -/
theorem Commented.any {b : Bool} {ls ls' : List Str} (h : Commented b ls ls') (hb : b = false)
    (hh : ∀ l r, inked ls = l :: r → ∀ c, inAccount c l = false) (c : Bool) : Commented c ls ls' := by
  have blank : ∀ l : Str, l.all isWs = true → ∀ b, inAccount b l = b := by
    intro l hl b
    unfold inAccount
    rw [effective_nil (Or.inl fun c hc => List.all_eq_true.1 hl c hc)]
  induction h with
  | nil b => exact .nil c
  | same b l ls ls' h ih =>
    by_cases hl : l.all isWs = true
    · rw [blank l hl] at h ih
      refine .same c l ls ls' ?_
      rw [blank l hl]
      exact ih hb fun x r hx => hh x r (by rw [← hx]; simp [inked, hl])
    · have h1 := hh l (inked ls) (by simp [inked, hl])
      refine .same c l ls ls' ?_
      rw [h1] at h ⊢; exact h
  | removed b l ls ls' hi h ih =>
    by_cases hl : l.all isWs = true
    · exact .removed c l ls ls' hi (ih hb fun x r hx => hh x r (by rw [← hx]; simp [inked, hl]))
    · have h1 := hh l (inked ls) (by simp [inked, hl]) true
      unfold inAccount at h1
      rw [effective_nil hi] at h1
      cases h1
  | added b l ls ls' hi h ih => exact .added c l ls ls' hi (ih hb hh)
  | trailing b l l' ls ls' hl hk h ih =>
    have hink : ¬ l.all isWs = true := fun hw => by
      obtain ⟨_, _, _, _, _, _, hn⟩ := hl
      exact hn fun c hc => List.all_eq_true.1 hw c hc
    have h1 := hh l (inked ls) (by simp [inked, hink])
    refine .trailing c l l' ls ls' hl (fun hc => by rw [h1] at hc; cases hc) ?_
    rw [h1] at h ⊢; exact h

theorem Commented.append {b : Bool} {a a' x x' : List Str} (h : Commented b a a') (hx : ∀ c, Commented c x x') :
    Commented b (a ++ x) (a' ++ x') := by
  induction h with
  | nil b => exact hx b
  | same b l ls ls' _ ih => exact .same b l _ _ ih
  | removed b l ls ls' hi _ ih => exact .removed b l _ _ hi ih
  | added b l ls ls' hi _ ih => exact .added b l _ _ hi ih
  | trailing b l l' ls ls' hl hk _ ih => exact .trailing b l l' _ _ hl hk ih

theorem HasLines.append {s t : Str} {a b : List Str} (ha : HasLines s a) (hb : HasLines t b)
    (hh : ∀ l r, b = l :: r → ∀ c, inAccount c l = false) : HasLines (s ++ '\n' :: t) (a ++ b) := by
  obtain ⟨p, q, h1, h2, h3, h4⟩ := ha
  obtain ⟨p', q', g1, g2, g3, g4⟩ := hb
  refine ⟨p ++ p', q ++ q', by rw [inked_append, h1, g1], h2.append (g2.any rfl (by rw [g1]; exact hh)), ?_, ?_⟩
  · intro l hl
    simp only [List.mem_append] at hl h3 g3
    rcases hl with (hl | hl) | (hl | hl)
    · exact h3 l (Or.inl hl)
    · exact g3 l (Or.inl hl)
    · exact h3 l (Or.inr hl)
    · exact g3 l (Or.inr hl)
  · rw [inked_append, List.map_append, h4, g4, said_lines_append]

/-- The first line of an entry begins no account. -/
theorem header_starts {env : Env} {accs : List Str} {b : BEntry} (h : b.Ok env accs) (c : Bool) :
    inAccount c b.plain.header = false := by
  obtain ⟨h1, d, r, h2, h3⟩ := h.plain.header
  have he : effective b.plain.header = trimEnd b.plain.header := effective_plain h.plain.plain.1
  have hs : splitWs (trimEnd b.plain.header) = b.plain.date :: b.plain.mark :: splitWs b.plain.title := by
    rw [splitWs_trimEnd, h1]
  unfold inAccount
  rw [show removeComments (trimEnd b.plain.header) = trimEnd b.plain.header from he]
  cases ht : trimEnd b.plain.header with
  | nil => rw [ht] at hs; cases hs
  | cons x y =>
    have hx : x = d := by
      obtain ⟨z, _, hz, _⟩ := trimEnd_spec b.plain.header
      rw [ht, h2] at hz
      exact (List.cons.inj hz).1.symm
    simp only [hx, h3, Bool.false_eq_true, if_false]
    rw [hx] at ht
    rw [← ht, hs]
    simp only [List.head?_cons, Option.some.injEq, decide_eq_false_iff_not]
    intro hk
    exact h.plain.date.2.1 (by rw [hk]; decide)

theorem entryLines_starts {env : Env} {accs : List Str} {es : List BEntry} (h : ∀ b ∈ es, b.Ok env accs) (l : Str)
    (r : List Str) (hl : entryLines es = l :: r) (c : Bool) : inAccount c l = false := by
  cases es with
  | nil => cases hl
  | cons b es =>
    have : l = b.plain.header := (List.cons.inj hl).1.symm
    rw [this]
    exact header_starts (h b (by simp)) c

/-! ### Another day -/

theorem Sched.on {env : Env} {fmt : Str} {st : Option Date} {t : Str} {f : Frequency} (d : Date) (h : Sched env fmt st t f) :
    Sched (env.on d) fmt st t f := by
  cases h with
  | weekly t w h => exact .weekly t w h
  | monthly t n h => exact .monthly t n h
  | yearly d h => exact .yearly d h
  | otherWeek t w d hd h => exact .otherWeek t w d hd h
  | otherMonth t n d hd h => exact .otherMonth t n d hd h
  | once _ d hw h => exact .once _ d hw h

theorem DeclOk.on {env : Env} {x : MeantDecl Rat} (d : Date) (h : DeclOk env x) : DeclOk (env.on d) x := by
  obtain ⟨⟨h1, h2, h3, h4, h5, h6⟩, h7, h8⟩ := h
  refine ⟨⟨h1, h2, h3, ?_, ?_, h6⟩, h7, h8⟩
  · cases hd : x.1.due with
    | noDate => rw [hd] at h4; generalize x.2.1 = f at h4 ⊢; cases h4; exact .noDate
    | due t => rw [hd] at h4; generalize x.2.1 = f at h4 ⊢; cases h4 with | due _ _ hs hn => exact .due _ _ (hs.on d) hn
    | byDate t => rw [hd] at h4; generalize x.2.1 = f at h4 ⊢; cases h4 with | byDate _ _ hs => exact .byDate _ _ (hs.on d)
  · generalize x.1.starting = s at h5 ⊢
    generalize x.2.2 = sd at h5 ⊢
    cases h5 with
    | none => exact .none
    | some t e hw h => exact .some t e hw h

theorem BEntry.Ok.on {env : Env} {accs : List Str} {b : BEntry} (d : Date) (h : b.Ok env accs) : b.Ok (env.on d) accs :=
  ⟨⟨h.plain.date, h.plain.mark, h.plain.title, h.plain.plain, h.plain.lines, h.plain.blanks, h.plain.oneCurrency⟩, h.moves,
    h.full⟩

theorem EnvelopeJournal.on {env : Env} {accs : List DeclAccount} {es : List BEntry} {text : Str} (d : Date)
    (h : EnvelopeJournal env accs es text) : EnvelopeJournal (env.on d) accs es text :=
  ⟨h.text, h.once, h.names, fun p hp x hx => (h.envelopes p hp x hx).on d, h.distinct, fun e he => (h.entries e he).on d⟩

theorem EnvelopesFit.append {d d' : Date} {accs : List DeclAccount} {a b : List BEntry} (ha : EnvelopesFit d accs a)
    (hb : EnvelopesFit d' accs b) : EnvelopesFit d' accs (a ++ b) := by
  refine ⟨hb.today, hb.schedule, fun p hp x hx e he => ?_, fun p hp x hx e he => ?_⟩
  · rcases List.mem_append.1 he with he | he
    · exact ha.named p hp x hx e he
    · exact hb.named p hp x hx e he
  · rcases List.mem_append.1 he with he | he
    · exact ha.spent p hp x hx e he
    · exact hb.spent p hp x hx e he

theorem EnvelopeJournal.append {env : Env} {accs : List DeclAccount} {es news : List BEntry} {text t : Str}
    (h : EnvelopeJournal env accs es text) (ht : HasLines t (entryLines news))
    (hn : ∀ b ∈ news, b.Ok env (accs.map Prod.fst)) : EnvelopeJournal env accs (es ++ news) (text ++ '\n' :: t) := by
  refine ⟨?_, h.once, h.names, h.envelopes, h.distinct, ?_⟩
  · have := h.text.append ht (entryLines_starts hn)
    rw [List.flatMap_append, ← List.append_assoc]
    exact this
  · intro e he
    rcases List.mem_append.1 he with he | he
    · exact h.entries e he
    · exact hn e he

/-! ### Reading the lines again -/

theorem rc_clean_append {a : Str} (h : ∀ c ∈ a, c ≠ ';' ∧ c ≠ '/') (b : Str) : rc (a ++ b) = a ++ rc b := by
  induction a with
  | nil => rfl
  | cons c a ih =>
    rw [List.cons_append, rc, startsMark_cons, ih fun d hd => h d (by simp [hd])]
    simp [h c (by simp)]

/-- A written amount has no comment in it if its symbol has none, and is on one line. -/
theorem WrittenAmount.plain {u : Str} {r : Rat} {s : Option Str} (h : WrittenAmount u r s)
    (hs : ∀ y, s = some y → NoComment y) : NoComment u ∧ noNl u := by
  obtain ⟨w, neg, d, k, hn, _, hu⟩ := h
  obtain ⟨hcl, hhd⟩ := hn.clean
  have hw : noNl w := noNl_isWord ⟨hn.chars.1, hn.noWs⟩
  have hall : ∀ c ∈ w, c ≠ ';' ∧ c ≠ '/' := by
    obtain ⟨_, r, hr, hc⟩ := hn.chars
    intro c h1
    rw [hr] at h1
    rcases List.mem_append.1 h1 with h1 | h1
    · cases neg <;> simp at h1
      rw [h1]; decide
    · rcases hc c h1 with h | h
      · constructor <;> · rintro rfl; revert h; decide
      · rw [h]; decide
  rcases hu with ⟨_, rfl⟩ | ⟨sym, hsym, hv, hu⟩
  · exact ⟨(noComment_iff _).2 hcl, hw⟩
  · have hy := (noComment_iff _).1 (hs sym hsym)
    have hyn : noNl sym := noNl_isWord ⟨hv.1, fun c hc => (hv.2 c hc).1⟩
    simp only [List.mem_cons, List.not_mem_nil, or_false] at hu
    rw [noComment_iff]
    rcases hu with rfl | rfl | rfl | rfl
    · exact ⟨by rw [rc_append hy hhd, hcl], noNl_append.2 ⟨hyn, hw⟩⟩
    · exact ⟨by rw [rc_clean_append hall, hy], noNl_append.2 ⟨hw, hyn⟩⟩
    · refine ⟨?_, noNl_append.2 ⟨noNl_append.2 ⟨hyn, by decide⟩, hw⟩⟩
      rw [List.append_assoc, rc_gap hy (by decide) (by decide), hcl]
    · refine ⟨?_, noNl_append.2 ⟨noNl_append.2 ⟨hw, by decide⟩, hyn⟩⟩
      rw [List.append_assoc, rc_gap hcl (by decide) (by decide), hy]

theorem target_plain {env : Env} {x : MeantDecl Rat} (h : DeclOk env x) : ∀ y, x.target.sym = some y → NoComment y := by
  intro y hy
  unfold MeantDecl.target at hy
  generalize hg : (x.1.props.filterMap _).getLast? = g at hy
  cases g with
  | none => cases hy
  | some a =>
    obtain ⟨p, hp, hpa⟩ := List.mem_filterMap.1 (List.mem_of_getLast? hg)
    cases hq : p.2.2 with
    | forAccount b => rw [hq] at hpa; cases hpa
    | amount t b =>
      rw [hq] at hpa
      cases hpa
      have hv := (h.ok.props p hp).2.2.2.2.noComment
      rw [hq] at hv
      have hv : NoComment t := hv
      obtain ⟨w, neg, d, k, _, _, hu⟩ := h.amounts p hp t _ hq
      rcases hu with ⟨hn, _⟩ | ⟨sym, hsym, _, hu⟩
      · simp only [Option.getD_some] at hy; rw [hn] at hy; cases hy
      · simp only [Option.getD_some] at hy
        rw [hsym, Option.some.injEq] at hy
        subst hy
        have hi : sym <:+: t := by
          simp only [List.mem_cons, List.not_mem_nil, or_false] at hu
          rcases hu with rfl | rfl | rfl | rfl
          · exact (List.prefix_append _ _).isInfix
          · exact (List.suffix_append _ _).isInfix
          · rw [List.append_assoc]; exact (List.prefix_append _ _).isInfix
          · exact (List.suffix_append _ _).isInfix
        exact ⟨fun hm => hv.1 (hi.subset hm), fun hm => hv.2 (hm.trans hi)⟩
    | funding f => rw [hq] at hpa; cases hpa

theorem reread_line {env : Env} {k : Str} (hk : isWord k ∧ NoComment k) {x : MeantDecl Rat} (hx : DeclOk env x) {f : Rat}
    {t : Str} (ht : Shows t f x.target.sym) : ∃ m, Reread (moveLine k x f t) m := by
  obtain ⟨r, u, h1, h2, h3, h4⟩ := ht
  obtain ⟨p1, p2⟩ := h2.plain (target_plain hx)
  have hname := hx.ok.name
  obtain ⟨n, hn⟩ : ∃ n, n = 50 - (10 + k.length + x.1.name.length) := ⟨_, rfl⟩
  have hspace : ∀ n, allWs (List.replicate n ' ' ++ s%" ") ∧ List.replicate n ' ' ++ s%" " ≠ [] := by
    intro n
    refine ⟨fun c hc => ?_, by simp⟩
    rcases List.mem_append.1 hc with hc | hc
    · rw [(List.mem_replicate.1 hc).2]; exact isWs_space
    · simp at hc; rw [hc]; exact isWs_space
  have w4 : allWs s%"    " := by decide
  have w1 : allWs s%" " := by decide
  have key : ∀ n, Reread ⟨s%"    ", s%" ", k, s%" ", x.1.name, List.replicate n ' ' ++ s%" ", u, (f, x.target.sym)⟩
      ⟨s%"    ", s%" ", k, s%" ", x.1.name, List.replicate n ' ' ++ s%" ", u, (r, x.target.sym)⟩ := by
    intro n
    refine ⟨rfl, rfl, rfl, rfl, ⟨⟨w4, by show s%"    " ≠ []; decide⟩, ⟨w1, by show s%" " ≠ []; decide⟩, ⟨w1, by show s%" " ≠ []; decide⟩, hspace n, ⟨hk.1, hname.word⟩, ?_, h2⟩, h3, h4⟩
    have hsn : noNl (List.replicate n ' ' ++ s%" ") := by
      intro hm
      rcases List.mem_append.1 hm with hm | hm
      · exact absurd (List.mem_replicate.1 hm).2 (by decide)
      · revert hm; decide
    unfold MLine.text
    constructor
    · rw [noComment_iff, rc_ws w4]
      simp only [List.append_assoc]
      rw [rc_gap (by decide) (by decide) (by decide), rc_gap ((noComment_iff _).1 hk.2) (by decide) (by decide)]
      have := rc_gap ((noComment_iff _).1 hname.noComment) (hspace n).1 (hspace n).2 u
      simp only [List.append_assoc] at this
      rw [this, (noComment_iff _).1 p1]
    · simp only [noNl_append] at hsn ⊢
      exact ⟨by decide, ⟨by decide, by decide⟩, ⟨noNl_isWord hk.1, by decide⟩, ⟨noNl_isWord hname.word, hsn⟩, p2⟩
  rcases h1 with rfl | rfl
  · have e : moveLine k x f t =
        ⟨s%"    ", s%" ", k, s%" ", x.1.name, List.replicate n ' ' ++ s%" ", t, (f, x.target.sym)⟩ := by
      unfold moveLine
      rw [← hn]
    rw [e]
    exact ⟨_, key n⟩
  · have := key (n + 1)
    have e : List.replicate (n + 1) ' ' ++ s%" " = (List.replicate n ' ' ++ s%" ") ++ s%" " := by
      rw [List.replicate_succ']
    refine ⟨_, ⟨?_, this.account, this.envelope, this.currency, this.ok, this.digits, this.near⟩⟩
    rw [this.text]
    unfold moveLine MLine.text
    rw [← hn]
    simp only [e, List.append_assoc]
    rfl

theorem reread_lines {env : Env} {today : Date} {es : List BEntry} {served : List DeclAccount} {mss : List (List MLine)}
    (h : List.Forall₂ (AccountFills today es) served mss) (hn : ∀ p ∈ served, isWord p.1 ∧ NoComment p.1)
    (hd : ∀ p ∈ served, ∀ x ∈ p.2, DeclOk env x) :
    ∃ ms, List.Forall₂ Reread mss.flatten ms ∧ ∀ m ∈ ms, ∃ p ∈ served, ∃ x ∈ p.2, m.account = p.1 ∧
      m.envelope = x.1.name ∧ m.value.2 = x.target.sym := by
  induction h with
  | nil => exact ⟨[], .nil, by simp⟩
  | @cons p ms0 ps mss h1 _ ih =>
    obtain ⟨ms2, g1, g2⟩ := ih (fun q hq => hn q (by simp [hq])) fun q hq => hd q (by simp [hq])
    obtain ⟨fs, _, h3⟩ := h1
    have hmem : ∀ xf ∈ ((serving p.2).zip fs).filter (fun xf => decide (xf.2 ≠ 0)), xf.1 ∈ p.2 := by
      intro xf hxf
      have hx := (List.of_mem_zip (List.mem_filter.1 hxf).1).1
      unfold serving at hx
      rcases List.mem_append.1 hx with hx | hx <;> exact (mem_ofKind (List.mem_reverse.1 hx)).1
    have key : ∀ (xfs : List (MeantDecl Rat × Rat)) (ms : List MLine), (∀ xf ∈ xfs, xf.1 ∈ p.2) →
        List.Forall₂ (fun xf m => ∃ t, m = moveLine p.1 xf.1 xf.2 t ∧ Shows t xf.2 xf.1.target.sym) xfs ms →
        ∃ ms', List.Forall₂ Reread ms ms' ∧ ∀ m ∈ ms', ∃ x ∈ p.2, m.account = p.1 ∧ m.envelope = x.1.name ∧
          m.value.2 = x.target.sym := by
      intro xfs ms hx h
      induction h with
      | nil => exact ⟨[], .nil, by simp⟩
      | @cons xf m xfs ms h1 _ ih =>
        obtain ⟨ms', k1, k2⟩ := ih fun y hy => hx y (by simp [hy])
        obtain ⟨t, rfl, ht⟩ := h1
        obtain ⟨m', hm'⟩ := reread_line (hn p (by simp)) (hd p (by simp) xf.1 (hx xf (by simp))) ht
        refine ⟨m' :: ms', .cons hm' k1, ?_⟩
        intro y hy
        rcases List.mem_cons.1 hy with rfl | hy
        · exact ⟨xf.1, hx xf (by simp), hm'.account, hm'.envelope, hm'.currency⟩
        · exact k2 y hy
    obtain ⟨ms1, f1, f2⟩ := key _ _ hmem h3
    refine ⟨ms1 ++ ms2, ?_, ?_⟩
    · rw [List.flatten_cons]
      exact List.rel_append f1 g1
    · intro m hm
      rcases List.mem_append.1 hm with hm | hm
      · obtain ⟨x, hx, k⟩ := f2 m hm
        exact ⟨p, by simp, x, hx, k⟩
      · obtain ⟨q, hq, k⟩ := g2 m hm
        exact ⟨q, by simp [hq], k⟩

theorem refill_moves (today : Date) (day : Str) (ms : List MLine) :
    (refill today day ms).moves = ms ∧ (refill today day ms).plain.lines = [] := fillOf_moves today day ms

theorem refill_ok {env : Env} {accs : List DeclAccount} {m : Morning} (hm : m.Ok env accs) {ms : List MLine}
    (h : ∀ x ∈ ms, x.Ok) : (refill m.today m.day ms).Ok env (accs.map Prod.fst) := by
  obtain ⟨r1, r2⟩ := refill_moves m.today m.day ms
  have hp := (noComment_iff _).1 hm.plain.2.1
  refine ⟨⟨⟨hm.plain.1, hm.plain.2.2, hm.date.2⟩, by show s%"~" ∈ _; decide, by show '[' ∉ s%"move to envelopes"; decide, ?_, ?_, ?_, ?_⟩,
    ?_, ?_⟩
  · show NoComment (m.day ++ s%" " ++ s%"~" ++ s%" " ++ s%"move to envelopes") ∧ noNl (m.day ++ s%" " ++ s%"~" ++ s%" " ++ s%"move to envelopes")
    constructor
    · rw [noComment_iff]
      simp only [List.append_assoc]
      rw [rc_gap hp (by decide) (by decide)]
      congr 1
    · simp only [noNl_append]
      exact ⟨⟨⟨⟨noNl_isWord hm.plain.1, by decide⟩, by decide⟩, by decide⟩, by decide⟩
  · rw [r2]; simp
  · rw [r2]; simp
  · rw [r2]; simp
  · rw [r1]; exact h
  · rw [r2]; simp

/-- The text that is added, read again. -/
theorem addition_lines {env : Env} {accs : List DeclAccount} {m : Morning} (hm : m.Ok env accs) {ms ms' : List MLine}
    (h : List.Forall₂ Reread ms ms') :
    ∃ t, (fillOf m.today m.day ms).addition = '\n' :: t ∧ HasLines t (entryLines [refill m.today m.day ms']) := by
  have hok : ∀ x ∈ ms', x.Ok := by
    intro x hx
    obtain ⟨y, _, hy⟩ := forall₂_mem_right h hx
    exact hy.ok
  have hr := refill_ok hm hok
  have hlines : ∀ ls : List Str, (∀ l ∈ ls, noNl l) → (inked (lines (ls.flatMap fun l => l ++ ['\n']))).map trimEnd =
      (inked ls).map trimEnd := by
    intro ls hls
    induction ls with
    | nil => rfl
    | cons l ls ih =>
      have e : (l :: ls).flatMap (fun l => l ++ ['\n']) = l ++ '\n' :: ls.flatMap fun l => l ++ ['\n'] := by
        simp
      rw [e, said_lines_append, ih fun x hx => hls x (by simp [hx]), lines_segs, inked_linesOf, segs,
        splitOn_none (hls l (by simp)), ← List.map_append, ← inked_append]
      rfl
  obtain ⟨head, hhead⟩ : ∃ head, head = m.day ++ s%" ~ move to envelopes // automatically generated by silverfox" := ⟨_, rfl⟩
  have hh1 : (fillOf m.today m.day ms).plain.header = head := by
    rw [hhead]
    unfold BEntry.plain PEntry.header fillOf
    simp [List.append_assoc]
  have hh2 : head = (refill m.today m.day ms').plain.header ++ s%" " ++ s%"// automatically generated by silverfox" := by
    rw [hhead]
    unfold BEntry.plain PEntry.header refill
    simp [List.append_assoc]
  have hbody : (fillOf m.today m.day ms).lines.map BLine.text = (refill m.today m.day ms').lines.map BLine.text := by
    show (ms.map BLine.move).map BLine.text = (ms'.map BLine.move).map BLine.text
    clear hr hh2 hok hh1
    induction h with
    | nil => rfl
    | cons h1 _ ih =>
      simp only [List.map_cons] at ih ⊢
      rw [ih]
      congr 1
      exact h1.text.symm
  have hbn : ∀ l ∈ (refill m.today m.day ms').lines.map BLine.text, noNl l ∧ ¬ l.all isWs = true := by
    intro l hl
    obtain ⟨b, hb, rfl⟩ := List.mem_map.1 hl
    obtain ⟨y, hy, rfl⟩ := List.mem_map.1 hb
    refine ⟨(hok y hy).plain.2, fun hw => ?_⟩
    have : splitWs (BLine.move y).text = _ := (hok y hy).splitWs
    rw [splitWs_eq_nil.2 fun c hc => List.all_eq_true.1 hw c hc] at this
    cases this
  have hrn := hr.plain.plain.2
  have hrh : ¬ (refill m.today m.day ms').plain.header.all isWs = true := by
    intro hw
    have := hr.plain.header.1
    rw [splitWs_eq_nil.2 fun c hc => List.all_eq_true.1 hw c hc] at this
    cases this
  have hhn : noNl head := by
    rw [hh2, noNl_append, noNl_append]
    exact ⟨⟨hrn, by decide⟩, by decide⟩
  refine ⟨(head :: (fillOf m.today m.day ms).lines.map BLine.text).flatMap fun l => l ++ ['\n'], ?_, ?_⟩
  · unfold BEntry.addition
    rw [hh1, List.flatMap_cons, List.flatMap_map]
    simp
  · refine ⟨entryLines [refill m.today m.day ms'], head :: (refill m.today m.day ms').lines.map BLine.text, ?_, ?_, ?_, ?_⟩
    · unfold entryLines inked
      rw [List.flatMap_singleton, List.filter_eq_self]
      intro l hl
      rcases List.mem_cons.1 hl with rfl | hl
      · simpa using hrh
      · simpa using (hbn l hl).2
    · unfold entryLines
      rw [List.flatMap_singleton]
      refine .trailing _ _ _ _ _ ⟨s%" ", s%"// automatically generated by silverfox", hh2, by decide, by decide, Or.inl (by decide), ?_⟩ ?_
        (.refl _ _)
      · intro hw
        exact hrh (List.all_eq_true.2 hw)
      · rw [header_starts hr]
        intro hc; cases hc
    · intro l hl
      unfold entryLines at hl
      rw [List.flatMap_singleton] at hl
      simp only [List.cons_append, List.mem_cons, List.mem_append] at hl
      rcases hl with rfl | hl | rfl | hl
      · exact hrn
      · exact (hbn l hl).1
      · exact hhn
      · exact (hbn l hl).1
    · rw [hbody, hlines]
      intro l hl
      rcases List.mem_cons.1 hl with rfl | hl
      · exact hhn
      · exact (hbn l hl).1

/-! ### C133 -/

theorem refill_fits {accs : List DeclAccount} (honce : (accs.map Prod.fst).Nodup) {m : Morning}
    (hfit : EnvelopesFit m.today accs m.news) {ms : List MLine} (hne : ms ≠ [])
    (hms : ∀ y ∈ ms, ∃ p ∈ accs, ∃ x ∈ p.2, y.account = p.1 ∧ y.envelope = x.1.name ∧ y.value.2 = x.target.sym)
    (hcur : ∀ p ∈ accs, ∀ x ∈ p.2, ∀ y ∈ p.2, x.1.name = y.1.name → x.target.sym = y.target.sym) :
    EnvelopesFit m.today accs [refill m.today m.day ms] := by
  obtain ⟨r1, r2⟩ := refill_moves m.today m.day ms
  refine ⟨hfit.today, hfit.schedule, fun p hp x hx b hb y hy e1 e2 => ?_, fun p hp x hx b hb hb0 => ?_⟩
  · rw [List.mem_singleton] at hb
    subst hb
    rw [r1] at hy
    obtain ⟨p', hp', x', hx', f1, f2, f3⟩ := hms y hy
    have : p' = p := List.inj_on_of_nodup_map honce hp' hp (by rw [← f1, e1])
    subst this
    rw [f3]
    exact hcur p' hp x' hx' x hx (by rw [← f2, e2])
  · rw [List.mem_singleton] at hb
    subst hb
    rw [r1] at hb0
    exact absurd hb0 hne

/-- C133. A journal of accounts with envelopes and entries, and days on each of which entries may be written at its end
and then `silverfox envelopes` is run: every run succeeds, and does what C122 says for the entries that the journal has
on that day; these are the first ones, the news, and what the program has added on the days before, with the amounts to
eight digits. No other file changes. In the end the journal is again one of these accounts and all these entries. -/
theorem C133_day_after_day (env : Env) (hord : FairOrder env.ord) (o : Outside) (w : World)
    (accs : List DeclAccount) (es : List BEntry) (text path : Str) (h : EnvelopeJournal env accs es text)
    (hf : EnvelopesFit env.today accs es) (hr : w.read path = some text) (hfuel : o.fuel ≠ 0) (c : Str) (args : List Str)
    (fs : List Flag) (hc : c.head? = some 'e') (ha : Spelled fs args) (hj : journalFor o fs = some path)
    (hn : Flag.noMove ∉ fs) (hp : path.head? = some '/' ∨ '/' ∉ path)
    (hw : w.canAppend (resolve w.cwd path) = true)
    (hcur : ∀ p ∈ accs, ∀ x ∈ p.2, ∀ y ∈ p.2, x.1.name = y.1.name → x.target.sym = y.target.sym)
    (days : List Morning) (hd : ∀ m ∈ days, m.Ok env accs) :
    ∃ (w' : World) (outs : List (List Str)) (es' : List BEntry) (text' : Str),
      eachMorning Rat env o (c :: args) (resolve w.cwd path) days w = (w', outs.map .ok) ∧
      Diary accs days es text outs es' text' ∧ w'.file (resolve w.cwd path) = some text' ∧
      (∀ f, f ≠ resolve w.cwd path → w'.file f = w.file f) ∧ EnvelopeJournal env accs es' text' := by
  have hend : endsInName path = true := by
    unfold World.read at hr
    split at hr
    · assumption
    · cases hr
  replace hr : w.file (resolve w.cwd path) = some text := by
    unfold World.read at hr
    rw [hend] at hr
    exact hr
  obtain ⟨d0, hd0⟩ : ∃ d0, d0 = env.today := ⟨_, rfl⟩
  rw [← hd0] at hf
  clear hd0
  induction days generalizing w es text d0 with
  | nil => exact ⟨w, [], es, text, rfl, .nil _ _, hr, fun _ _ => rfl, h⟩
  | cons m ms ih =>
    have hm := hd m (by simp)
    obtain ⟨a, hadef⟩ : ∃ a, a = resolve w.cwd path := ⟨_, rfl⟩
    obtain ⟨w1, hw1⟩ : ∃ w1, w1 = w.write a ((w.file a).getD [] ++ m.added) := ⟨_, rfl⟩
    have h1 : EnvelopeJournal env accs (es ++ m.news) (text ++ m.added) := by
      rcases hm.written with ⟨e1, e2⟩ | ⟨t, e1, e2⟩
      · rw [e1, e2, List.append_nil, List.append_nil]; exact h
      · rw [e1]; exact h.append e2 hm.entries
    have hf1 : EnvelopesFit m.today accs (es ++ m.news) := hf.append hm.fits
    have hcwd : w1.cwd = w.cwd := by rw [hw1]; rfl
    have hcan : w1.canAppend = w.canAppend := by rw [hw1]; rfl
    have hr1 : w1.file (resolve w1.cwd path) = some (text ++ m.added) := by
      rw [hcwd, ← hadef, hw1]
      show (if a = a then _ else _) = _
      rw [if_pos rfl, hadef, hr]
      rfl
    have hr1' : w1.read path = some (text ++ m.added) := by
      unfold World.read
      rw [hend]
      exact hr1
    have hoth : ∀ f, f ≠ a → w1.file f = w.file f := by
      intro f hne
      rw [hw1]
      show (if f = a then _ else _) = _
      rw [if_neg hne]
    obtain ⟨w2, out, served, mss, b, k1, k2, k3, k4, rfl, k6, k7, k8⟩ := C122_what_filling_writes (env.on m.today) hord o w1 accs
      (es ++ m.news) (text ++ m.added) path m.day (h1.on m.today) hf1 hr1' hfuel c args fs hc ha hj hn hp
      (by rw [hcan, hcwd]; exact hw) hm.date.1 hm.notZero hcur
    have hlines : (fillOf m.today m.day mss.flatten).lines = [] ↔ mss.flatten = [] := by
      show mss.flatten.map BLine.move = [] ↔ _
      exact List.map_eq_nil_iff
    -- what holds after this run
    have hnext : ∃ after filled, FilledOn accs m (es ++ m.news) after filled out ∧
        w2.file a = some (text ++ m.added ++ filled) ∧ (∀ f, f ≠ a → w2.file f = w.file f) ∧
        EnvelopeJournal env accs after (text ++ m.added ++ filled) ∧ EnvelopesFit m.today accs after := by
      by_cases hem : mss.flatten = []
      · have h6 := k6 (hlines.2 hem)
        rw [show (env.on m.today).today = m.today from rfl, if_pos (hlines.2 hem)] at k8
        refine ⟨es ++ m.news, [], ⟨served, mss, k3, k4, Or.inl ⟨hem, rfl, rfl, k8⟩⟩, ?_, ?_, ?_, hf1⟩
        · rw [h6, List.append_nil, ← hr1, hcwd, hadef]
        · intro f hne
          rw [h6, hoth f hne]
        · rw [List.append_nil]; exact h1
      · have hb := fun c => hem (hlines.1 c)
        obtain ⟨h7, h8⟩ := k7 hb
        rw [show (env.on m.today).today = m.today from rfl, if_neg hb] at k8
        obtain ⟨ms', r1, r2⟩ := reread_lines (env := env) k4 (fun p hp => h.names p (k3.mem_iff.1 hp))
          fun p hp => h.envelopes p (k3.mem_iff.1 hp)
        have hne : ms' ≠ [] := by
          rintro rfl
          cases hx : mss.flatten with
          | nil => exact hem hx
          | cons y ys => rw [hx] at r1; cases r1
        obtain ⟨t, t1, t2⟩ := addition_lines hm r1
        have hok : ∀ x ∈ ms', x.Ok := by
          intro x hx
          obtain ⟨y, _, hy⟩ := forall₂_mem_right r1 hx
          exact hy.ok
        refine ⟨es ++ m.news ++ [refill m.today m.day ms'], (fillOf m.today m.day mss.flatten).addition,
          ⟨served, mss, k3, k4, Or.inr ⟨hem, rfl, ⟨ms', r1, rfl⟩, k8⟩⟩, ?_, ?_, ?_, ?_⟩
        · rw [hadef, ← hcwd]; exact h7
        · intro f hne
          rw [h8 f (by rw [hcwd, ← hadef]; exact hne), hoth f hne]
        · rw [t1]
          exact h1.append t2 fun b hb => by
            rw [List.mem_singleton] at hb
            subst hb
            exact refill_ok hm hok
        · exact hf1.append (refill_fits h.once hm.fits hne (fun y hy => by
            obtain ⟨p, hp, x, hx, q⟩ := r2 y hy
            exact ⟨p, k3.mem_iff.1 hp, x, hx, q⟩) hcur)
    obtain ⟨after, filled, n1, n2, n3, n4, n5⟩ := hnext
    obtain ⟨w', outs, es', text', g1, g2, g3, g4, g5⟩ := ih { w2 with cwd := w.cwd } after (text ++ m.added ++ filled) n4
      (by show w2.canAppend (resolve w.cwd path) = true; rw [k2, hcan]; exact hw)
      (fun x hx => hd x (by simp [hx])) (by show w2.file (resolve w.cwd path) = _; rw [← hadef]; exact n2) m.today n5
    refine ⟨w', out :: outs, es', text', ?_, .cons n1 g2, g3, ?_, g5⟩
    · have g1 : eachMorning Rat env o (c :: args) (resolve w.cwd path) ms { w2 with cwd := w.cwd } = (w', outs.map .ok) := g1
      rw [← hadef] at g1 ⊢
      unfold eachMorning
      rw [← hw1, k1]
      simp only [g1]
      rfl
    · intro f hne
      rw [g4 f hne]
      exact n3 f (by rw [hadef]; exact hne)

/-! ### A case -/

def june16 : Date := ⟨2024, 6, 16, by decide⟩

def exGift : BEntry where
  date := s%"2024/06/16"
  mark := s%"*"
  title := s%"gift"
  day := june16
  lines := [.posting ⟨s%" ", s%"bank", s%" ", s%"$10.01", some (1001 / 100, some s%"$")⟩, .posting ⟨s%" ", s%"pay", [], [], none⟩]

/-- Two days: on the second one a gift (with a remark) is entered. -/
def exTwoDays : List Morning := [⟨june15, s%"2024/06/15", [], []⟩,
  ⟨june16, s%"2024/06/16", [exGift], s%"\n\n2024/06/16 * gift // from a friend\n bank $10.01\n pay"⟩]

theorem exGift_ok : exGift.Ok (stdEnv june15) (exTripAccounts.map Prod.fst) := by
  have hd : ValidSymbol '.' s%"$" := by decide
  have a1 : WrittenAmount s%"$10.01" (1001 / 100) (some s%"$") :=
    ⟨s%"10.01", false, 1001, 2, ⟨s%"10", s%"01", by decide, by decide, by decide, by decide, by decide, by decide⟩,
      by norm_num, Or.inr ⟨_, rfl, hd, by decide⟩⟩
  refine ⟨⟨by decide +kernel, by decide, by decide, by decide +kernel, ?_, by decide, ?_⟩, ?_, ?_⟩
  · intro l hl
    simp only [exGift, BEntry.plain, List.filterMap_cons, List.filterMap_nil, List.mem_cons, List.not_mem_nil,
      or_false] at hl
    rcases hl with rfl | rfl
    · refine ⟨by decide, by decide, by decide, by decide, by decide, by decide +kernel, by simp, ?_⟩
      intro q s h; cases h; exact ⟨by decide, by decide +kernel, a1⟩
    · refine ⟨by decide, by decide, by decide, by decide, by decide, by decide +kernel, by simp, ?_⟩
      intro q s h; cases h
  · intro _; exact ⟨by decide, some s%"$", by decide⟩
  · intro m hm; cases hm
  · intro h; exact absurd rfl h

/-- The hypotheses. -/
theorem exTwoDays_ok : ∀ m ∈ exTwoDays, m.Ok (stdEnv june15) exTripAccounts := by
  have hs : ∀ p ∈ exTripAccounts, ∀ x ∈ p.2, x.2.1.Safe ∧ x.2.1.Inner := exTrip_fits.schedule
  intro m hm
  simp only [exTwoDays, List.mem_cons, List.not_mem_nil, or_false] at hm
  rcases hm with rfl | rfl
  · exact ⟨Or.inl ⟨rfl, rfl⟩, by simp, ⟨june15_inner, hs, by simp, by simp⟩, by decide +kernel, by decide, by decide⟩
  · refine ⟨Or.inr ⟨_, rfl, ?_⟩, ?_, ⟨by decide, hs, by decide +kernel, by decide +kernel⟩, by decide +kernel, by decide, by decide⟩
    · refine ⟨entryLines [exGift], [s%"2024/06/16 * gift // from a friend", s%" bank $10.01", s%" pay"], by decide +kernel, ?_,
        by decide +kernel, by decide +kernel⟩
      exact .trailing _ _ _ _ _ ⟨s%" ", s%"// from a friend", by decide, by decide, by decide, Or.inl (by decide), by decide⟩
        (by decide) (.refl _ _)
    · intro b hb
      rw [List.mem_singleton] at hb
      subst hb
      exact exGift_ok

/-- After two days: the trip has got an eighth twice; what food has got on the first day is still there on the second. -/
example : (eachMorning Rat (stdEnv june15) exOutside [s%"envelopes", s%"-f", s%"j"] [s%"h", s%"j"] exTwoDays
      (disk [("j", String.ofList exTripText)])).1.file [s%"h", s%"j"] = some (exTripText ++
    s%"\n2024/06/15 ~ move to envelopes // automatically generated by silverfox\n    envelope bank trip                                 $ 12.5\n    envelope bank food                                 $ 32\n" ++
    s%"\n\n2024/06/16 * gift // from a friend\n bank $10.01\n pay" ++
    s%"\n2024/06/16 ~ move to envelopes // automatically generated by silverfox\n    envelope bank trip                                 $ 12.5\n") := by
  decide +kernel

example : ((eachMorning Rat (stdEnv june15) exOutside [s%"envelopes", s%"-f", s%"j"] [s%"h", s%"j"] exTwoDays
      (disk [("j", String.ofList exTripText)])).2.getLast?).map (fun r => r.toOption) =
    some (some [s%"bank", s%"  available", s%"    $ 19.51", s%"  expenses", s%"    food",
        s%"      now                                  $ 18.25 / $ 40 |══════════════════                      |",
        s%"      next (on 2024-07-10)                    $ 40 / $ 40 |════════════════════════════════════════|",
        s%"  goals", s%"    trip",
        s%"      now                                     $ 0 / $ 100 |                                        |",
        s%"      next (on 2024-06-23)                   $ 25 / $ 100 |══════════                              |", []]) := by
  decide +kernel

end Silverfox
