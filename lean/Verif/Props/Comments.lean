import Verif.Proofs.Segs
import Verif.Props.Ledger

/-
Comments and blank lines in a journal: C48, C49, C50.
-/

namespace Silverfox

set_option linter.unusedSectionVars false
variable {M : Type} [Mag M]

/-! ### Reading does not depend on the ends of lines -/

/-- No line is special. -/
def noKey (_ : Str) : Prop := False

/-- The (trimmed) line begins an envelope. -/
def envKey (t : Str) : Prop := startsWith s%"expense" t = true ∨ startsWith s%"goal" t = true

instance (t : Str) : Decidable (envKey t) := by unfold envKey; infer_instance

theorem SameEnd.mono {P Q : Str → Prop} (h : ∀ t, Q t → P t) {x y : Str} (hs : SameEnd P x y) :
    SameEnd Q x y := by
  rcases hs with rfl | ⟨h1, h2, h3⟩
  · exact .refl _
  · exact Or.inr ⟨h1, h2, fun hq => h3 (h _ hq)⟩

theorem SameLines.mono {P Q : Str → Prop} (h : ∀ t, Q t → P t) {a b : Str} (hs : SameLines P a b) :
    SameLines Q a b := by
  unfold SameLines at hs ⊢
  generalize segs a = xs at hs ⊢
  generalize segs b = ys at hs ⊢
  induction hs with
  | nil => exact .nil
  | cons hx _ ih => exact .cons (hx.mono h) ih

theorem Classic.parse_trim (x y : Str) (dec : Char) (accs : List Str)
    (h : trim (removeComments x) = trim (removeComments y)) :
    (Posting.parse x dec accs : Res (Posting M)) = Posting.parse y dec accs := by
  unfold Posting.parse
  simp only [h]

theorem parsePostings_same {P : Str → Prop} (dec : Char) (accs : List Str) {ls ls' : List Str}
    (h : List.Forall₂ (SameEnd P) ls ls') :
    (Entry.parsePostings dec accs ls : Res (List (Posting M))) = Entry.parsePostings dec accs ls' := by
  induction h with
  | nil => rfl
  | cons hx _ ih =>
    simp only [Entry.parsePostings]
    rw [hx.trim, Classic.parse_trim _ _ dec accs hx.trim_rc, ih]

theorem Entry.parse_same {P : Str → Prop} (env : Env) (fmt : Str) (dec : Char) (accs : List Str) {c c' : Str}
    (h : SameLines P c c') :
    (Entry.parse env c fmt dec accs : Res (Entry M)) = Entry.parse env c' fmt dec accs := by
  unfold Entry.parse
  simp only
  rw [h.trim.isEmpty]
  have hl := h.trim.lines
  generalize lines (trim c) = xs at hl ⊢
  generalize lines (trim c') = ys at hl ⊢
  cases hl with
  | nil => rfl
  | cons hx hr =>
    have h1 : ∀ l l' : Str, splitWs (removeComments l) = splitWs (removeComments l') →
        (Entry.parseHeader env l fmt : Res (Entry M)) = Entry.parseHeader env l' fmt := by
      intro l l' e; unfold Entry.parseHeader; rw [e]
    simp only
    rw [h1 _ _ hx.splitWs_rc, parsePostings_same dec accs hr]

theorem splitWs_head_prefix (s t : Str) (ts : List Str) (h : splitWs s = t :: ts) :
    ∃ r, trimStart s = t ++ r := by
  induction s generalizing t ts with
  | nil => cases h
  | cons c s ih =>
    simp only [splitWs] at h
    cases hc : isWs c with
    | true =>
      simp only [hc, if_true] at h
      have : trimStart (c :: s) = trimStart s := by simp [trimStart, hc]
      rw [this]
      exact ih t ts h
    | false =>
      have : trimStart (c :: s) = c :: s := by simp [trimStart, hc]
      rw [this]
      simp only [hc, Bool.false_eq_true, if_false] at h
      split at h
      · rename_i hi
        cases hs : splitWs s with
        | nil =>
          rw [hs] at h
          cases h
          exact ⟨s, rfl⟩
        | cons u us =>
          rw [hs] at h
          simp only [consHead, List.cons.injEq] at h
          obtain ⟨rfl, rfl⟩ := h
          obtain ⟨r, hr⟩ := ih u us hs
          have hts : trimStart s = s := by
            cases s with
            | nil => rfl
            | cons d s => simp only [startsInk, Bool.not_eq_true'] at hi; simp [trimStart, hi]
          exact ⟨r, by rw [← hts, hr]; rfl⟩
      · cases h
        exact ⟨s, rfl⟩

theorem isPrefixOf_append (t r : Str) : t.isPrefixOf (t ++ r) = true := by
  induction t with
  | nil => rfl
  | cons c t ih => simp

theorem firstWord_prefix (h t : Str) (ts : List Str) (e : splitWs (removeComments h) = t :: ts) :
    startsWith t (trim h) = true := by
  rw [removeComments_eq_rc] at e
  obtain ⟨r, hr⟩ := splitWs_head_prefix _ _ _ e
  obtain ⟨rest, hrest, _⟩ := rc_append_rest h
  have hword : isWord t := splitWs_isWord _ t (by rw [e]; simp)
  have hink : ¬ allWs (rc h) := by
    intro hw
    rw [splitWs_allWs hw] at e; cases e
  have hink' : ¬ allWs t := by
    intro hw
    cases t with
    | nil => exact hword.1 rfl
    | cons c t =>
      have h1 := hword.2 c (by simp)
      have h2 := hw c (by simp)
      rw [h1] at h2; cases h2
  have h1 : trimStart h = t ++ (r ++ rest) := by
    conv => lhs; rw [hrest]
    rw [trimStart_ink hink, hr, List.append_assoc]
  unfold trim startsWith
  rw [h1]
  by_cases hq : allWs (r ++ rest)
  · rw [trimEnd_ws _ hq]
    have : trimEnd t = t := by
      apply trimEnd_id
      right
      have hne := hword.1
      exact ⟨t.dropLast, t.getLast hne, (List.dropLast_append_getLast hne).symm,
        hword.2 _ (List.getLast_mem hne)⟩
    rw [this]
    simp
  · rw [trimEnd_ink _ hq]; exact isPrefixOf_append _ _

theorem fromHeader_garbage (env : Env) (h fmt acc : Str) (hk : ¬ envKey (trim h)) :
    (Envelope.fromHeader env h fmt acc : Res (Envelope M)) = fail .parse := by
  unfold Envelope.fromHeader
  split
  · rename_i t0 t1 ts e
    have hp := firstWord_prefix h t0 _ e
    have : EnvelopeKind.parse t0 = fail .parse := by
      unfold EnvelopeKind.parse
      split
      · rename_i h1; subst h1; exact absurd (Or.inl hp) hk
      · split
        · rename_i h1; subst h1; exact absurd (Or.inr hp) hk
        · rfl
    rw [this]
    rfl
  · rfl

theorem addBody_same {P : Str → Prop} (dec : Char) {ls ls' : List Str}
    (h : List.Forall₂ (SameEnd P) ls ls') (e : Envelope M) :
    Envelope.addBody dec ls e = Envelope.addBody dec ls' e := by
  induction h generalizing e with
  | nil => rfl
  | cons hx _ ih =>
    simp only [Envelope.addBody]
    have h1 : ∀ l l' : Str, trim (removeComments l) = trim (removeComments l') →
        e.addBodyLine dec l = e.addBodyLine dec l' := by
      intro l l' e; unfold Envelope.addBodyLine; simp only [e]
    rw [h1 _ _ hx.trim_rc]
    congr 1
    funext e'
    exact ih e'

theorem segs_join (ls : List Str) (h : ∀ l ∈ ls, noNl l) (hne : ls ≠ []) :
    segs (joinWith ['\n'] ls) = ls := by
  induction ls with
  | nil => exact absurd rfl hne
  | cons l ls ih =>
    cases ls with
    | nil => exact splitOn_none (h l (by simp))
    | cons m ms =>
      show segs (l ++ ['\n'] ++ joinWith ['\n'] (m :: ms)) = _
      rw [List.append_assoc, List.singleton_append, segs, splitOn_append,
        splitOn_none (h l (by simp))]
      have := ih (fun x hx => h x (by simp [hx])) (by simp)
      rw [segs] at this
      rw [this]
      rfl

theorem SameLines.join {P : Str → Prop} {ls ls' : List Str} (h : List.Forall₂ (SameEnd P) ls ls')
    (hn : ∀ l ∈ ls, noNl l) (hn' : ∀ l ∈ ls', noNl l) :
    SameLines P (joinWith ['\n'] ls) (joinWith ['\n'] ls') := by
  cases h with
  | nil => exact .refl _
  | cons hx hr =>
    unfold SameLines
    rw [segs_join _ hn (by simp), segs_join _ hn' (by simp)]
    exact .cons hx hr

theorem Envelope.parse_same (env : Env) (acc fmt : Str) (dec : Char) {c c' : Str} (h : SameLines envKey c c') :
    (Envelope.parse env c acc dec fmt : Res (Envelope M)) = Envelope.parse env c' acc dec fmt := by
  unfold Envelope.parse
  have hl := h.trim.lines
  have hn := lines_noNl (trim c)
  have hn' := lines_noNl (trim c')
  generalize lines (trim c) = xs at hl hn ⊢
  generalize lines (trim c') = ys at hl hn' ⊢
  cases hl with
  | nil => rfl
  | cons hx hr =>
    simp only
    have hj := (SameLines.join hr (fun l hl => hn l (by simp [hl]))
      (fun l hl => hn' l (by simp [hl]))).lines
    have hh : ∀ l l' : Str, SameEnd envKey l l' →
        (Envelope.fromHeader env l fmt acc : Res (Envelope M)) = Envelope.fromHeader env l' fmt acc := by
      intro l l' hs
      have ht := hs.trim
      rcases hs with rfl | ⟨_, _, hk⟩
      · rfl
      · rw [fromHeader_garbage env l fmt acc hk, fromHeader_garbage env l' fmt acc (by rw [← ht]; exact hk)]
    rw [hh _ _ hx]
    congr 1
    funext e
    exact addBody_same dec hj e

theorem Account.flush_same (env : Env) (a : Account M) (fmt : Str) (dec : Char) {c c' : Str}
    (h : SameLines envKey c c') : a.flush env c dec fmt = a.flush env c' dec fmt := by
  unfold Account.flush
  rw [h.trim.isEmpty, Envelope.parse_same env a.name fmt dec h]

theorem Account.parseLines_same (env : Env) (fmt : Str) (dec : Char) {ls ls' : List Str}
    (hl : List.Forall₂ (SameEnd envKey) ls ls') (hn : ∀ l ∈ ls, noNl l) (hn' : ∀ l ∈ ls', noNl l)
    (a : Account M) {c c' : Str} (h : SameLines envKey c c') :
    Account.parseLines env dec fmt ls a c = Account.parseLines env dec fmt ls' a c' := by
  induction hl generalizing a c c' with
  | nil => exact Account.flush_same env a fmt dec h
  | @cons x y xs ys hx hr ih =>
    simp only [Account.parseLines]
    rw [← hx.trim]
    by_cases hk : envKey (trim x)
    · have hk' : (startsWith s%"expense" (trim x) || startsWith s%"goal" (trim x)) = true := by
        rcases hk with h | h <;> simp [h]
      have hxy : x = y := by
        rcases hx with h | ⟨_, _, h⟩
        · exact h
        · exact absurd hk h
      subst hxy
      rw [if_pos hk', if_pos hk', Account.flush_same env a fmt dec h]
      congr 1
      funext a'
      exact ih (fun l hl => hn l (by simp [hl])) (fun l hl => hn' l (by simp [hl])) a' (.refl _)
    · have hk' : ¬ (startsWith s%"expense" (trim x) || startsWith s%"goal" (trim x)) = true := by
        intro hh
        apply hk
        simpa [envKey] using hh
      rw [if_neg hk', if_neg hk']
      exact ih (fun l hl => hn l (by simp [hl])) (fun l hl => hn' l (by simp [hl])) a
        (h.snoc (hn x (by simp)) (hn' y (by simp)) hx)

theorem Account.parse_same (env : Env) (fmt : Str) (dec : Char) {c c' : Str} (h : SameLines envKey c c') :
    (Account.parse env c dec fmt : Res (Account M)) = Account.parse env c' dec fmt := by
  unfold Account.parse
  have hl := h.lines
  have hn := lines_noNl c
  have hn' := lines_noNl c'
  generalize lines c = xs at hl hn ⊢
  generalize lines c' = ys at hl hn' ⊢
  cases hl with
  | nil => rfl
  | cons hx hr =>
    simp only
    have hh : ∀ l l' : Str, splitWs (removeComments l) = splitWs (removeComments l') →
        Account.parseHeader l = Account.parseHeader l' := by
      intro l l' e; unfold Account.parseHeader; rw [e]
    rw [hh _ _ hx.splitWs_rc]
    congr 1
    funext n
    exact Account.parseLines_same env fmt dec hr (fun l hl => hn l (by simp [hl]))
      (fun l hl => hn' l (by simp [hl])) _ (.refl _)

/-! ### Journals that differ in comments -/

/-- A line that says nothing: blank, or a comment that starts in the first column. -/
def Ignorable (l : Str) : Prop := allWs l ∨ startsMark l = true

instance (l : Str) : Decidable (Ignorable l) := by unfold Ignorable; infer_instance

/-- Is the line after `l` inside an account declaration, if `l` was (`b`) or was not? -/
def inAccount (b : Bool) (l : Str) : Bool :=
  match removeComments (trimEnd l) with
  | [] => b
  | c :: r => if isWs c then b else decide ((splitWs (c :: r)).head? = some s%"account")

/-- `l'` is the line `l` with a comment at its end. -/
def CommentAdded (l l' : Str) : Prop :=
  ∃ sp m, l' = l ++ sp ++ m ∧ allWs sp ∧ startsMark m = true ∧ (sp ≠ [] ∨ l.getLast? ≠ some '/') ∧
    ¬ allWs l

/-- The journal lines `ls'` are the lines `ls` with comments at the ends of some lines (but not at the
first line of an envelope), and blank lines and comment lines added or removed. -/
inductive Commented : Bool → List Str → List Str → Prop
  | nil (b : Bool) : Commented b [] []
  | same (b : Bool) (l : Str) (ls ls' : List Str) :
      Commented (inAccount b l) ls ls' → Commented b (l :: ls) (l :: ls')
  | removed (b : Bool) (l : Str) (ls ls' : List Str) :
      Ignorable l → Commented b ls ls' → Commented b (l :: ls) ls'
  | added (b : Bool) (l : Str) (ls ls' : List Str) :
      Ignorable l → Commented b ls ls' → Commented b ls (l :: ls')
  | trailing (b : Bool) (l l' : Str) (ls ls' : List Str) :
      CommentAdded l l' → (inAccount b l = true → ¬ envKey (trim l)) →
      Commented (inAccount b l) ls ls' → Commented b (l :: ls) (l' :: ls')

/-- The same files up to comments, the same working directory. -/
def SameUpToComments (w w' : World) : Prop :=
  w.cwd = w'.cwd ∧ ∀ p, match w.file p, w'.file p with
    | none, none => True
    | some s, some s' => Commented false (lines s) (lines s')
    | _, _ => False

theorem startsMark_trimEnd {l : Str} (h : startsMark l = true) : startsMark (trimEnd l) = true := by
  cases l with
  | nil => cases h
  | cons c l =>
    rw [startsMark_cons] at h
    by_cases hc : c = ';'
    · subst hc
      have : trimEnd ([';'] ++ l) = if allWs l then [';'] else ';' :: trimEnd l := by
        split
        · rename_i hw; rw [trimEnd_ws _ hw]; decide
        · rename_i hw; rw [trimEnd_ink _ hw]; rfl
      rw [List.singleton_append] at this
      rw [this]
      split <;> rfl
    · simp only [hc, decide_false, Bool.false_or, Bool.and_eq_true, decide_eq_true_eq] at h
      obtain ⟨rfl, h2⟩ := h
      cases l with
      | nil => cases h2
      | cons d l =>
        simp only [List.head?_cons, Option.some.injEq] at h2
        subst h2
        have : trimEnd (s%"//" ++ l) = if allWs l then s%"//" else s%"//" ++ trimEnd l := by
          split
          · rename_i hw; rw [trimEnd_ws _ hw]; decide
          · rename_i hw; rw [trimEnd_ink _ hw]
        have e : ('/' :: '/' :: l) = s%"//" ++ l := rfl
        rw [e, this]
        split <;> rfl

theorem effective_nil {l : Str} (h : Ignorable l) : removeComments (trimEnd l) = [] := by
  rw [removeComments_eq_rc]
  rcases h with h | h
  · rw [trimEnd_allWs h]; rfl
  · have := startsMark_trimEnd h
    cases ht : trimEnd l with
    | nil => rfl
    | cons c r => rw [ht] at this; simp [rc, this]

theorem rc_mem {s : Str} {c : Char} (h : c ∈ rc s) : c ∈ s := by
  obtain ⟨rest, h1, _⟩ := rc_append_rest s
  rw [h1]; simp [h]

theorem trimEnd_mem {s : Str} {c : Char} (h : c ∈ trimEnd s) : c ∈ s := by
  obtain ⟨b, _, h1, _⟩ := trimEnd_spec s
  rw [h1]; simp [h]

theorem effective_noNl {l : Str} (h : noNl l) : noNl (removeComments (trimEnd l)) := by
  rw [removeComments_eq_rc]
  exact fun hm => h (trimEnd_mem (rc_mem hm))

/-- Either there is a comment, and what follows does not matter, or there is none, and whitespace
that follows is kept. -/
theorem rc_append_ws' (a : Str) {b : Str} (h : allWs b) :
    rc (a ++ b) = rc a ∨ (rc a = a ∧ rc (a ++ b) = a ++ b) := by
  induction a with
  | nil => right; exact ⟨rfl, by simpa using rc_allWs h⟩
  | cons c a ih =>
    have hm : startsMark (c :: (a ++ b)) = startsMark (c :: a) := by
      rw [startsMark_cons, startsMark_cons]
      cases a with
      | nil =>
        cases b with
        | nil => rfl
        | cons d b =>
          have : d ≠ '/' := by
            rintro rfl
            have := h '/' (by simp)
            rw [isWs_slash] at this; cases this
          simp [this]
      | cons d a => rfl
    rw [List.cons_append]
    simp only [rc, hm]
    cases hs : startsMark (c :: a) with
    | true => left; rfl
    | false =>
      simp only [Bool.false_eq_true, if_false, List.cons.injEq, true_and]
      exact ih

/-- A comment at the end changes at most the whitespace at the end of what is left of a line. -/
theorem effective_trailing {l l' : Str} (h : CommentAdded l l') :
    removeComments (trimEnd l) = removeComments (trimEnd l') ∨
    (trimEnd (removeComments (trimEnd l)) = trimEnd (removeComments (trimEnd l')) ∧
      ¬ allWs (removeComments (trimEnd l)) ∧ trim (removeComments (trimEnd l)) = trim l) := by
  obtain ⟨sp, m, rfl, hsp, hm, hslash, hink⟩ := h
  rw [removeComments_eq_rc, removeComments_eq_rc]
  have hmi : ¬ allWs m := by
    intro hw
    cases m with
    | nil => cases hm
    | cons c m =>
      have := startsMark_ws (hw c (by simp)) m
      rw [this] at hm; cases hm
  rw [trimEnd_ink _ hmi]
  have h1 : rc (l ++ sp ++ trimEnd m) = rc (l ++ sp) := by
    apply rc_append_mark _ _ (startsMark_trimEnd hm)
    left
    rcases hslash with h | h
    · intro e
      have hl : (l ++ sp).getLast? = some (sp.getLast h) := by
        rw [List.getLast?_append]
        rw [List.getLast?_eq_some_getLast h]
        rfl
      rw [hl] at e
      have := hsp (sp.getLast h) (List.getLast_mem h)
      simp only [Option.some.injEq] at e
      rw [e, isWs_slash] at this
      cases this
    · cases sp with
      | nil => simpa using h
      | cons c sp =>
        intro e
        have hl : (l ++ c :: sp).getLast? = some ((c :: sp).getLast (by simp)) := by
          rw [List.getLast?_append]
          rw [List.getLast?_eq_some_getLast (by simp : c :: sp ≠ [])]
          rfl
        rw [hl] at e
        have := hsp ((c :: sp).getLast (by simp)) (List.getLast_mem _)
        simp only [Option.some.injEq] at e
        rw [e, isWs_slash] at this
        cases this
  rw [h1]
  obtain ⟨b, hb, hl, _⟩ := trimEnd_spec l
  have h2 : l ++ sp = trimEnd l ++ (b ++ sp) := by rw [← List.append_assoc, ← hl]
  rw [h2]
  rcases rc_append_ws' (trimEnd l) (allWs_append.2 ⟨hb, hsp⟩) with h | ⟨h3, h4⟩
  · left; exact h.symm
  · right
    rw [h3, h4, trimEnd_ws _ (allWs_append.2 ⟨hb, hsp⟩)]
    refine ⟨rfl, ?_, ?_⟩
    · intro hw
      apply hink
      rw [hl]
      exact allWs_append.2 ⟨hw, hb⟩
    · conv => rhs; rw [hl, trim_ws_right _ hb]

/-- Failures are the same, and successes are related. -/
def RelRes {α : Type} (R : α → α → Prop) : Res α → Res α → Prop
  | .ok a, .ok b => R a b
  | .error f, .error g => f = g
  | _, _ => False

/-- The same ledger, worlds related by `W`. -/
def RelSt (W : World → World → Prop) (a b : Ledger M × World) : Prop := a.1 = b.1 ∧ W a.2 b.2

/-- Which lines of the item must not be touched. -/
def keyOf (b : Bool) : Str → Prop := if b then envKey else noKey

/-- Items that differ in comments. -/
def ChunkRel (b : Bool) (c c' : Str) : Prop :=
  SameLines (keyOf b) c c' ∧ ((c = [] ∧ c' = []) ∨ (c.head? = some '\n' ∧ c'.head? = some '\n') ∨
    (¬ allWs c ∧ ((splitWs c).head? = some s%"account" → b = true)))

theorem ChunkRel.snoc {b : Bool} {c c' x y : Str} (h : ChunkRel b c c') (hx : noNl x) (hy : noNl y)
    (hs : SameEnd (keyOf b) x y) : ChunkRel b (c ++ '\n' :: x) (c' ++ '\n' :: y) := by
  refine ⟨h.1.snoc hx hy hs, ?_⟩
  rcases h.2 with ⟨rfl, rfl⟩ | ⟨h1, h2⟩ | ⟨h1, h2⟩
  · right; left; exact ⟨rfl, rfl⟩
  · right; left
    constructor
    · cases c with
      | nil => cases h1
      | cons d c => simpa using h1
    · cases c' with
      | nil => cases h2
      | cons d c => simpa using h2
  · right; right
    refine ⟨fun hw => h1 (allWs_append.1 hw).1, ?_⟩
    rw [splitWs_append_ws _ isWs_nl]
    cases hc : splitWs c with
    | nil => exact absurd (splitWs_eq_nil.1 hc) h1
    | cons t ts => rw [hc] at h2; simpa using h2

theorem Account.parse_nl (env : Env) (c fmt : Str) (dec : Char) (h : c.head? = some '\n') :
    (Account.parse env c dec fmt : Res (Account M)) = fail .parse := by
  cases c with
  | nil => cases h
  | cons d c =>
    simp only [List.head?_cons, Option.some.injEq] at h
    subst h
    unfold Account.parse
    rw [lines_nl]
    rfl

theorem parseChunk_rel {W : World → World → Prop} (env : Env) (inc : Ledger M × World → Str → Res (Ledger M × World))
    (hinc : ∀ st st' p, RelSt W st st' → RelRes (RelSt W) (inc st p) (inc st' p))
    (b : Bool) (st st' : Ledger M × World) (hst : RelSt W st st') (c c' : Str) (hc : ChunkRel b c c') :
    RelRes (RelSt W) (Ledger.parseChunk env inc st c) (Ledger.parseChunk env inc st' c') := by
  obtain ⟨l, w⟩ := st
  obtain ⟨l', w'⟩ := st'
  obtain ⟨rfl, hw⟩ := hst
  have hsp := hc.1.splitWs
  unfold Ledger.parseChunk
  rw [← hc.1.isEmpty, ← hsp]
  split
  · exact ⟨rfl, hw⟩
  · cases hs : splitWs c with
    | nil => exact ⟨rfl, hw⟩
    | cons kw rest =>
      simp only
      split
      · rename_i hk
        subst hk
        have hp : (Account.parse env c l.decimal l.dateFormat : Res (Account M)) =
            Account.parse env c' l.decimal l.dateFormat := by
          rcases hc.2 with ⟨h1, h2⟩ | ⟨h1, h2⟩ | ⟨h1, h2⟩
          · rw [h1, h2]
          · rw [Account.parse_nl env c _ _ h1, Account.parse_nl env c' _ _ h2]
          · have hb : b = true := h2 (by rw [hs]; rfl)
            have h3 := hc.1
            rw [hb] at h3
            exact Account.parse_same env _ _ h3
        simp only [Ledger.parseAccount, hp, bind, Except.bind, pure, Except.pure]
        cases (Account.parse env c' l.decimal l.dateFormat : Res (Account M)) with
        | error f => exact rfl
        | ok a => exact ⟨rfl, hw⟩
      · split
        · cases rest with
          | nil => exact rfl
          | cons v r => exact ⟨rfl, hw⟩
        · split
          · cases rest with
            | nil => exact rfl
            | cons v r => exact ⟨rfl, hw⟩
          · split
            · cases rest with
              | nil => exact rfl
              | cons v r => exact hinc _ _ _ ⟨rfl, hw⟩
            · simp only [Ledger.parseEntry, Entry.parse_same env l.dateFormat l.decimal l.accountNames hc.1,
                bind, Except.bind, pure, Except.pure]
              cases (Entry.parse env c' l.dateFormat l.decimal l.accountNames : Res (Entry M)) with
              | error f => exact rfl
              | ok e =>
                simp only
                cases l.addEntry env e with
                | error f => exact rfl
                | ok l2 => exact ⟨rfl, hw⟩

theorem RelRes.bind {α : Type} {R S : α → α → Prop} {r r' : Res α} {f g : α → Res α} (h : RelRes R r r')
    (hf : ∀ a b, R a b → RelRes S (f a) (g b)) : RelRes S (r >>= f) (r' >>= g) := by
  cases r with
  | error e =>
    cases r' with
    | error e' => exact h
    | ok b => exact h.elim
  | ok a =>
    cases r' with
    | error e' => exact h.elim
    | ok b => exact hf a b h

theorem addLinesFrom_rel {W : World → World → Prop} (env : Env) (inc : Ledger M × World → Str → Res (Ledger M × World))
    (hinc : ∀ st st' p, RelSt W st st' → RelRes (RelSt W) (inc st p) (inc st' p))
    (b : Bool) (ls ls' : List Str) (h : Commented b ls ls') (hn : ∀ l ∈ ls, noNl l)
    (hn' : ∀ l ∈ ls', noNl l) (st st' : Ledger M × World) (hst : RelSt W st st') (c c' : Str)
    (hc : ChunkRel b c c') :
    RelRes (RelSt W) (Ledger.addLinesFrom env inc ls st c) (Ledger.addLinesFrom env inc ls' st' c') := by
  induction h generalizing st st' c c' with
  | nil b => exact parseChunk_rel env inc hinc b st st' hst c c' hc
  | same b l ls ls' h ih =>
    have hn1 := fun x hx => hn x (List.mem_cons_of_mem _ hx)
    have hn2 := fun x hx => hn' x (List.mem_cons_of_mem _ hx)
    have hnl := effective_noNl (hn l (by simp))
    simp only [Ledger.addLinesFrom]
    unfold inAccount at h ih
    cases he : removeComments (trimEnd l) with
    | nil => rw [he] at ih; exact ih hn1 hn2 st st' hst c c' hc
    | cons d r =>
      rw [he] at ih hnl
      simp only at ih ⊢
      by_cases hd : isWs d = true
      · simp only [hd, if_true] at ih ⊢
        exact ih hn1 hn2 st st' hst _ _ (hc.snoc hnl hnl (.refl _))
      · simp only [hd, if_false, Bool.false_eq_true] at ih ⊢
        refine (parseChunk_rel env inc hinc b st st' hst c c' hc).bind fun a a' ha => ?_
        refine ih hn1 hn2 a a' ha _ _ ⟨.refl _, Or.inr (Or.inr ⟨?_, ?_⟩)⟩
        · intro hw; exact hd (hw d (by simp))
        · simp
  | removed b l ls ls' hi h ih =>
    simp only [Ledger.addLinesFrom, effective_nil hi]
    exact ih (fun x hx => hn x (List.mem_cons_of_mem _ hx)) hn' st st' hst c c' hc
  | added b l ls ls' hi h ih =>
    simp only [Ledger.addLinesFrom, effective_nil hi]
    exact ih hn (fun x hx => hn' x (List.mem_cons_of_mem _ hx)) st st' hst c c' hc
  | trailing b l l' ls ls' hl hk h ih =>
    have hn1 := fun x hx => hn x (List.mem_cons_of_mem _ hx)
    have hn2 := fun x hx => hn' x (List.mem_cons_of_mem _ hx)
    have hnl := effective_noNl (hn l (by simp))
    have hnl' := effective_noNl (hn' l' (by simp))
    simp only [Ledger.addLinesFrom]
    have hE := effective_trailing hl
    -- the effective lines are the same up to the end
    have hse : SameEnd (keyOf (inAccount b l)) (removeComments (trimEnd l)) (removeComments (trimEnd l')) := by
      rcases hE with h | ⟨h1, h2, h3⟩
      · exact Or.inl h
      · refine Or.inr ⟨h1, h2, ?_⟩
        rw [h3]
        unfold keyOf
        split
        · rename_i hb; exact hk hb
        · exact fun h => h
    unfold inAccount at h ih hse
    cases he : removeComments (trimEnd l) with
    | nil =>
      rw [he] at ih hse
      have := hse.eq_of_blank allWs_nil
      rw [← this]
      exact ih hn1 hn2 st st' hst c c' hc
    | cons d r =>
      -- the first characters agree
      obtain ⟨r', he'⟩ : ∃ r', removeComments (trimEnd l') = d :: r' := by
        rcases hE with h | ⟨h1, h2, _⟩
        · exact ⟨r, by rw [← h, he]⟩
        · rw [he] at h1 h2
          obtain ⟨u, hu, e1, _⟩ := trimEnd_spec (d :: r)
          obtain ⟨v, hv, e2, _⟩ := trimEnd_spec (removeComments (trimEnd l'))
          cases ht : trimEnd (d :: r) with
          | nil => exact absurd (trimEnd_eq_nil.1 ht) h2
          | cons x xs =>
            rw [ht] at e1 h1
            rw [← h1] at e2
            simp only [List.cons_append, List.cons.injEq] at e1 e2
            exact ⟨xs ++ v, by rw [e2, e1.1]⟩
      rw [he] at ih hnl hse
      rw [he'] at hnl' hse
      rw [he']
      simp only at ih hse ⊢
      by_cases hd : isWs d = true
      · simp only [hd, if_true] at ih hse ⊢
        exact ih hn1 hn2 st st' hst _ _ (hc.snoc hnl hnl' hse)
      · simp only [hd, if_false, Bool.false_eq_true] at ih hse ⊢
        refine (parseChunk_rel env inc hinc b st st' hst c c' hc).bind fun a a' ha => ?_
        refine ih hn1 hn2 a a' ha _ _ ⟨.single hnl hnl' hse, Or.inr (Or.inr ⟨?_, ?_⟩)⟩
        · intro hw; exact hd (hw d (by simp))
        · simp

theorem SameUpToComments.cdParent {w w' : World} (h : SameUpToComments w w') (p : Str) :
    SameUpToComments (w.cdParent p) (w'.cdParent p) :=
  ⟨by simp only [World.cdParent, h.1], h.2⟩

theorem addFromFile_rel (env : Env) (fuel : Nat) (st st' : Ledger M × World) (hst : RelSt SameUpToComments st st') (p : Str) :
    RelRes (RelSt SameUpToComments) (Ledger.addFromFile env fuel st p) (Ledger.addFromFile env fuel st' p) := by
  induction fuel generalizing st st' p with
  | zero => exact rfl
  | succ f ih =>
    simp only [Ledger.addFromFile, World.read]
    rw [← hst.2.1]
    have hfile := hst.2.2 (resolve st.2.cwd p)
    cases h1 : endsInName p with
    | false => exact rfl
    | true =>
      simp only [if_true]
      cases h2 : st.2.file (resolve st.2.cwd p) with
      | none =>
        rw [h2] at hfile
        cases h3 : st'.2.file (resolve st.2.cwd p) with
        | none => exact rfl
        | some s' => rw [h3] at hfile; exact hfile.elim
      | some s =>
        rw [h2] at hfile
        cases h3 : st'.2.file (resolve st.2.cwd p) with
        | none => rw [h3] at hfile; exact hfile.elim
        | some s' =>
          rw [h3] at hfile
          exact addLinesFrom_rel env _ (fun a b q hab => ih a b hab q) false _ _ hfile (lines_noNl s)
            (lines_noNl s') (st.1, st.2.cdParent p) (st'.1, st'.2.cdParent p)
            ⟨hst.1, hst.2.cdParent p⟩ [] [] ⟨.refl _, Or.inl ⟨rfl, rfl⟩⟩

/-- The journal, and every file it includes, may be changed in comments: the outcome of loading, be it
a ledger or a failure, is the same. (The full claim would allow a comment also at the end of the
first line of an envelope, for which it is false: `C49_envelope_header_comment`.) -/
theorem C49_comments_partial (M : Type) [Mag M] (env : Env) (fuel : Nat) (w w' : World) (path : Str)
    (h : SameUpToComments w w') :
    (Ledger.fromFile env fuel w path : Res (Ledger M × World)).map Prod.fst =
      (Ledger.fromFile env fuel w' path).map Prod.fst := by
  have := addFromFile_rel (M := M) env fuel (Ledger.new path, w) (Ledger.new path, w') ⟨rfl, h⟩ path
  unfold Ledger.fromFile
  generalize (Ledger.addFromFile env fuel (Ledger.new path, w) path : Res (Ledger M × World)) = r at this
  generalize (Ledger.addFromFile env fuel (Ledger.new path, w') path : Res (Ledger M × World)) = r' at this
  cases r with
  | error f =>
    cases r' with
    | error g => have : f = g := this; rw [this]
    | ok b => exact this.elim
  | ok a =>
    cases r' with
    | error g => exact this.elim
    | ok b =>
      have : a.1 = b.1 := this.1
      simp [Except.map, this]

theorem Commented.of_filter (b : Bool) (ls ls' : List Str)
    (h : ls.filter (fun l => ¬ Ignorable l) = ls'.filter (fun l => ¬ Ignorable l)) :
    Commented b ls ls' := by
  induction ls generalizing b ls' with
  | nil =>
    induction ls' with
    | nil => exact .nil b
    | cons l ls' ih =>
      by_cases hi : Ignorable l
      · refine .added b l _ _ hi (ih ?_)
        simpa [hi] using h
      · simp [hi] at h
  | cons l ls ih =>
    by_cases hi : Ignorable l
    · exact .removed b l _ _ hi (ih b ls' (by simpa [hi] using h))
    · induction ls' with
      | nil => simp [hi] at h
      | cons l' ls' ih' =>
        by_cases hi' : Ignorable l'
        · refine .added b l' _ _ hi' (ih' ?_)
          simpa [hi'] using h
        · simp only [hi, not_false_eq_true, decide_true, List.filter_cons_of_pos, hi', List.cons.injEq] at h
          obtain ⟨rfl, h⟩ := h
          exact .same b l _ _ (ih _ ls' h)

theorem Commented.refl (b : Bool) (ls : List Str) : Commented b ls ls := by
  induction ls generalizing b with
  | nil => exact .nil b
  | cons l ls ih => exact .same b l ls ls (ih _)

theorem Commented.append_same {b : Bool} {ls ls' : List Str} (h : Commented b ls ls') (m : List Str) :
    Commented b (ls ++ m) (ls' ++ m) := by
  induction h with
  | nil b => exact .refl b m
  | same b l ls ls' _ ih => exact .same b l _ _ ih
  | removed b l ls ls' hi _ ih => exact .removed b l _ _ hi ih
  | added b l ls ls' hi _ ih => exact .added b l _ _ hi ih
  | trailing b l l' ls ls' hl hk _ ih => exact .trailing b l l' _ _ hl hk ih

/-- Specification for C48: the same files up to lines that say nothing. -/
def SameUpToBlankLines (w w' : World) : Prop :=
  w.cwd = w'.cwd ∧ ∀ p, match w.file p, w'.file p with
    | none, none => True
    | some s, some s' =>
      (lines s).filter (fun l => ¬ Ignorable l) = (lines s').filter (fun l => ¬ Ignorable l)
    | _, _ => False

theorem C48_blank_lines (M : Type) [Mag M] (env : Env) (fuel : Nat) (w w' : World) (path : Str)
    (h : SameUpToBlankLines w w') :
    (Ledger.fromFile env fuel w path : Res (Ledger M × World)).map Prod.fst =
      (Ledger.fromFile env fuel w' path).map Prod.fst := by
  apply C49_comments_partial
  refine ⟨h.1, fun p => ?_⟩
  have := h.2 p
  split at this
  · trivial
  · exact Commented.of_filter _ _ _ this
  · exact this.elim

/-! A journal with comments at many places, and the same without any. -/

def plainDisk : World := disk [("j", "account a\n  expense food due every 1st\n    amount 5\n    for expenses:x
account expenses:x\n2024/01/02 * shop\n expenses:x 3\n a\ninclude k\n"), ("k", "account b\n")]

def commentedDisk : World := disk [("j", "; my journal\n\naccount a ; cash\n  expense food due every 1st\n    amount 5 // five
    for expenses:x; all of it\n// more\n   \naccount expenses:x\n2024/01/02 * shop; today\n expenses:x 3 ; three\n; it is
 a // from\ninclude k // there\n"), ("k", "\n\naccount b;\n;")]

theorem disk_two (j k j' k' : String) (h1 : Commented false (lines j.toList) (lines j'.toList))
    (h2 : Commented false (lines k.toList) (lines k'.toList)) :
    SameUpToComments (disk [("j", j), ("k", k)]) (disk [("j", j'), ("k", k')]) := by
  refine ⟨rfl, fun p => ?_⟩
  match p with
  | [] => trivial
  | [_] => trivial
  | _ :: _ :: _ :: _ => trivial
  | [d, n] =>
    simp only [disk]
    by_cases hd : d = s%"h"
    · simp only [if_pos hd, List.find?_cons, List.find?_nil]
      cases hj : ("j".toList == n) with
      | true => exact h1
      | false =>
        simp only
        cases hk : ("k".toList == n) with
        | true => exact h2
        | false => trivial
    · simp only [if_neg hd]

/-- The lines of the two journals, with where the comments are. -/
theorem example_commented : SameUpToComments plainDisk commentedDisk := by
  apply disk_two
  · have e1 : lines "account a\n  expense food due every 1st\n    amount 5\n    for expenses:x
account expenses:x\n2024/01/02 * shop\n expenses:x 3\n a\ninclude k\n".toList =
      [s%"account a", s%"  expense food due every 1st", s%"    amount 5", s%"    for expenses:x",
        s%"account expenses:x", s%"2024/01/02 * shop", s%" expenses:x 3", s%" a", s%"include k"] := by
      decide +kernel
    have e2 : lines "; my journal\n\naccount a ; cash\n  expense food due every 1st\n    amount 5 // five
    for expenses:x; all of it\n// more\n   \naccount expenses:x\n2024/01/02 * shop; today\n expenses:x 3 ; three\n; it is
 a // from\ninclude k // there\n".toList =
      [s%"; my journal", [], s%"account a ; cash", s%"  expense food due every 1st",
        s%"    amount 5 // five", s%"    for expenses:x; all of it", s%"// more", s%"   ",
        s%"account expenses:x", s%"2024/01/02 * shop; today", s%" expenses:x 3 ; three", s%"; it is",
        s%" a // from", s%"include k // there"] := by decide +kernel
    rw [e1, e2]
    refine .added _ _ _ _ (by decide) (.added _ _ _ _ (by decide) ?_)
    refine .trailing _ _ _ _ _ ⟨s%" ", s%"; cash", by decide⟩ (by decide) (.same _ _ _ _ ?_)
    refine .trailing _ _ _ _ _ ⟨s%" ", s%"// five", by decide⟩ (by decide) ?_
    refine .trailing _ _ _ _ _ ⟨[], s%"; all of it", by decide⟩ (by decide) ?_
    refine .added _ _ _ _ (by decide) (.added _ _ _ _ (by decide) (.same _ _ _ _ ?_))
    refine .trailing _ _ _ _ _ ⟨[], s%"; today", by decide⟩ (by decide) ?_
    refine .trailing _ _ _ _ _ ⟨s%" ", s%"; three", by decide⟩ (by decide) ?_
    refine .added _ _ _ _ (by decide) ?_
    refine .trailing _ _ _ _ _ ⟨s%" ", s%"// from", by decide⟩ (by decide) ?_
    exact .trailing _ _ _ _ _ ⟨s%" ", s%"// there", by decide⟩ (by decide) (.nil _)
  · have e1 : lines "account b\n".toList = [s%"account b"] := by decide +kernel
    have e2 : lines "\n\naccount b;\n;".toList = [[], [], s%"account b;", s%";"] := by decide +kernel
    rw [e1, e2]
    refine .added _ _ _ _ (by decide) (.added _ _ _ _ (by decide) ?_)
    exact .trailing _ _ _ _ _ ⟨[], s%";", by decide⟩ (by decide) (.added _ _ _ _ (by decide) (.nil _))

/-- and it does load: two entries' worth of postings, three accounts -/
example : ∃ l, (Ledger.fromFile (stdEnv june15) 9 commentedDisk s%"j" : Res (Ledger F64 × World)).map Prod.fst = .ok l ∧
    l.accountNames = [s%"a", s%"expenses:x", s%"b"] ∧ l.entries.length = 1 := by
  rw [← C49_comments_partial F64 _ _ _ _ _ example_commented]
  decide +kernel

/-- A comment at the end of the first line of an envelope can make the journal unreadable: the
spaces before it are read as part of the date. -/
theorem C49_envelope_header_comment :
    ((Ledger.fromFile (stdEnv june15) 9
      (disk [("j", "account a\n  goal car by 2025/01/01\n    amount 5\n")]) s%"j" :
        Res (Ledger F64 × World)).isOk = true) ∧
    (Ledger.fromFile (stdEnv june15) 9
      (disk [("j", "account a\n  goal car by 2025/01/01 ; soon\n    amount 5\n")]) s%"j" :
        Res (Ledger F64 × World)).map (fun _ => ()) = fail .parse := by
  constructor <;> decide +kernel

/-! ### C50 -/

/-- The claim: a comment line inside an envelope is ignored. It is not: wherever such a line stands
between the first and the last line of an envelope that is correct up to there, loading aborts. -/
theorem C50_comment_line_aborts (env : Env) (acc fmt : Str) (dec : Char) (h x : Str) (pre post : List Str)
    (e : Envelope M) (hok : Envelope.parse env (joinWith ['\n'] (h :: pre)) acc dec fmt = .ok e)
    (hx : allWs (removeComments x))
    (hlines : ∀ l ∈ h :: pre ++ x :: post, noNl l)
    (hfirst : ∃ c r, h = c :: r ∧ isWs c = false)
    (hends : ∀ l ∈ h :: pre ++ post, ∃ r c, l = r ++ [c] ∧ isWs c = false)
    (hpost : post ≠ []) :
    (Envelope.parse env (joinWith ['\n'] (h :: pre ++ x :: post)) acc dec fmt : Res (Envelope M)) = panicked := by
  have hne : ∀ l ∈ h :: pre ++ post, stripCr l = l ∧ l ≠ [] := by
    intro l hl
    obtain ⟨r, c, rfl, hc⟩ := hends l hl
    refine ⟨?_, by simp⟩
    unfold stripCr
    rw [if_neg]
    simp only [List.getLast?_append, List.getLast?_singleton, Option.some_or, Option.some.injEq]
    rintro rfl
    rw [isWs_cr] at hc; cases hc
  have hmap : ∀ ls : List Str, (∀ l ∈ ls, stripCr l = l ∧ l ≠ []) → ls.map stripCr = ls := by
    intro ls hls
    induction ls with
    | nil => rfl
    | cons l ls ih => rw [List.map_cons, (hls l (by simp)).1, ih fun l hl => hls l (by simp [hl])]
  have hid : ∀ ls : List Str, (∀ l ∈ ls, stripCr l = l ∧ l ≠ []) → linesOf ls = ls := by
    intro ls hls
    induction ls with
    | nil => rfl
    | cons l ls ih =>
      cases ls with
      | nil => simp [linesOf, (hls l (by simp)).2]
      | cons m ms =>
        rw [linesOf_cons, (hls l (by simp)).1, ih fun l hl => hls l (by simp [hl])]
  have happ : ∀ a b : List Str, b ≠ [] → linesOf (a ++ b) = a.map stripCr ++ linesOf b := by
    intro a b hb
    induction a with
    | nil => rfl
    | cons l a ih =>
      cases hab : a ++ b with
      | nil => simp at hab; exact absurd hab.2 hb
      | cons m ms =>
        rw [List.cons_append, hab, linesOf_cons, ← hab, ih]; rfl
  have htrim : ∀ ls : List Str, ls ≠ [] → (∃ c r, ls.head? = some (c :: r) ∧ isWs c = false) →
      (∃ r c, ls.getLast? = some (r ++ [c]) ∧ isWs c = false) →
      trim (joinWith ['\n'] ls) = joinWith ['\n'] ls := by
    intro ls hls h1 h2
    apply trim_id
    · right
      obtain ⟨c, r, h1, hc⟩ := h1
      cases ls with
      | nil => exact absurd rfl hls
      | cons l ls =>
        simp only [List.head?_cons, Option.some.injEq] at h1
        subst h1
        cases ls with
        | nil => exact ⟨c, r, rfl, hc⟩
        | cons m ms => exact ⟨c, r ++ ['\n'] ++ joinWith ['\n'] (m :: ms), rfl, hc⟩
    · right
      obtain ⟨r, c, h2, hc⟩ := h2
      clear h1
      induction ls with
      | nil => exact absurd rfl hls
      | cons l ls ih =>
        cases ls with
        | nil =>
          simp only [List.getLast?_singleton, Option.some.injEq] at h2
          exact ⟨r, c, h2, hc⟩
        | cons m ms =>
          obtain ⟨r', c', h3, hc'⟩ := ih (by simp) (by rwa [List.getLast?_cons_cons] at h2)
          refine ⟨l ++ ['\n'] ++ r', c', ?_, hc'⟩
          show l ++ ['\n'] ++ joinWith ['\n'] (m :: ms) = _
          rw [h3]; simp
  obtain ⟨c0, r0, hh, hc0⟩ := hfirst
  have hnpre : ∀ l ∈ h :: pre, stripCr l = l ∧ l ≠ [] := fun l hl => hne l (by
    rcases List.mem_cons.1 hl with rfl | hl
    · simp
    · simp [hl])
  have hlast : ∃ r c, (h :: pre).getLast? = some (r ++ [c]) ∧ isWs c = false := by
    obtain ⟨r, c, e1, e2⟩ := hends ((h :: pre).getLast (by simp)) (by
      have := List.getLast_mem (by simp : h :: pre ≠ [])
      exact List.mem_append_left _ this)
    exact ⟨r, c, by rw [List.getLast?_eq_some_getLast (by simp), e1], e2⟩
  have hlast' : ∃ r c, (h :: pre ++ x :: post).getLast? = some (r ++ [c]) ∧ isWs c = false := by
    obtain ⟨r, c, e1, e2⟩ := hends (post.getLast hpost) (by
      have := List.getLast_mem hpost
      exact List.mem_append_right _ this)
    refine ⟨r, c, ?_, e2⟩
    rw [List.getLast?_append, List.getLast?_cons, List.getLast?_eq_some_getLast hpost, e1]
    rfl
  -- the correct part
  have l1 : lines (trim (joinWith ['\n'] (h :: pre))) = h :: pre := by
    rw [htrim _ (by simp) ⟨c0, r0, by rw [hh]; rfl, hc0⟩ hlast, lines_segs,
      segs_join _ (fun l hl => hlines l (List.mem_append_left _ hl)) (by simp)]
    exact hid _ hnpre
  have l2 : lines (joinWith ['\n'] pre) = pre := by
    cases hp : pre with
    | nil => rfl
    | cons m ms =>
      rw [lines_segs, segs_join _ (fun l hl => hlines l (by rw [hp]; simp at hl ⊢; grind)) (by simp)]
      exact hid _ fun l hl => hnpre l (by rw [hp]; exact List.mem_cons_of_mem _ hl)
  unfold Envelope.parse at hok ⊢
  rw [l1] at hok
  simp only [l2, bind, Except.bind] at hok
  -- the whole
  have l3 : lines (trim (joinWith ['\n'] (h :: pre ++ x :: post))) = h :: (pre ++ stripCr x :: post) := by
    rw [htrim _ (by simp) ⟨c0, r0, by rw [hh]; rfl, hc0⟩ hlast', lines_segs, segs_join _ hlines (by simp),
      happ _ _ (by simp), hmap _ hnpre]
    have := happ [x] post hpost
    rw [List.singleton_append] at this
    rw [this, hid _ fun l hl => hne l (List.mem_append_right _ hl)]
    rfl
  have hx' : noNl (stripCr x) := by
    have := hlines x (by simp)
    intro hm
    apply this
    rcases stripCr_spec x with e | e
    · rw [e]; exact hm
    · rw [e]; simp [hm]
  have l4 : lines (joinWith ['\n'] (pre ++ stripCr x :: post)) = pre ++ stripCr (stripCr x) :: post := by
    rw [lines_segs, segs_join _ ?_ (by simp), happ _ _ (by simp), hmap _ fun l hl => hnpre l (by simp [hl])]
    · have := happ [stripCr x] post hpost
      rw [List.singleton_append] at this
      rw [this, hid _ fun l hl => hne l (List.mem_append_right _ hl)]
      rfl
    · intro l hl
      rcases List.mem_append.1 hl with hl | hl
      · exact hlines l (by simp [hl])
      · rcases List.mem_cons.1 hl with rfl | hl
        · exact hx'
        · exact hlines l (by simp [hl])
  rw [l3]
  simp only [l4, bind, Except.bind]
  cases hf : (Envelope.fromHeader env h fmt acc : Res (Envelope M)) with
  | error f => rw [hf] at hok; cases hok
  | ok e0 =>
    rw [hf] at hok
    simp only at hok ⊢
    have hbody : ∀ (ls : List Str) (e1 e2 : Envelope M) (y : Str), Envelope.addBody dec ls e1 = .ok e2 →
        allWs (rc y) → Envelope.addBody dec (ls ++ y :: post) e1 = panicked := by
      intro ls
      induction ls with
      | nil =>
        intro e1 e2 y _ hy
        have : e1.addBodyLine dec y = panicked := by
          unfold Envelope.addBodyLine
          rw [removeComments_eq_rc]
          simp only [trim_allWs hy]
          rfl
        simp only [List.nil_append, Envelope.addBody, this]
        rfl
      | cons l ls ih =>
        intro e1 e2 y hl hy
        simp only [Envelope.addBody, List.cons_append] at hl ⊢
        cases hb : e1.addBodyLine dec l with
        | error f => rw [hb] at hl; cases hl
        | ok e3 =>
          rw [hb] at hl
          exact ih e3 e2 y hl hy
    apply hbody pre e0 e _ hok
    have key : ∀ y : Str, allWs (rc y) → allWs (rc (stripCr y)) := by
      intro y hy
      rw [← splitWs_eq_nil] at hy ⊢
      rcases stripCr_spec y with e | e
      · rw [← e]; exact hy
      · rw [e, splitWs_rc_ws] at hy
        · exact hy
        · intro c hc
          simp at hc; subst hc; exact isWs_cr
    rw [removeComments_eq_rc] at hx
    exact key _ (key _ hx)


/-- A whole journal where this happens, and the same without the comment line. -/
theorem C50_comment_line_aborts_loading :
    ((Ledger.fromFile (stdEnv june15) 9
      (disk [("j", "account a\n  expense food due every 1st\n    funding aggressive\n    amount 5\n")]) s%"j" :
        Res (Ledger F64 × World)).isOk = true) ∧
    (Ledger.fromFile (stdEnv june15) 9
      (disk [("j", "account a\n  expense food due every 1st\n    funding aggressive\n    ; per week\n    amount 5\n")])
        s%"j" : Res (Ledger F64 × World)).map (fun _ => ()) = panicked := by
  constructor <;> decide +kernel

end Silverfox
