import Verif.Props.Messages
import Verif.Props.Reload

/-
What an error of loading quotes stands in the journal (C112).
-/

namespace Silverfox

set_option linter.unusedSectionVars false

/-! ### Letters -/

/-- What is left of a text without its whitespace. -/
def letters (s : Str) : Str := s.filter fun c => !isWs c

theorem letters_append (a b : Str) : letters (a ++ b) = letters a ++ letters b := List.filter_append ..

theorem letters_infix {a b : Str} (h : a <:+: b) : letters a <:+: letters b := by
  obtain ⟨x, y, rfl⟩ := h
  exact ⟨letters x, letters y, by simp only [letters_append]⟩

theorem letters_ws {a : Str} (h : allWs a) : letters a = [] := by
  unfold letters
  rw [List.filter_eq_nil_iff]
  intro c hc
  simp [h c hc]

theorem letters_nl (a : Str) : letters ('\n' :: a) = letters a := rfl

theorem letters_trim (s : Str) : letters (trim s) = letters s := by
  obtain ⟨a, b, ha, hb, h⟩ := trim_spec s
  conv => rhs; rw [h, letters_append, letters_append, letters_ws ha, letters_ws hb]
  simp

theorem trim_infix (s : Str) : trim s <:+: s := by
  obtain ⟨a, b, _, _, h⟩ := trim_spec s
  exact ⟨a, b, h.symm⟩

theorem consHead_flatten (c : Char) (ts : List Str) : (consHead c ts).flatten = c :: ts.flatten := by
  cases ts <;> rfl

theorem letters_words (s : Str) : letters (splitWs s).flatten = letters s := by
  induction s with
  | nil => rfl
  | cons c s ih =>
    rw [splitWs]
    split
    · rename_i h
      rw [ih]
      simp [letters, h]
    · rename_i h
      split
      · rw [consHead_flatten]
        have : ∀ t, letters (c :: t) = c :: letters t := fun t => by simp [letters, h]
        rw [this, this, ih]
      · have : ∀ t, letters (c :: t) = c :: letters t := fun t => by simp [letters, h]
        show letters (c :: (splitWs s).flatten) = _
        rw [this, this, ih]

theorem letters_lines (s : Str) : letters (lines s).flatten = letters s := by
  induction s with
  | nil => rfl
  | cons c s ih =>
    rw [lines]
    split
    · rename_i h
      subst h
      exact ih
    · split
      · rename_i h
        rw [h.1]
        exact ih
      · rw [consHead_flatten]
        show letters ([c] ++ (lines s).flatten) = letters ([c] ++ s)
        rw [letters_append, letters_append, ih]

theorem letters_join (sep : Str) (hs : allWs sep) (ts : List Str) :
    letters (joinWith sep ts) = letters ts.flatten := by
  induction ts with
  | nil => rfl
  | cons t ts ih =>
    cases ts with
    | nil => simp [joinWith]
    | cons u us =>
      rw [joinWith, List.flatten_cons, letters_append, letters_append, letters_append, ih,
        letters_ws hs, List.append_nil]
      simp

theorem space_ws : allWs [' '] := by
  intro c hc
  simp at hc
  subst hc
  decide

theorem nl_ws : allWs ['\n'] := by
  intro c hc
  simp at hc
  subst hc
  decide

theorem flatten_infix {a b : List Str} (h : a <:+: b) : a.flatten <:+: b.flatten := by
  obtain ⟨x, y, rfl⟩ := h
  exact ⟨x.flatten, y.flatten, by simp⟩

/-- Consecutive words of a text. -/
theorem letters_someWords {ts : List Str} {s : Str} (h : ts <:+: splitWs s) :
    letters ts.flatten <:+: letters s := by
  rw [← letters_words s]
  exact letters_infix (flatten_infix h)

theorem letters_word {t : Str} {s : Str} (h : t ∈ splitWs s) : letters t <:+: letters s :=
  letters_infix ((splitWs_infix s).1 t h)

/-! ### Lines -/

/-- A line is part of its text. -/
theorem lines_infix_aux (s : Str) : (∀ l ∈ lines s, l <:+: s) ∧
    ∀ l ls, lines s = l :: ls → l <+: s ∨ (∃ r, s = '\r' :: '\n' :: r ∧ l = []) := by
  induction s with
  | nil => exact ⟨(fun l h => by cases h), (fun l ls h => by cases h)⟩
  | cons c s ih =>
    rw [lines]
    split
    · exact ⟨fun l h => by
        rcases List.mem_cons.1 h with rfl | h
        · exact List.nil_infix
        · exact (ih.1 l h).trans (List.suffix_cons c s).isInfix,
        fun l ls h => by cases h; exact .inl List.nil_prefix⟩
    · split
      · rename_i h
        refine ⟨fun l hl => (ih.1 l hl).trans (List.suffix_cons c s).isInfix, fun l ls hl => ?_⟩
        obtain ⟨rfl, h2⟩ := h
        cases s with
        | nil => cases h2
        | cons d r =>
          simp only [List.head?_cons, Option.some.injEq] at h2
          subst h2
          rw [lines_nl] at hl
          cases hl
          exact .inl List.nil_prefix
      · cases hs : lines s with
        | nil =>
          have h1 : [c] <+: c :: s := List.cons_prefix_cons.2 ⟨rfl, List.nil_prefix⟩
          exact ⟨fun l hl => by
            simp only [consHead, List.mem_singleton] at hl
            subst hl
            exact h1.isInfix, fun l ls hl => by cases hl; exact .inl h1⟩
        | cons u us =>
          have hu : c :: u <+: c :: s := by
            rcases ih.2 u us hs with h | ⟨r, rfl, rfl⟩
            · exact List.cons_prefix_cons.2 ⟨rfl, h⟩
            · exact List.cons_prefix_cons.2 ⟨rfl, List.nil_prefix⟩
          refine ⟨fun l hl => ?_, fun l ls hl => by cases hl; exact .inl hu⟩
          rcases List.mem_cons.1 hl with rfl | hl
          · exact hu.isInfix
          · exact (ih.1 l (by rw [hs]; simp [hl])).trans (List.suffix_cons c s).isInfix

theorem lines_infix {s l : Str} (h : l ∈ lines s) : l <:+: s := (lines_infix_aux s).1 l h

/-! ### Texts without comments -/

theorem NoComment.infix {a b : Str} (h : NoComment b) (hi : a <:+: b) : NoComment a :=
  ⟨fun hm => h.1 (hi.subset hm), fun hm => h.2 (hm.trans hi)⟩

theorem noComment_rc (s : Str) : NoComment (removeComments s) := by
  rw [removeComments_eq_rc]
  exact (noComment_iff _).2 (rc_idem s)

theorem NoComment.same {s : Str} (h : NoComment s) : removeComments s = s := by
  rw [removeComments_eq_rc]
  exact (noComment_iff _).1 h

theorem NoComment.nl {a b : Str} (ha : NoComment a) (hb : NoComment b) :
    NoComment (a ++ '\n' :: b) := by
  rw [noComment_iff] at *
  rw [rc_append_cons ha (by decide) (by decide), hb]

theorem NoComment.nil : NoComment [] := (noComment_iff _).2 rfl

theorem NoComment.join {ls : List Str} (h : ∀ l ∈ ls, NoComment l) : NoComment (joinWith ['\n'] ls) := by
  induction ls with
  | nil => exact NoComment.nil
  | cons l ls ih =>
    cases ls with
    | nil => exact h l (by simp)
    | cons m ms =>
      have h1 := (h l (by simp)).nl (ih fun x hx => h x (List.mem_cons_of_mem _ hx))
      have h2 : joinWith ['\n'] (l :: m :: ms) = l ++ '\n' :: joinWith ['\n'] (m :: ms) := by
        simp [joinWith]
      rw [h2]
      exact h1

/-! ### Quoting -/

/-- Specification: the text of a journal file as far as it counts: without comments, whitespace and
line ends. -/
def content (s : Str) : Str := ((lines s).map fun l => letters (removeComments l)).flatten

/-- The text `c` stands in `T`, up to whitespace; amounts are quoted without `--`. -/
def Quotes (T c : Str) : Prop :=
  ∃ d, letters d <:+: T ∧ (c = d ∨ c = replaceAll s%"--" [] d)

/-- The error leads to a place in `T`: it has a context that stands there, or a word in backticks that
stands there, or names a directive that stands there. -/
def Leads (T : Str) (i : Info) : Prop :=
  match i.context with
  | some c => Quotes T c
  | none => ∃ m, i.message = some m ∧
      ((∃ a word b, m = a ++ '`' :: word ++ '`' :: b ∧ letters word <:+: T) ∨
        ∃ k ∈ [s%"currency", s%"date_format", s%"include"], k <:+: m ∧ k <:+: T)

/-- The error is about something in the file with the content `T`. -/
def Points (M : Type) [Mag M] (env : Env) (T : Str) : Err → Prop
  | .basic _ => False
  | .parse i => Leads T i
  | .validation i => Leads T i
  | .processing i => ∃ (s fmt : Str) (dec : Char) (names : List Str) (e : Entry M),
      letters s <:+: T ∧ Entry.parse env s fmt dec names = .ok e ∧ i.context = some e.fullString
  | .file p => letters (s%"include" ++ p) <:+: T

section
variable {M : Type} [Mag M] {env : Env} {T : Str}

theorem points_parseAt {c m : Str} (h : letters c <:+: T) : AllErr (Points M env T) (parseAt c m) :=
  AllErr.some ⟨c, h, .inl rfl⟩

theorem points_tick (a : Str) {m w b : Str} (hm : m = a ++ '`' :: w ++ '`' :: b)
    (h : letters w <:+: T) : AllErr (Points M env T) (parseErr m) :=
  AllErr.some ⟨m, rfl, .inl ⟨a, w, b, hm, h⟩⟩

theorem points_valid (a : Str) {m w b : Str} (hm : m = a ++ '`' :: w ++ '`' :: b)
    (h : letters w <:+: T) : AllErr (Points M env T) (some (.validation ⟨none, some m⟩)) :=
  AllErr.some ⟨m, rfl, .inl ⟨a, w, b, hm, h⟩⟩

theorem tick_here (a w b : Str) : a ++ ticked w ++ b = a ++ '`' :: w ++ '`' :: b := by
  simp [ticked]

theorem points_amount {s : Str} (dec : Char) (h : letters s <:+: T) :
    AllErr (Points M env T) (amountWhy M s dec) := by
  unfold amountWhy
  simp only
  cases amountClump s with
  | none => exact AllErr.some ⟨s, h, .inr rfl⟩
  | some c =>
    simp only
    cases (Mag.parse (rawMag dec c) : Option M) with
    | none => exact AllErr.some ⟨s, h, .inr rfl⟩
    | some _ => exact AllErr.none

theorem points_envPosting {line : Str} (dec : Char) (h : letters line <:+: T) :
    AllErr (Points M env T) (envPostingWhy M line dec) := by
  unfold envPostingWhy
  rcases hd : (splitWs line).drop 1 with _ | ⟨a, _ | ⟨b, r⟩⟩
  · exact points_parseAt h
  · exact points_parseAt h
  · refine points_amount dec (List.IsInfix.trans (letters_someWords ?_) h)
    refine List.IsInfix.trans ?_ (List.drop_suffix 1 _).isInfix
    rw [hd]
    exact ⟨[a, b], [], by simp⟩

theorem points_words {ts us : List Str} (dec : Char) (h : ts <:+: us) (hu : letters us.flatten <:+: T) :
    AllErr (Points M env T) (amountWhy M (joinWith [' '] ts) dec) := by
  refine points_amount dec ?_
  rw [letters_join _ space_ws]
  exact (letters_infix (flatten_infix h)).trans hu

theorem points_extract {toks : List Str} (dec : Char) (want : Str) (stop : Str → Bool)
    (h : letters toks.flatten <:+: T) : AllErr (Points M env T) (extractWhy M toks dec want stop) := by
  unfold extractWhy
  cases hd : toks.dropWhile (fun t => t != want) with
  | nil => exact AllErr.none
  | cons a l =>
    refine points_words dec ((List.takeWhile_prefix _).isInfix.trans ?_) h
    refine (List.suffix_cons a l).isInfix.trans ?_
    rw [← hd]
    exact (List.dropWhile_suffix _).isInfix

theorem points_classic {line : Str} (dec : Char) (accounts : List Str) (hn : NoComment line)
    (h : letters line <:+: T) : AllErr (Points M env T) (classicWhy M line dec accounts) := by
  unfold classicWhy
  rw [hn.same, splitWs_trim]
  cases hs : splitWs line with
  | nil => exact AllErr.none
  | cons a l =>
    have hl : letters l.flatten <:+: T :=
      (letters_someWords (s := line) (by rw [hs]; exact (List.suffix_cons a l).isInfix)).trans h
    refine AllErr.then (AllErr.ite (fun _ => AllErr.none) fun _ =>
      points_words dec (List.takeWhile_prefix _).isInfix hl) fun _ _ => ?_
    refine AllErr.then (points_extract dec _ _ hl) fun _ _ => ?_
    refine AllErr.then ?_ fun _ _ => ?_
    · refine AllErr.then (points_extract dec _ _ hl) fun o _ => ?_
      cases o with
      | some c => exact AllErr.none
      | none => exact points_extract dec _ _ hl
    · exact AllErr.ite (fun _ => AllErr.none) fun _ =>
        points_valid s%"the account " (tick_here _ _ _) ((letters_word (s := line) (by simp [hs])).trans h)

theorem points_posting {line : Str} (dec : Char) (accounts : List Str) (hn : NoComment line)
    (hb : ¬ (trim line).isEmpty) (h : letters line <:+: T) :
    AllErr (Points M env T) (postingWhy M line dec accounts) := by
  unfold postingWhy
  simp only
  rw [hn.same]
  cases hs : splitWs (trim line) with
  | nil =>
    exfalso
    apply hb
    rw [splitWs_trim, splitWs_eq_nil, ← trim_eq_nil] at hs
    rw [hs]
    rfl
  | cons a l =>
    have ht : letters (trim line) <:+: T := by rw [letters_trim]; exact h
    exact AllErr.ite (fun _ => points_envPosting dec ht) fun _ =>
      points_classic dec accounts (hn.infix (trim_infix _)) ht

theorem points_status {s : Str} (h : letters s <:+: T) :
    AllErr (Points M env T) (statusWhy s) := by
  unfold statusWhy
  cases Status.parse s with
  | ok _ => exact AllErr.none
  | error _ => exact points_tick s%"silverfox requires statuses on entries and " (tick_here _ _ _) h

theorem points_description (s : Str) {h : Str} (hh : letters h <:+: T) :
    AllErr (Points M env T) (descriptionWhy s h) := by
  unfold descriptionWhy
  cases find s%"[" s with
  | none => exact AllErr.none
  | some i =>
    simp only
    cases rfind s%"]" s with
    | none => exact points_parseAt hh
    | some _ => exact AllErr.none

theorem points_header {l : Str} (fmt : Str) (hn : NoComment l) (hb : splitWs l ≠ [])
    (h : letters l <:+: T) : AllErr (Points M env T) (headerWhy env l fmt) := by
  unfold headerWhy
  rw [hn.same]
  cases hs : splitWs l with
  | nil => exact (hb hs).elim
  | cons t ts =>
    simp only
    cases env.parseDate t fmt with
    | none => exact points_parseAt h
    | some d =>
      cases ts with
      | nil => exact AllErr.none
      | cons u us =>
        exact AllErr.then (points_status ((letters_word (s := l) (by simp [hs])).trans h))
          fun _ _ => points_description _ h

theorem points_postings (dec : Char) (accounts : List Str) (ls : List Str)
    (h : ∀ l ∈ ls, NoComment l ∧ letters l <:+: T) :
    AllErr (Points M env T) (postingsWhy M dec accounts ls) := by
  induction ls with
  | nil => exact AllErr.none
  | cons l ls ih =>
    have hl := h l (by simp)
    have ih := ih fun x hx => h x (List.mem_cons_of_mem _ hx)
    exact AllErr.ite (fun _ => ih) fun hb => AllErr.then (points_posting _ _ hl.1 hb hl.2) fun _ _ => ih

theorem points_validate (e : Entry M) {c : Str} (h : letters c <:+: T) :
    AllErr (Points M env T) (validateWhy M e c) :=
  AllErr.then (AllErr.some ⟨c, h, .inl rfl⟩) fun _ _ =>
    AllErr.ite (fun _ => AllErr.some ⟨c, h, .inl rfl⟩) fun _ => AllErr.none

/-- The first line of a trimmed text is not blank. -/
theorem firstLine_ink {s l : Str} {ls : List Str} (h : lines (trim s) = l :: ls)
    (hs : splitWs s ≠ []) : splitWs l ≠ [] := by
  have hne : trim s ≠ [] := fun e => hs (splitWs_eq_nil.2 (trim_eq_nil.1 e))
  have hi : startsInk (trim s) = true := by
    cases ht : trim s with
    | nil => exact (hne ht).elim
    | cons c r =>
      have h2 := trimStart_trim s
      rw [ht] at h2
      show (!isWs c) = true
      cases hc : isWs c with
      | false => rfl
      | true =>
        exfalso
        have : trimStart (c :: r) = trimStart r := by simp [trimStart, hc]
        rw [this] at h2
        have h3 : (trimStart r).length ≤ r.length := (List.dropWhile_suffix _).length_le
        rw [h2] at h3
        simp at h3
  cases ht : trim s with
  | nil => exact (hne ht).elim
  | cons c r =>
    rw [ht] at hi h
    have hc : isWs c = false := by simpa [startsInk] using hi
    have h1 : c ≠ '\n' := fun e => by rw [e] at hc; exact absurd hc (by decide)
    have h2 : c ≠ '\r' := fun e => by rw [e] at hc; exact absurd hc (by decide)
    rw [lines_cons_of h1 (fun h => h2 h.1)] at h
    have : ∃ l', l = c :: l' := by
      cases hr : lines r with
      | nil => rw [hr] at h; cases h; exact ⟨_, rfl⟩
      | cons u us => rw [hr] at h; cases h; exact ⟨_, rfl⟩
    obtain ⟨l', rfl⟩ := this
    intro hn
    have := splitWs_eq_nil.1 hn c (by simp)
    rw [hc] at this
    cases this

theorem points_entry {chunk : Str} (fmt : Str) (dec : Char) (accounts : List Str)
    (hn : NoComment chunk) (hb : splitWs chunk ≠ []) (h : letters chunk <:+: T) :
    AllErr (Points M env T) (entryWhy M env chunk fmt dec accounts) := by
  unfold entryWhy
  refine AllErr.ite (fun he => ?_) fun _ => ?_
  · exfalso
    apply hb
    have : trim chunk = [] := List.isEmpty_iff.1 he
    exact splitWs_eq_nil.2 (trim_eq_nil.1 this)
  · have hl : ∀ l ∈ lines (trim chunk), NoComment l ∧ letters l <:+: T := fun l hl => by
      have hi := (lines_infix hl).trans (trim_infix chunk)
      exact ⟨hn.infix hi, (letters_infix hi).trans h⟩
    cases hs : lines (trim chunk) with
    | nil => exact points_parseAt h
    | cons l ls =>
      rw [hs] at hl
      exact AllErr.then (points_header _ (hl l (by simp)).1 (firstLine_ink hs hb) (hl l (by simp)).2)
        fun _ _ => AllErr.then (points_postings _ _ _ fun x hx => hl x (List.mem_cons_of_mem _ hx))
          fun _ _ => points_validate _ h

theorem points_kind {s : Str} (h : letters s <:+: T) : AllErr (Points M env T) (kindWhy s) := by
  unfold kindWhy
  cases EnvelopeKind.parse s with
  | ok _ => exact AllErr.none
  | error _ => exact points_parseAt h

theorem points_funding {s : Str} (h : letters s <:+: T) : AllErr (Points M env T) (fundingWhy s) := by
  unfold fundingWhy
  cases Funding.parse s with
  | ok _ => exact AllErr.none
  | error _ => exact points_parseAt h

theorem points_frequency {s : Str} (fmt : Str) (st : Option Date) (h : letters s <:+: T) :
    AllErr (Points M env T) (frequencyWhy env s fmt st) := by
  unfold frequencyWhy
  cases stripPrefix s%"every other " s with
  | some what =>
    cases st with
    | none => exact points_parseAt h
    | some d =>
      exact AllErr.ite (fun _ => AllErr.none) fun _ =>
        AllErr.ite (fun _ => AllErr.none) fun _ => points_parseAt h
  | none =>
    simp only
    cases stripPrefix s%"every " s with
    | some what =>
      simp only
      cases Weekday.parse what with
      | some _ => exact AllErr.none
      | none =>
        simp only
        cases Frequency.parseDayOfMonth what with
        | some _ => exact AllErr.none
        | none =>
          refine AllErr.ite (fun _ => ?_) fun _ => points_parseAt h
          cases st with
          | some _ => exact AllErr.none
          | none => exact points_parseAt h
    | none =>
      simp only
      cases env.parseDate s fmt with
      | some _ => exact AllErr.none
      | none =>
        refine points_tick s%"couldn't parse " (b := s%" with format " ++ ticked fmt) ?_ h
        simp [ticked]

theorem points_starting {s : Str} (fmt : Str) (h : letters s <:+: T) :
    AllErr (Points M env T) (startingWhy env s fmt) := by
  unfold startingWhy
  cases find s%" starting " s with
  | none => exact AllErr.none
  | some i =>
    simp only
    cases env.parseDate (s.drop (i + 10)) fmt with
    | some _ => exact AllErr.none
    | none => exact points_parseAt h

theorem points_extractFrequency {l : Str} (fmt : Str) (st : Option Date) (hn : NoComment l)
    (h : letters l <:+: T) : AllErr (Points M env T) (extractFrequencyWhy env l fmt st) := by
  unfold extractFrequencyWhy
  rw [hn.same]
  refine AllErr.ite (fun _ => AllErr.none) fun _ => ?_
  have hd : ∀ i, letters (l.drop i) <:+: T :=
    fun i => (letters_infix (List.drop_suffix _ _).isInfix).trans h
  cases rfind s%" by " l with
  | some i => exact points_frequency _ _ (hd _)
  | none =>
    simp only
    cases rfind s%" due " l with
    | some i => exact points_frequency _ _ (hd _)
    | none => exact points_parseAt h

theorem points_envelopeHeader {l : Str} (fmt : Str) (hn : NoComment l) (h : letters l <:+: T) :
    AllErr (Points M env T) (envelopeHeaderWhy env l fmt) := by
  unfold envelopeHeaderWhy
  rw [hn.same]
  rcases hs : splitWs l with _ | ⟨t, _ | ⟨u, us⟩⟩
  · exact points_parseAt h
  · exact points_parseAt h
  · refine AllErr.then (points_kind ((letters_word (s := l) (by simp [hs])).trans h)) fun _ _ =>
      AllErr.then (points_starting _ h) fun st _ => ?_
    rcases st with _ | ⟨d, i⟩
    · exact points_extractFrequency _ _ hn h
    · have hi : l.take i <:+: l := (List.take_prefix _ _).isInfix
      exact points_extractFrequency _ _ (hn.infix hi) ((letters_infix hi).trans h)

theorem points_addAccount {s : Str} (h : letters s <:+: T) :
    AllErr (Points M env T) (addAccountWhy s) := by
  unfold addAccountWhy
  rcases splitWs s with _ | ⟨t, _ | ⟨u, l⟩⟩
  · exact points_parseAt h
  · exact AllErr.none
  · exact points_parseAt h

theorem points_bodyLine (name acc : Str) (dec : Char) {line : Str} (hn : NoComment line)
    (h : letters line <:+: T) : AllErr (Points M env T) (bodyLineWhy M name acc dec line) := by
  unfold bodyLineWhy
  simp only
  rw [hn.same]
  have ht : letters (trim line) <:+: T := by rw [letters_trim]; exact h
  cases hs : splitWs (trim line) with
  | nil => exact AllErr.none
  | cons key more =>
    have hk : letters key <:+: T := (letters_word (s := trim line) (by simp [hs])).trans ht
    simp only
    cases find s%" " (trim line) with
    | none =>
      refine points_tick s%"the property " (w := key) (b := s%" to an envelope (" ++ ticked name ++
        s%" in " ++ acc ++ s%") is blank") ?_ hk
      simp [ticked]
    | some i =>
      have hv : letters ((trim line).drop i) <:+: T :=
        (letters_infix (List.drop_suffix _ _).isInfix).trans ht
      refine AllErr.ite (fun _ => AllErr.none) fun _ => ?_
      refine AllErr.ite (fun _ => points_addAccount hv) fun _ => ?_
      refine AllErr.ite (fun _ => points_amount _ hv) fun _ => ?_
      exact AllErr.ite (fun _ => points_funding hv) fun _ => points_tick s%"the " (tick_here _ _ _) hk

theorem points_body (acc : Str) (dec : Char) (ls : List Str) (e : Envelope M)
    (h : ∀ l ∈ ls, NoComment l ∧ letters l <:+: T) : AllErr (Points M env T) (bodyWhy acc dec ls e) := by
  induction ls generalizing e with
  | nil => exact AllErr.none
  | cons l ls ih =>
    have hl := h l (by simp)
    exact AllErr.then (points_bodyLine _ _ _ hl.1 hl.2) fun _ _ =>
      ih _ fun x hx => h x (List.mem_cons_of_mem _ hx)

theorem bodyLines_part {chunk l : Str} {ls : List Str} (hn : NoComment chunk) (h : letters chunk <:+: T)
    (hs : lines (trim chunk) = l :: ls) :
    ∀ x ∈ lines (joinWith ['\n'] ls), NoComment x ∧ letters x <:+: T := by
  intro x hx
  have hi := lines_infix hx
  have hl : ∀ y ∈ ls, NoComment y := fun y hy =>
    hn.infix ((lines_infix (by rw [hs]; exact List.mem_cons_of_mem _ hy)).trans (trim_infix chunk))
  refine ⟨(NoComment.join hl).infix hi, (letters_infix hi).trans ?_⟩
  rw [letters_join _ nl_ws]
  refine List.IsInfix.trans ?_ h
  rw [← letters_trim chunk, ← letters_lines (trim chunk), hs]
  exact letters_infix (flatten_infix (List.suffix_cons l ls).isInfix)

theorem points_envelope {chunk : Str} (acc : Str) (dec : Char) (fmt : Str) (hn : NoComment chunk)
    (h : letters chunk <:+: T) : AllErr (Points M env T) (envelopeWhy M env chunk acc dec fmt) := by
  unfold envelopeWhy
  cases hs : lines (trim chunk) with
  | nil => exact points_parseAt (by rw [letters_trim]; exact h)
  | cons l ls =>
    have hi : l <:+: chunk := (lines_infix (by rw [hs]; simp)).trans (trim_infix chunk)
    exact AllErr.then (points_envelopeHeader _ (hn.infix hi) ((letters_infix hi).trans h)) fun _ _ =>
      points_body _ _ _ _ (bodyLines_part hn h hs)

theorem points_accountHeader {l : Str} (hn : NoComment l) (h : letters l <:+: T) :
    AllErr (Points M env T) (accountHeaderWhy l) := by
  unfold accountHeaderWhy
  rw [hn.same]
  rcases splitWs l with _ | ⟨t, _ | ⟨u, _ | ⟨v, l⟩⟩⟩
  · exact points_parseAt h
  · exact points_parseAt h
  · exact AllErr.none
  · exact points_parseAt h

theorem addBodyLine_name {e e' : Envelope M} {dec : Char} {l : Str} (h : e.addBodyLine dec l = .ok e') :
    e'.name = e.name := by
  unfold Envelope.addBodyLine at h
  simp only at h
  split at h
  · cases h
  · split at h
    · cases h
    · split at h
      · cases h; rfl
      · split at h
        · unfold Envelope.addAccount at h
          split at h
          · cases h; rfl
          · cases h
        · split at h
          · simp only [bind, Except.bind, pure, Except.pure] at h
            split at h
            · cases h
            · cases h; rfl
          · split at h
            · simp only [bind, Except.bind, pure, Except.pure] at h
              split at h
              · cases h
              · cases h; rfl
            · cases h

theorem addBody_name {e e' : Envelope M} {dec : Char} {ls : List Str}
    (h : Envelope.addBody dec ls e = .ok e') : e'.name = e.name := by
  induction ls generalizing e with
  | nil => cases h; rfl
  | cons l ls ih =>
    simp only [Envelope.addBody, bind, Except.bind] at h
    split at h
    · cases h
    · rename_i e1 h1
      rw [ih h, addBodyLine_name h1]

theorem envelopeName_part {chunk acc fmt : Str} {dec : Char} {e : Envelope M} (hn : NoComment chunk)
    (h : letters chunk <:+: T) (he : Envelope.parse env chunk acc dec fmt = .ok e) :
    letters e.name <:+: T := by
  unfold Envelope.parse at he
  cases hs : lines (trim chunk) with
  | nil => rw [hs] at he; cases he
  | cons l ls =>
    rw [hs] at he
    simp only [bind, Except.bind] at he
    have hi : l <:+: chunk := (lines_infix (by rw [hs]; simp)).trans (trim_infix chunk)
    split at he
    · cases he
    · rename_i e1 h1
      rw [addBody_name he]
      unfold Envelope.fromHeader at h1
      rw [(hn.infix hi).same] at h1
      rcases hw : splitWs l with _ | ⟨t, _ | ⟨u, us⟩⟩
      · rw [hw] at h1; cases h1
      · rw [hw] at h1; cases h1
      · rw [hw] at h1
        simp only [bind, Except.bind, pure, Except.pure] at h1
        split at h1
        · cases h1
        · split at h1
          · cases h1
          · split at h1
            · cases h1
            · cases h1
              exact (letters_word (s := l) (by simp [hw])).trans ((letters_infix hi).trans h)

theorem points_flush (a : Account M) {chunk : Str} (dec : Char) (fmt : Str) (hn : NoComment chunk)
    (h : letters chunk <:+: T) : AllErr (Points M env T) (flushWhy env a chunk dec fmt) := by
  refine AllErr.ite (fun _ => AllErr.none) fun _ =>
    AllErr.then (points_envelope _ _ _ hn h) fun e he => ?_
  unfold addEnvelopeWhy
  cases a.addEnvelope e with
  | ok _ => exact AllErr.none
  | error _ =>
    refine points_valid s%"there's a duplicate envelope definition for " (w := e.name)
      (b := s%" in the account " ++ ticked a.name) ?_ (envelopeName_part hn h he)
    simp [ticked]

theorem points_accountLines (dec : Char) (fmt : Str) (ls : List Str) (a : Account M) (chunk : Str)
    (hn : NoComment chunk) (hl : ∀ l ∈ ls, NoComment l) (h : letters (chunk ++ ls.flatten) <:+: T) :
    AllErr (Points M env T) (accountLinesWhy env dec fmt ls a chunk) := by
  induction ls generalizing a chunk with
  | nil => exact points_flush _ _ _ hn (by simpa using h)
  | cons l ls ih =>
    have hls : ∀ x ∈ ls, NoComment x := fun x hx => hl x (List.mem_cons_of_mem _ hx)
    have hc : letters chunk <:+: T := (letters_infix (List.prefix_append _ _).isInfix).trans h
    have hr : letters (l ++ ls.flatten) <:+: T :=
      (letters_infix (List.suffix_append chunk _).isInfix).trans h
    refine AllErr.ite (fun _ => AllErr.then (points_flush _ _ _ hn hc) fun _ _ =>
      ih _ _ (hl l (by simp)) hls hr) fun _ => ih _ _ (hn.nl (hl l (by simp))) hls ?_
    have : letters ((chunk ++ '\n' :: l) ++ ls.flatten) = letters (chunk ++ (l :: ls).flatten) := by
      simp only [letters_append, letters_nl, List.flatten_cons, List.append_assoc]
    rw [this]
    exact h

theorem points_account {chunk : Str} (dec : Char) (fmt : Str) (hn : NoComment chunk)
    (h : letters chunk <:+: T) : AllErr (Points M env T) (accountWhy M env chunk dec fmt) := by
  unfold accountWhy
  cases hs : lines chunk with
  | nil => exact points_parseAt h
  | cons l ls =>
    have hl : ∀ x ∈ l :: ls, x <:+: chunk := fun x hx => lines_infix (by rw [hs]; exact hx)
    refine AllErr.then (points_accountHeader (hn.infix (hl l (by simp)))
      ((letters_infix (hl l (by simp))).trans h)) fun _ _ =>
      points_accountLines _ _ _ _ _ NoComment.nil
        (fun x hx => hn.infix (hl x (List.mem_cons_of_mem _ hx))) ?_
    refine List.IsInfix.trans ?_ h
    rw [← letters_lines chunk, hs]
    exact letters_infix (List.suffix_append l _).isInfix

/-! ### Entries -/

/-- A processing error about the entry `e`. -/
def About (e : Entry M) : Err → Prop
  | .processing i => i.context = some e.fullString
  | _ => False

theorem about_processing (e : Entry M) (m : Str) : AllErr (About e) (processingAt e m) := AllErr.some rfl

theorem about_blank (e : Entry M) : AllErr (About e) (blankWhy e) :=
  AllErr.ite (fun _ => AllErr.none) fun _ => AllErr.ite
    (fun _ => AllErr.then (about_processing _ _) fun _ _ => AllErr.none) fun _ => AllErr.none

theorem about_convert (v : Envelope M) (e : Entry M) (p : Posting M) (a : Amount M) :
    AllErr (About e) (convertWhy v e p a) := by
  unfold convertWhy
  refine AllErr.ite (fun _ => AllErr.none) fun _ => ?_
  refine AllErr.ite (fun _ => about_processing _ _) fun _ => ?_
  cases p.nativeValue with
  | some _ => exact AllErr.none
  | none => exact about_processing _ _

theorem about_inferLoop (v : Envelope M) (e : Entry M) (ps : List (Posting M)) (self auto : Amount M) :
    AllErr (About e) (inferLoopWhy v e ps self auto) := by
  induction ps generalizing self auto with
  | nil => exact AllErr.none
  | cons p ps ih =>
    refine AllErr.then ?_ fun _ _ => ?_
    · unfold inferAmountWhy
      cases p.amount with
      | some a => exact about_convert _ _ _ _
      | none =>
        exact AllErr.then (about_blank _) fun _ _ => AllErr.then AllErr.none fun _ _ =>
          about_convert _ _ _ _
    refine AllErr.ite (fun _ => AllErr.then AllErr.none fun _ _ => ih _ _) fun _ => ?_
    exact AllErr.ite (fun _ => AllErr.then AllErr.none fun _ _ => ih _ _) fun _ => ih _ _

theorem about_envelopesEntry (t : Date) (e : Entry M) (es : List (Envelope M)) :
    AllErr (About e) (envelopesEntryWhy t e es) := by
  induction es with
  | nil => exact AllErr.none
  | cons v es ih =>
    refine AllErr.then ?_ fun _ _ => ih
    exact AllErr.ite (fun _ => AllErr.none) fun _ =>
      AllErr.ite (fun _ => AllErr.none) fun _ => about_inferLoop _ _ _ _ _

theorem about_real (name : Str) (e : Entry M) (ps : List (Posting M)) :
    AllErr (About e) (realWhy name e ps) := by
  induction ps with
  | nil => exact AllErr.none
  | cons p ps ih =>
    exact AllErr.ite (fun _ => AllErr.then (about_blank _) fun _ _ => ih) fun _ => ih

theorem about_processAll (t : Date) (e : Entry M) (as : List (Str × Account M)) :
    AllErr (About e) (processAllWhy t e as) := by
  induction as with
  | nil => exact AllErr.none
  | cons ka as ih =>
    obtain ⟨k, a⟩ := ka
    refine AllErr.then ?_ fun _ _ => ih
    exact AllErr.then (about_envelopesEntry _ _ _) fun _ _ =>
      AllErr.then (about_envelopesEntry _ _ _) fun _ _ => about_real _ _ _

theorem about_addEntry (l : Ledger M) (e : Entry M) : AllErr (About e) (addEntryWhy env l e) :=
  AllErr.then (about_processAll _ _ _) fun _ _ => about_processAll _ _ _

theorem points_parseEntry (l : Ledger M) {chunk : Str} (hn : NoComment chunk)
    (hb : splitWs chunk ≠ []) (h : letters chunk <:+: T) :
    AllErr (Points M env T) (parseEntryWhy env l chunk) := by
  refine AllErr.then (points_entry _ _ _ hn hb h) fun e he x hx => ?_
  have ha := about_addEntry l e x hx
  cases x with
  | processing i => exact ⟨chunk, _, _, _, e, h, he, ha⟩
  | basic _ => exact ha.elim
  | parse _ => exact ha.elim
  | validation _ => exact ha.elim
  | file _ => exact ha.elim

/-! ### Files -/

/-- `linesWhy` on effective lines (see `addEff`). -/
def effWhy (env : Env) (incR : Ledger M × World → Str → Res (Ledger M × World))
    (inc : Ledger M × World → Str → Option Err) :
    List Str → Ledger M × World → Str → Option Err
  | [], st, chunk => chunkWhy env inc st chunk
  | l :: ls, st, chunk =>
    if l.head?.any isWs then effWhy env incR inc ls st (chunk ++ '\n' :: l)
    else whyThen (Ledger.parseChunk env incR st chunk) (chunkWhy env inc st chunk) fun st =>
      effWhy env incR inc ls st l

theorem linesWhy_eff (incR : Ledger M × World → Str → Res (Ledger M × World))
    (inc : Ledger M × World → Str → Option Err) (ls : List Str) (st : Ledger M × World) (c : Str) :
    linesWhy env incR inc ls st c = effWhy env incR inc (eff ls) st c := by
  induction ls generalizing st c with
  | nil => rfl
  | cons l ls ih =>
    simp only [linesWhy]
    cases he : removeComments (trimEnd l) with
    | nil =>
      have : eff (l :: ls) = eff ls := by simp [eff, he]
      rw [this]; exact ih st c
    | cons d r =>
      have : eff (l :: ls) = (d :: r) :: eff ls := by simp [eff, he]
      rw [this, effWhy]
      simp only [List.head?_cons, Option.any_some, ih]
      rfl

/-- After lines that load, at a line that is not indented. -/
theorem effWhy_append (incR : Ledger M × World → Str → Res (Ledger M × World))
    (inc : Ledger M × World → Str → Option Err) (xs : List Str) (y : Str) (ys : List Str)
    (hy : y.head?.any isWs = false) (st st' : Ledger M × World) (c : Str)
    (h : addEff env incR xs st c = .ok st') :
    effWhy env incR inc (xs ++ y :: ys) st c = effWhy env incR inc (y :: ys) st' [] := by
  induction xs generalizing st c with
  | nil =>
    have h : Ledger.parseChunk env incR st c = .ok st' := h
    rw [List.nil_append, effWhy, effWhy, hy, h]
    rfl
  | cons x xs ih =>
    rw [List.cons_append, effWhy]
    rw [addEff] at h
    split
    · rename_i hx
      rw [if_pos hx] at h
      exact ih _ _ h
    · rename_i hx
      rw [if_neg hx] at h
      simp only [bind, Except.bind] at h
      cases h1 : Ledger.parseChunk env incR st c with
      | error f => rw [h1] at h; cases h
      | ok st1 => rw [h1] at h; exact ih _ _ h

theorem letters_effective (l : Str) :
    letters (removeComments (trimEnd l)) = letters (removeComments l) := by
  rw [← letters_words, effective_tokens, letters_words]

theorem letters_eff (ls : List Str) :
    letters (eff ls).flatten = (ls.map fun l => letters (removeComments l)).flatten := by
  induction ls with
  | nil => rfl
  | cons l ls ih =>
    rw [List.map_cons, List.flatten_cons, ← ih, ← letters_effective]
    cases he : removeComments (trimEnd l) with
    | nil =>
      have : eff (l :: ls) = eff ls := by simp [eff, he]
      rw [this]
      rfl
    | cons d r =>
      have : eff (l :: ls) = (d :: r) :: eff ls := by simp [eff, he]
      rw [this, List.flatten_cons, letters_append]

theorem letters_content (t : Str) : letters (eff (lines t)).flatten = content t := letters_eff _

theorem eff_noComment (ls : List Str) : ∀ x ∈ eff ls, NoComment x := by
  intro x hx
  simp only [eff, List.mem_filter, List.mem_map] at hx
  obtain ⟨⟨l, _, rfl⟩, _⟩ := hx
  exact noComment_rc _

/-- The first word of one of the lines. -/
def Opens (xs : List Str) (kw : Str) : Prop := ∃ x ∈ xs, (splitWs x).head? = some kw

theorem points_chunk {file : APath → Option Str} {Q : Err → Prop} {all : List Str}
    (hQ : ∀ e, Points M env T e → Q e) {inc : Ledger M × World → Str → Option Err}
    (hi : Opens all s%"include" → ∀ st v, st.2.file = file → AllErr (fun e => e = .file v ∨ Q e) (inc st v))
    (st : Ledger M × World) (hst : st.2.file = file) {chunk : Str} (hn : NoComment chunk)
    (ho : ∀ kw, (splitWs chunk).head? = some kw → Opens all kw)
    (h : letters chunk <:+: T) : AllErr Q (chunkWhy env inc st chunk) := by
  have up : ∀ {w}, AllErr (Points M env T) w → AllErr Q w := fun hw e he => hQ e (hw e he)
  have hk : ∀ {kw : Str} {m : Str}, kw ∈ [s%"currency", s%"date_format", s%"include"] → kw <:+: m →
      kw ∈ splitWs chunk → letters kw = kw → AllErr Q (parseErr m) :=
    fun h1 h2 h3 h4 => up (AllErr.some ⟨_, rfl, .inr ⟨_, h1, h2, by
      rw [← h4]; exact (letters_word h3).trans h⟩⟩)
  unfold chunkWhy
  refine AllErr.ite (fun _ => AllErr.none) fun _ => ?_
  cases hs : splitWs chunk with
  | nil => exact AllErr.none
  | cons kw rest =>
    have hb : splitWs chunk ≠ [] := by rw [hs]; simp
    refine AllErr.ite (fun _ => up (points_account _ _ hn h)) fun _ => ?_
    refine AllErr.ite (fun e => ?_) fun _ => AllErr.ite (fun e => ?_) fun _ =>
      AllErr.ite (fun e => ?_) fun _ => up (points_parseEntry _ hn hb h)
    · cases rest with
      | nil => exact hk (kw := s%"currency") (by simp) (by decide) (by simp [hs, e]) (by decide)
      | cons v l => exact AllErr.none
    · cases rest with
      | nil => exact hk (kw := s%"date_format") (by simp) (by decide) (by simp [hs, e]) (by decide)
      | cons v l => exact AllErr.none
    · cases rest with
      | nil => exact hk (kw := s%"include") (by simp) (by decide) (by simp [hs, e]) (by decide)
      | cons v l =>
        intro x hx
        rcases hi (ho _ (by rw [hs, e]; rfl)) st v hst x hx with rfl | h'
        · refine hQ _ ?_
          have := (letters_someWords (ts := [s%"include", v]) (s := chunk)
            (by rw [hs, e]; exact ⟨[], l, by simp⟩)).trans h
          simpa [Points] using this
        · exact h'

theorem points_lines {file : APath → Option Str} {Q : Err → Prop} {all : List Str}
    (hQ : ∀ e, Points M env T e → Q e)
    {incR : Ledger M × World → Str → Res (Ledger M × World)}
    {inc : Ledger M × World → Str → Option Err}
    (hr : ∀ st p st', incR st p = .ok st' → LoadOk env st st')
    (hi : Opens all s%"include" → ∀ st v, st.2.file = file → AllErr (fun e => e = .file v ∨ Q e) (inc st v))
    (ls : List Str) (st : Ledger M × World) (hst : st.2.file = file) (chunk : Str)
    (hn : NoComment chunk) (ho : ∀ kw, (splitWs chunk).head? = some kw → Opens all kw)
    (hls : ∀ l ∈ ls, NoComment l ∧ l ∈ all)
    (h : letters (chunk ++ ls.flatten) <:+: T) : AllErr Q (effWhy env incR inc ls st chunk) := by
  induction ls generalizing st chunk with
  | nil => exact points_chunk hQ hi _ hst hn ho (by simpa using h)
  | cons l ls ih =>
    have hl := hls l (by simp)
    have hls : ∀ x ∈ ls, NoComment x ∧ x ∈ all := fun x hx => hls x (List.mem_cons_of_mem _ hx)
    have hol : ∀ kw, (splitWs l).head? = some kw → Opens all kw := fun kw hk => ⟨l, hl.2, hk⟩
    unfold effWhy
    refine AllErr.ite (fun _ => ih _ hst _ (hn.nl hl.1) ?_ hls ?_) fun _ =>
      AllErr.then (points_chunk hQ hi _ hst hn ho ?_) fun st' h' => ih _ ?_ _ hl.1 hol hls ?_
    · intro kw hk
      rw [splitWs_append_ws _ isWs_nl] at hk
      cases hc : splitWs chunk with
      | nil => rw [hc] at hk; exact hol kw hk
      | cons a as => rw [hc] at hk; exact ho kw (by rw [hc]; exact hk)
    · have : letters ((chunk ++ '\n' :: l) ++ ls.flatten) = letters (chunk ++ (l :: ls).flatten) := by
        simp only [letters_append, letters_nl, List.flatten_cons, List.append_assoc]
      rw [this]
      exact h
    · exact (letters_infix (List.prefix_append _ _).isInfix).trans h
    · rw [(parseChunk_sound env incR hr _ _ _ h').2.1]
      exact hst
    · exact (letters_infix (List.suffix_append chunk _).isInfix).trans h

/-- The error is about something in a file of the world. -/
def PointsSomewhere (M : Type) [Mag M] (env : Env) (file : APath → Option Str) (e : Err) : Prop :=
  ∃ P t, file P = some t ∧ Points M env (content t) e

theorem points_file (file : APath → Option Str) (n : Nat) (st : Ledger M × World) (path : Str)
    (hst : st.2.file = file) :
    AllErr (fun e => (e = .file path ∧ st.2.read path = none) ∨ PointsSomewhere M env file e)
      (fileWhy env n st path) := by
  induction n generalizing st path with
  | zero => exact AllErr.none
  | succ n ih =>
    unfold fileWhy
    cases hr : st.2.read path with
    | none => exact AllErr.some (.inl ⟨rfl, rfl⟩)
    | some s =>
      have hf : file (resolve st.2.cwd path) = some s := by
        unfold World.read at hr
        split at hr
        · rw [← hst]; exact hr
        · cases hr
      intro e he
      simp only at he
      rw [linesWhy_eff] at he
      refine .inr (points_lines (T := content s) (fun e h => ⟨_, s, hf, h⟩)
        (fun st p st' h => addFromFile_sound env n st st' p h)
        (fun _ st v h x hx => (ih st v h x hx).imp And.left id) _ _ ?_ _ NoComment.nil ?_
        (fun l hl => ⟨eff_noComment _ l hl, hl⟩) ?_ e he)
      · exact hst
      · intro kw hk
        cases hk
      · rw [List.nil_append, letters_content]
        exact List.infix_rfl

end

/-- C112. What an error of loading a journal quotes stands in the journal: the file named by a file error
is the one to be loaded, or is named in an `include`; the context of an error, or a word in backticks, stands in
one of the files, up to whitespace and comments; and the entry of a processing error is read from one. -/
theorem C112_quotes_partial (M : Type) [Mag M] (env : Env) (fuel : Nat) (w : World) (path : Str) (e : Err)
    (h : fromFileWhy M env fuel w path = some e) :
    (e = .file path ∧ w.read path = none) ∨
      ∃ P t, w.file P = some t ∧ Points M env (content t) e :=
  points_file w.file fuel ((Ledger.new path : Ledger M), w) path rfl e h

/-- Specification: the first line of `u` that is neither blank nor a comment is not indented. -/
def StartsUnindented (u : Str) : Prop :=
  ∀ x xs, eff (lines u) = x :: xs → x.head?.any isWs = false

/-- Specification: a line of `u` starts with the word `include`. -/
def HasInclude (u : Str) : Prop :=
  ∃ l ∈ lines u, (splitWs (removeComments l)).head? = some s%"include"

theorem opens_include {u : Str} (h : Opens (eff (lines u)) s%"include") : HasInclude u := by
  obtain ⟨x, hx, hw⟩ := h
  simp only [eff, List.mem_filter, List.mem_map] at hx
  obtain ⟨⟨l, hl, rfl⟩, _⟩ := hx
  rw [effective_tokens] at hw
  exact ⟨l, hl, hw⟩

/-- C113. If a journal loads, and fails to load after a text was added at its end, then the error is about
the added text, or about a file that the added text includes (or one included from there). -/
theorem C113_blame (M : Type) [Mag M] (env : Env) (fuel : Nat) (w w1 : World) (path t u : Str)
    (l : Ledger M) (hs : w.file (resolve w.cwd path) = some t)
    (hok : Ledger.fromFile env fuel w path = .ok (l, w1)) (hu : StartsUnindented u) (e : Err)
    (he : fromFileWhy M env fuel (w.write (resolve w.cwd path) (t ++ '\n' :: u)) path = some e) :
    Points M env (content u) e ∨ (HasInclude u ∧
      ∃ P s, (w.write (resolve w.cwd path) (t ++ '\n' :: u)).file P = some s ∧
        Points M env (content s) e) := by
  cases fuel with
  | zero => cases hok
  | succ f =>
    have hend : endsInName path = true := by
      unfold Ledger.fromFile Ledger.addFromFile World.read at hok
      cases hn : endsInName path with
      | true => rfl
      | false => rw [hn] at hok; cases hok
    generalize hw' : w.write (resolve w.cwd path) (t ++ '\n' :: u) = w' at he ⊢
    have hcwd : w'.cwd = w.cwd := by rw [← hw']; rfl
    have hself : w'.file (resolve w.cwd path) = some (t ++ '\n' :: u) := by
      rw [← hw']; show (if _ then _ else _) = _; rw [if_pos rfl]
    have hother : ∀ p, p ≠ resolve w.cwd path → w'.file p = w.file p := by
      intro p hp
      rw [← hw']
      show (if p = _ then _ else w.file p) = _
      rw [if_neg hp]
    have hread : w.read path = some t := by unfold World.read; rw [if_pos hend]; exact hs
    have hread' : w'.read path = some (t ++ '\n' :: u) := by
      unfold World.read; rw [if_pos hend, hcwd]; exact hself
    have hworld : w'.cdParent path = (w.cdParent path).withFiles w'.file := by
      rw [← hw']; rfl
    have hold : Ledger.addLinesFrom env (Ledger.addFromFile env f) (lines t)
        ((Ledger.new path : Ledger M), w.cdParent path) [] = .ok (l, w1) := by
      simpa only [Ledger.fromFile, Ledger.addFromFile, hread] using hok
    have hagain := fromFile_lines_again env f w path t l w1 hs hold w'.file hother
    rw [← hworld, addLinesFrom_eff] at hagain
    have he : effWhy env (Ledger.addFromFile env f) (fileWhy env f) (eff (lines t) ++ eff (lines u))
        ((Ledger.new path : Ledger M), w'.cdParent path) [] = some e := by
      rw [← eff_lines_append, ← linesWhy_eff]
      simpa only [fromFileWhy, fileWhy, hread'] using he
    cases hx : eff (lines u) with
    | nil =>
      exfalso
      rw [hx, List.append_nil, ← linesWhy_eff] at he
      have ht := tells_lines env (fun st v => tells_file env f st v) (lines t)
        ((Ledger.new path : Ledger M), w'.cdParent path) []
      unfold Tells at ht
      rw [he, addLinesFrom_eff, hagain] at ht
      cases ht
    | cons x xs =>
      rw [hx, effWhy_append _ _ _ _ _ (hu x xs hx) _ _ _ hagain, ← hx] at he
      refine points_lines (T := content u) (file := w'.file) (all := eff (lines u))
        (Q := fun e => Points M env (content u) e ∨ (HasInclude u ∧
          ∃ P s, w'.file P = some s ∧ Points M env (content s) e))
        (fun e h => .inl h) (fun st p st' h => addFromFile_sound env f st st' p h)
        (fun ho st v h x hx => (points_file w'.file f st v h x hx).imp And.left
          fun h => .inr ⟨opens_include ho, h⟩)
        _ _ rfl _ NoComment.nil (fun kw hk => by cases hk)
        (fun l hl => ⟨eff_noComment _ l hl, hl⟩) ?_ e he
      rw [List.nil_append, letters_content]
      exact List.infix_rfl

/-- The error of loading the journal `t`. -/
def exWhy (t : String) : Option Err :=
  fromFileWhy Rat (stdEnv june15) 9 (disk [("j", t), ("k", "account c d")]) s%"j"

example : exWhy "account a\ninclude k\n" = some (.parse ⟨some s%"account c d",
    some s%"accounts can't have spaces in them; use underscores instead: _"⟩) := by decide +kernel

example : exWhy "account a\ninclude  l ; more\n" = some (.file s%"l") := by decide +kernel

example : (∃ l w1, Ledger.fromFile (M := Rat) (stdEnv june15) 9 (disk [("j", "account a")]) s%"j" = .ok (l, w1)) ∧
    StartsUnindented s%"; more\n2024/01/02 * x\n  a  3\n  b\n" ∧
    fromFileWhy Rat (stdEnv june15) 9 ((disk [("j", "account a")]).write [s%"h", s%"j"]
      (s%"account a" ++ '\n' :: s%"; more\n2024/01/02 * x\n  a  3\n  b\n")) s%"j" =
        some (.validation ⟨none, some s%"the account `b` is not defined in your journal"⟩) := by
  refine ⟨?_, ?_, by decide +kernel⟩
  · cases h : Ledger.fromFile (M := Rat) (stdEnv june15) 9 (disk [("j", "account a")]) s%"j" with
    | ok x => exact ⟨x.1, x.2, rfl⟩
    | error f =>
      exfalso
      have : (Ledger.fromFile (M := Rat) (stdEnv june15) 9 (disk [("j", "account a")]) s%"j").isOk = true := by
        decide +kernel
      rw [h] at this
      cases this
  · intro x xs h
    have h2 : eff (lines s%"; more\n2024/01/02 * x\n  a  3\n  b\n") =
        [s%"2024/01/02 * x", s%"  a  3", s%"  b"] := by decide +kernel
    rw [h2] at h
    cases h
    decide

/-- C112, as stated: quoted literally. False: a double minus is left out of the amount. -/
theorem C112_minus_left_out : ∃ t c m, exWhy t = some (.parse ⟨some c, some m⟩) ∧ ¬ c <:+: t.toList :=
  ⟨"account a\n2024/01/02 * x\n  a  1.2--.3\n", s%"1.2.3", s%"couldn't parse magnitude of amount",
    by decide +kernel, by decide +kernel⟩

/-- C112. The quotation may be empty, and the error then leads nowhere: a price with no amount. -/
theorem C112_nothing_quoted : ∃ t, exWhy t = some (.parse ⟨some [], some s%"this amount isn't valid"⟩) :=
  ⟨"account a\naccount b\n2024/01/02 * x\n  a  3 @\n  b\n", by decide +kernel⟩

end Silverfox
