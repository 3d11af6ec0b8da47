import Verif.Props.Rules
import Verif.Proofs.Entries
import Verif.Proofs.Check
import Verif.Props.Ledger
import Verif.Props.Entries
import Mathlib.Data.List.Forall2

/-
C91: an account declaration means what it says.
-/

namespace Silverfox

set_option linter.unusedSectionVars false

variable {M : Type} [Mag M]

/-! ### Finding words -/

theorem find_spec : ∀ (p s : Str) (i : Nat), find p s = some i →
    ∃ x y, s = x ++ (p ++ y) ∧ x.length = i ∧ ∀ x' y', s = x' ++ (p ++ y') → i ≤ x'.length
  | p, [], i, h => by
    simp only [find] at h
    split at h
    · rename_i hp
      cases h
      have : p = [] := by simpa using hp
      subst this
      exact ⟨[], [], rfl, rfl, fun _ _ _ => Nat.zero_le _⟩
    · cases h
  | p, c :: cs, i, h => by
    simp only [find] at h
    split at h
    · rename_i hp
      cases h
      obtain ⟨y, hy⟩ := List.isPrefixOf_iff_prefix.1 hp
      exact ⟨[], y, hy.symm, rfl, fun _ _ _ => Nat.zero_le _⟩
    · rename_i hp
      cases hf : find p cs with
      | none => rw [hf] at h; cases h
      | some j =>
        rw [hf] at h
        cases h
        obtain ⟨x, y, h1, h2, h3⟩ := find_spec p cs j hf
        refine ⟨c :: x, y, by rw [h1]; rfl, by simp [h2], ?_⟩
        intro x' y' e
        cases x' with
        | nil => exact absurd (List.isPrefixOf_iff_prefix.2 ⟨y', e.symm⟩) hp
        | cons d x' =>
          have := h3 x' y' (List.cons.inj e).2
          simp only [List.length_cons]
          omega

theorem rfind_spec : ∀ (p s : Str), p ≠ [] →
    (∀ i, rfind p s = some i → ∃ x y, s = x ++ (p ++ y) ∧ x.length = i ∧
      ∀ x' y', s = x' ++ (p ++ y') → x'.length ≤ i) ∧
    (rfind p s = none → ∀ x' y', s ≠ x' ++ (p ++ y'))
  | p, [], hp => by
    have : p.isEmpty = false := by simpa using hp
    simp only [rfind, this, Bool.false_eq_true, if_false]
    refine ⟨(by intro i h; cases h), fun _ x' y' e => ?_⟩
    simp only [List.nil_eq, List.append_eq_nil_iff] at e
    exact hp e.2.1
  | p, c :: cs, hp => by
    obtain ⟨ih1, ih2⟩ := rfind_spec p cs hp
    simp only [rfind]
    cases hf : rfind p cs with
    | some j =>
      refine ⟨?_, by intro h; cases h⟩
      intro i h
      cases h
      obtain ⟨x, y, h1, h2, h3⟩ := ih1 j hf
      refine ⟨c :: x, y, by rw [h1]; rfl, by simp [h2], ?_⟩
      intro x' y' e
      cases x' with
      | nil => simp
      | cons d x' =>
        have := h3 x' y' (List.cons.inj e).2
        simp only [List.length_cons]
        omega
    | none =>
      have hn := ih2 hf
      have tl : ∀ x' y', c :: cs = x' ++ (p ++ y') → x' = [] := by
        intro x' y' e
        cases x' with
        | nil => rfl
        | cons d x' => exact absurd (List.cons.inj e).2 (hn x' y')
      by_cases hpre : p.isPrefixOf (c :: cs) = true
      · simp only [hpre, if_true]
        refine ⟨?_, by intro h; cases h⟩
        intro i h
        cases h
        obtain ⟨y, hy⟩ := List.isPrefixOf_iff_prefix.1 hpre
        exact ⟨[], y, hy.symm, rfl, fun x' y' e => by rw [tl x' y' e]; simp⟩
      · simp only [hpre]
        refine ⟨(by intro i h; cases h), fun _ x' y' e => ?_⟩
        have := tl x' y' e
        subst this
        exact hpre (List.isPrefixOf_iff_prefix.2 ⟨y', e.symm⟩)

/-- A word with a space on either side. -/
def spaced (w : Str) : Str := ' ' :: (w ++ [' '])

theorem splitWs_spaced (x w y : Str) (hw : isWord w) :
    splitWs (x ++ (spaced w ++ y)) = splitWs x ++ w :: splitWs y := by
  have e : x ++ (spaced w ++ y) = x ++ ' ' :: (w ++ ' ' :: y) := by simp [spaced]
  rw [e, splitWs_append_ws _ isWs_space, splitWs_append_ws _ isWs_space, splitWs_word hw]
  rfl

/-- Two occurrences of a word: the text before the later one contains the word. -/
theorem spaced_twice (w x y x0 y0 : Str) (hw : isWord w) (h : x ++ (spaced w ++ y) = x0 ++ (spaced w ++ y0))
    (hl : x.length < x0.length) : w ∈ splitWs x0 ∧ w ∈ splitWs y := by
  rcases List.append_eq_append_iff.1 h with ⟨t, h1, h2⟩ | ⟨t, h1, _⟩
  · have ht : t ≠ [] := by rintro rfl; simp [h1] at hl
    cases t with
    | nil => exact absurd rfl ht
    | cons c t =>
      simp only [spaced, List.cons_append, List.cons.injEq] at h2
      obtain ⟨rfl, h2⟩ := h2
      have h2' : w ++ ' ' :: y = t ++ ' ' :: (w ++ ' ' :: y0) := by simpa using h2
      rcases List.append_eq_append_iff.1 h2' with ⟨u, h3, h4⟩ | ⟨u, h3, h4⟩
      · have hw0 : w ∈ splitWs x0 := by
          rw [h1, splitWs_append_ws _ isWs_space, h3]
          cases u with
          | nil => simp [splitWs_word hw]
          | cons d u =>
            simp only [List.cons_append, List.cons.injEq] at h4
            rw [← h4.1, splitWs_append_ws _ isWs_space, splitWs_word hw]
            simp
        refine ⟨hw0, ?_⟩
        cases u with
        | nil =>
          simp only [List.nil_append, List.cons.injEq] at h4
          rw [h4.2, splitWs_append_ws _ isWs_space, splitWs_word hw]
          simp
        | cons d u =>
          simp only [List.cons_append, List.cons.injEq] at h4
          rw [h4.2, splitWs_append_ws _ isWs_space, splitWs_append_ws _ isWs_space, splitWs_word hw]
          simp
      · cases u with
        | nil =>
          have h3 : w = t := by simpa using h3
          subst h3
          simp only [List.nil_append, List.cons.injEq] at h4
          refine ⟨?_, ?_⟩
          · rw [h1, splitWs_append_ws _ isWs_space, splitWs_word hw]; simp
          · rw [← h4.2, splitWs_append_ws _ isWs_space, splitWs_word hw]; simp
        | cons d u =>
          simp only [List.cons_append, List.cons.injEq] at h4
          have := hw.2 d (by rw [h3]; simp)
          rw [← h4.1] at this
          cases this
  · have := congrArg List.length h1
    simp at this
    omega

theorem find_spaced (w x y : Str) (hw : isWord w) (hx : w ∉ splitWs x) :
    find (spaced w) (x ++ (spaced w ++ y)) = some x.length := by
  cases hf : find (spaced w) (x ++ (spaced w ++ y)) with
  | none =>
    have := (find_isSome (spaced w) (x ++ (spaced w ++ y))).2 ⟨x, y, by simp⟩
    rw [hf] at this
    cases this
  | some i =>
    obtain ⟨x', y', h1, h2, h3⟩ := find_spec _ _ _ hf
    have hle := h3 x y rfl
    by_cases hlt : x'.length < x.length
    · exact absurd (spaced_twice w x' y' x y hw h1.symm hlt).1 hx
    · rw [← h2]; congr 1; omega

theorem rfind_spaced (w x y : Str) (hw : isWord w) (hy : w ∉ splitWs y) :
    rfind (spaced w) (x ++ (spaced w ++ y)) = some x.length := by
  obtain ⟨r1, r2⟩ := rfind_spec (spaced w) (x ++ (spaced w ++ y)) (by simp [spaced])
  cases hf : rfind (spaced w) (x ++ (spaced w ++ y)) with
  | none => exact absurd rfl (r2 hf x y)
  | some i =>
    obtain ⟨x', y', h1, h2, h3⟩ := r1 i hf
    have hle := h3 x y rfl
    by_cases hlt : x.length < x'.length
    · exact absurd (spaced_twice w x y x' y' hw h1 hlt).2 hy
    · rw [← h2]; congr 1; omega

theorem find_spaced_none (w s : Str) (hw : isWord w) (h : w ∉ splitWs s) : find (spaced w) s = none := by
  cases hf : find (spaced w) s with
  | none => rfl
  | some i =>
    obtain ⟨x, y, h1, _⟩ := find_spec _ _ _ hf
    rw [h1, splitWs_spaced x w y hw] at h
    simp at h

theorem rfind_spaced_none (w s : Str) (hw : isWord w) (h : w ∉ splitWs s) : rfind (spaced w) s = none := by
  cases hf : rfind (spaced w) s with
  | none => rfl
  | some i =>
    obtain ⟨x, y, h1, _⟩ := (rfind_spec _ _ (by simp [spaced])).1 i hf
    rw [h1, splitWs_spaced x w y hw] at h
    simp at h

/-- The last word of a text that ends in ink. -/
theorem splitWs_last (x t : Str) (ht : isWord t) : ∃ ts u, splitWs (x ++ t) = ts ++ [u ++ t] := by
  induction x with
  | nil => exact ⟨[], [], by simp [splitWs_word ht]⟩
  | cons c x ih =>
    obtain ⟨ts, u, h⟩ := ih
    rw [List.cons_append, splitWs]
    split
    · exact ⟨ts, u, h⟩
    · split
      · rw [h]
        cases ts with
        | nil => exact ⟨[], c :: u, rfl⟩
        | cons a ts => exact ⟨(c :: a) :: ts, u, rfl⟩
      · rw [h]
        exact ⟨[c] :: ts, u, rfl⟩

/-- The first word of a text that starts with ink. -/
theorem splitWs_first (t y : Str) (ht : isWord t) : ∃ ts u, splitWs (t ++ y) = (t ++ u) :: ts := by
  obtain ⟨hne, hall⟩ := ht
  induction t with
  | nil => exact absurd rfl hne
  | cons c t ih =>
    have hc : isWs c = false := hall c (by simp)
    rw [List.cons_append, splitWs]
    simp only [hc, Bool.false_eq_true, if_false]
    by_cases htn : t = []
    · subst htn
      split
      · cases hy : splitWs ([] ++ y) with
        | nil => exact ⟨[], [], rfl⟩
        | cons a ts => exact ⟨ts, a, rfl⟩
      · exact ⟨splitWs ([] ++ y), [], rfl⟩
    · obtain ⟨ts, u, h⟩ := ih htn (fun d hd => hall d (by simp [hd]))
      obtain ⟨d, t', rfl⟩ := List.exists_cons_of_ne_nil htn
      have hd : isWs d = false := hall d (by simp)
      have : startsInk (d :: t' ++ y) = true := by simp [startsInk, hd]
      rw [this, h]
      exact ⟨ts, u, rfl⟩

/-- Words next to each other. -/
theorem noDate_words (s : Str) (h : containsStr s%"no date" s = true) :
    ∃ ts u v ts', splitWs s = ts ++ (u ++ s%"no") :: (s%"date" ++ v) :: ts' := by
  obtain ⟨x, y, rfl⟩ := (containsStr_iff _ _).1 h
  obtain ⟨ts, u, h1⟩ := splitWs_last x s%"no" (by decide)
  obtain ⟨ts', v, h2⟩ := splitWs_first s%"date" y (by decide)
  refine ⟨ts, u, v, ts', ?_⟩
  have e : x ++ s%"no date" ++ y = (x ++ s%"no") ++ ' ' :: (s%"date" ++ y) := by simp
  rw [e, splitWs_append_ws _ isWs_space, h1, h2]
  simp

/-! ### Schedules -/

/-- Specification: the short or the long English name of a day of the week, in any case. -/
def NamesDay (t : Str) (w : Weekday) : Prop :=
  t.map asciiLower = w.short ∨ t.map asciiLower = w.short ++ w.longSuffix

/-- Specification: `5`, `5th`, `22nd`, ... : a numeral and letters after it. -/
def NamesNth (t : Str) (n : Nat) : Prop :=
  n < 2 ^ 32 ∧ ∃ suf, t = natStr n ++ suf ∧ NoComment suf ∧ ∀ c ∈ suf, isDigit c = false ∧ isWs c = false

/-- A word that is none of the words of a header. -/
def PlainWord (t : Str) : Prop :=
  isWord t ∧ NoComment t ∧ t ≠ s%"starting" ∧ t ≠ s%"by" ∧ t ≠ s%"due"

instance (t : Str) : Decidable (PlainWord t) := by unfold PlainWord; infer_instance

/-- Specification: the written schedules and what they mean, `st` being the written starting date. -/
inductive Sched (env : Env) (fmt : Str) (st : Option Date) : Str → Frequency → Prop
  | weekly (t : Str) (w : Weekday) (h : NamesDay t w) : Sched env fmt st (s%"every " ++ t) (.weekly w)
  | monthly (t : Str) (n : Nat) (h : NamesNth t n) : Sched env fmt st (s%"every " ++ t) (.monthly n)
  | yearly (d : Date) (h : st = some d) : Sched env fmt st s%"every year" (.annually d)
  | otherWeek (t : Str) (w : Weekday) (d : Date) (hd : st = some d) (h : NamesDay t w) :
      Sched env fmt st (s%"every other " ++ t) (.biweekly d)
  | otherMonth (t : Str) (n : Nat) (d : Date) (hd : st = some d) (h : NamesNth t n) :
      Sched env fmt st (s%"every other " ++ t) (.bimonthly d)
  | once (t : Str) (d : Date) (hw : PlainWord t) (h : env.parseDate t fmt = some d) :
      Sched env fmt st t (.once d)

theorem isWs_asciiLower (c : Char) : isWs (asciiLower c) = false → isWs c = false := by
  unfold asciiLower
  split
  · rename_i h
    intro _
    unfold isWs
    simp only [Bool.or_eq_false_iff, Bool.and_eq_false_iff, decide_eq_false_iff_not, beq_eq_false_iff_ne]
    omega
  · exact id

theorem asciiLower_fix (c d : Char) (h : c.toNat < 65) : asciiLower c = d → c = d := by
  unfold asciiLower
  rw [if_neg (by omega)]
  exact id

theorem NamesDay.lower {t : Str} {w : Weekday} (h : NamesDay t w) : ∀ c ∈ t, 97 ≤ (asciiLower c).toNat ∧
    (asciiLower c).toNat ≤ 122 := by
  intro c hc
  have hm : asciiLower c ∈ t.map asciiLower := List.mem_map_of_mem hc
  have key : ∀ w : Weekday, ∀ x ∈ w.short ++ w.longSuffix, 97 ≤ x.toNat ∧ x.toNat ≤ 122 := by
    intro w; cases w <;> decide
  rcases h with h | h
  · rw [h] at hm; exact key w _ (List.mem_append_left _ hm)
  · rw [h] at hm; exact key w _ hm

theorem NamesDay.ne_nil {t : Str} {w : Weekday} (h : NamesDay t w) : t ≠ [] := by
  rintro rfl
  rcases h with h | h <;> revert h <;> cases w <;> decide

theorem NamesDay.parse {t : Str} {w : Weekday} (h : NamesDay t w) : Weekday.parse t = some w := by
  unfold Weekday.parse
  rcases h with h | h <;> simp only [h] <;> cases w <;> decide

theorem NamesDay.plain {t : Str} {w : Weekday} (h : NamesDay t w) : PlainWord t := by
  have hl := h.lower
  refine ⟨⟨h.ne_nil, fun c hc => isWs_asciiLower c ?_⟩, ?_, ?_, ?_, ?_⟩
  · have := hl c hc
    unfold isWs
    simp only [Bool.or_eq_false_iff, Bool.and_eq_false_iff, decide_eq_false_iff_not, beq_eq_false_iff_ne]
    omega
  · rw [noComment_iff]
    apply rc_none
    intro c hc
    have := hl c hc
    constructor <;> (rintro rfl; revert this; decide)
  all_goals
    rintro rfl
    rcases h with h | h <;> revert h <;> cases w <;> decide

theorem NamesNth.head {t : Str} {n : Nat} (h : NamesNth t n) : ∃ c r, t = c :: r ∧ isDigit c = true := by
  obtain ⟨_, suf, rfl, _, _⟩ := h
  obtain ⟨h1, h2, _⟩ := natStr_spec n
  obtain ⟨c, r, e⟩ := List.exists_cons_of_ne_nil h1
  exact ⟨c, r ++ suf, by rw [e]; rfl, h2 c (by rw [e]; simp)⟩

theorem NamesNth.parse {t : Str} {n : Nat} (h : NamesNth t n) : Frequency.parseDayOfMonth t = some n := by
  obtain ⟨hn, suf, rfl, _, hs⟩ := h
  obtain ⟨h1, h2, h3⟩ := natStr_spec n
  have e : (natStr n ++ suf).filter isDigit = natStr n := by
    rw [List.filter_append, List.filter_eq_self.2 h2, List.filter_eq_nil_iff.2 (fun c hc => by simp [(hs c hc).1])]
    simp
  unfold Frequency.parseDayOfMonth parseU32Digits
  rw [e, h3]
  simp only [List.isEmpty_iff, h1, if_false, hn, if_true]

theorem NamesNth.not_day {t : Str} {n : Nat} (h : NamesNth t n) : Weekday.parse t = none := by
  obtain ⟨c, r, rfl, hc⟩ := h.head
  unfold Weekday.parse
  rw [List.find?_eq_none]
  intro w _ hw
  have hd : NamesDay (c :: r) w := by simpa [NamesDay] using hw
  have h1 := hd.lower c (by simp)
  simp only [isDigit, Bool.and_eq_true, decide_eq_true_eq] at hc
  unfold asciiLower at h1
  rw [if_neg (by omega)] at h1
  omega

theorem digit_not_ws (c : Char) (h : isDigit c = true) : isWs c = false := by
  simp only [isDigit, Bool.and_eq_true, decide_eq_true_eq] at h
  unfold isWs
  simp only [Bool.or_eq_false_iff, Bool.and_eq_false_iff, decide_eq_false_iff_not, beq_eq_false_iff_ne]
  omega

theorem NamesNth.plain {t : Str} {n : Nat} (h : NamesNth t n) : PlainWord t := by
  obtain ⟨c, r, e, hc⟩ := h.head
  have hk : ∀ w : Str, w.head?.any isDigit = false → t ≠ w := by
    rintro w hw rfl
    rw [e] at hw
    simp [hc] at hw
  obtain ⟨hn, suf, rfl, hcm, hs⟩ := h
  obtain ⟨h1, h2, h3⟩ := natStr_spec n
  refine ⟨⟨by simp [h1], ?_⟩, ?_, hk _ (by decide), hk _ (by decide), hk _ (by decide)⟩
  · intro c hc
    rcases List.mem_append.1 hc with h | h
    · exact digit_not_ws c (h2 c h)
    · exact (hs c h).2
  · rw [noComment_iff] at hcm ⊢
    have hr : rc (natStr n) = natStr n := by
      apply rc_none
      intro c hc
      have := h2 c hc
      constructor <;> (rintro rfl; revert this; decide)
    have : ∀ a : Str, (∀ c ∈ a, isDigit c = true) → rc (a ++ suf) = a ++ suf := by
      intro a ha
      induction a with
      | nil => exact hcm
      | cons d a ih =>
        have hd := ha d (by simp)
        rw [List.cons_append, rc, startsMark_cons, ih (fun c hc => ha c (by simp [hc]))]
        have n1 : d ≠ ';' := by rintro rfl; revert hd; decide
        have n2 : d ≠ '/' := by rintro rfl; revert hd; decide
        simp [n1, n2]
    exact this _ h2

theorem stripPrefix_self (p r : Str) : stripPrefix p (p ++ r) = some r := by
  induction p with
  | nil => rfl
  | cons c p ih => simp [stripPrefix, ih]

theorem stripPrefix_other (t : Str) (h : isWord t) : stripPrefix s%"every other " (s%"every " ++ t) = none := by
  cases hf : stripPrefix s%"every other " (s%"every " ++ t) with
  | none => rfl
  | some r =>
    have e := stripPrefix_some _ _ _ hf
    have e2 : t = s%"other " ++ r := by simpa using e
    have := h.2 ' ' (by rw [e2]; simp)
    cases this

theorem stripPrefix_word (p t : Str) (h : isWord t) (hp : ' ' ∈ p) : stripPrefix p t = none := by
  cases hf : stripPrefix p t with
  | none => rfl
  | some r =>
    have e := stripPrefix_some _ _ _ hf
    have := h.2 ' ' (by rw [e]; simp [hp])
    cases this

/-- C91. A written schedule is read as what it says. -/
theorem C91_schedules (env : Env) (fmt t : Str) (st : Option Date) (f : Frequency) (h : Sched env fmt st t f) :
    Frequency.parse env t fmt st = .ok f := by
  cases h with
  | weekly t w h =>
    simp only [Frequency.parse, stripPrefix_other t h.plain.1, stripPrefix_self, h.parse]
  | monthly t n h =>
    simp only [Frequency.parse, stripPrefix_other t h.plain.1, stripPrefix_self, h.not_day, h.parse]
  | yearly d h => subst h; rfl
  | otherWeek t w d hd h =>
    subst hd
    simp only [Frequency.parse, stripPrefix_self, h.parse, Option.isSome_some, if_true]
  | otherMonth t n d hd h =>
    subst hd
    simp only [Frequency.parse, stripPrefix_self, h.not_day, h.parse, Option.isSome_some, Option.isSome_none,
      if_true, Bool.false_eq_true, if_false]
  | once t d hw h =>
    simp only [Frequency.parse, stripPrefix_word _ t hw.1 (by decide : ' ' ∈ s%"every other "),
      stripPrefix_word _ t hw.1 (by decide : ' ' ∈ s%"every "), h]

/-- The words of a schedule: one plain word, perhaps after `every` and `other`. -/
theorem Sched.words {env : Env} {fmt t : Str} {st : Option Date} {f : Frequency} (h : Sched env fmt st t f) :
    ∃ pre w, (pre = [] ∨ pre = [s%"every"] ∨ pre = [s%"every", s%"other"]) ∧ PlainWord w ∧
      splitWs t = pre ++ [w] ∧ rc t = t ∧ t ≠ [] ∧ ∃ x, t = x ++ w ∧ noNl x := by
  have e1 : ∀ t : Str, PlainWord t → splitWs (s%"every " ++ t) = [s%"every"] ++ [t] ∧
      rc (s%"every " ++ t) = s%"every " ++ t := by
    intro t ht
    refine ⟨?_, ?_⟩
    · rw [show s%"every " ++ t = s%"every" ++ ' ' :: t from rfl, splitWs_append_ws _ isWs_space, splitWs_word ht.1]
      rfl
    · rw [show s%"every " ++ t = s%"every" ++ ' ' :: t from rfl, rc_space (by decide), (noComment_iff t).1 ht.2.1]
  have e2 : ∀ t : Str, PlainWord t → splitWs (s%"every other " ++ t) = [s%"every", s%"other"] ++ [t] ∧
      rc (s%"every other " ++ t) = s%"every other " ++ t := by
    intro t ht
    refine ⟨?_, ?_⟩
    · rw [show s%"every other " ++ t = s%"every other" ++ ' ' :: t from rfl, splitWs_append_ws _ isWs_space,
        splitWs_word ht.1]
      rfl
    · rw [show s%"every other " ++ t = s%"every other" ++ ' ' :: t from rfl, rc_space (by decide),
        (noComment_iff t).1 ht.2.1]
  cases h with
  | weekly t w h => exact ⟨_, t, .inr (.inl rfl), h.plain, (e1 t h.plain).1, (e1 t h.plain).2, by simp, _, rfl, by decide⟩
  | monthly t w h => exact ⟨_, t, .inr (.inl rfl), h.plain, (e1 t h.plain).1, (e1 t h.plain).2, by simp, _, rfl, by decide⟩
  | yearly d h =>
    exact ⟨_, s%"year", .inr (.inl rfl), by decide, (e1 s%"year" (by decide)).1, (e1 s%"year" (by decide)).2,
      by simp, s%"every ", rfl, by decide⟩
  | otherWeek t w d hd h =>
    exact ⟨_, t, .inr (.inr rfl), h.plain, (e2 t h.plain).1, (e2 t h.plain).2, by simp, _, rfl, by decide⟩
  | otherMonth t w d hd h =>
    exact ⟨_, t, .inr (.inr rfl), h.plain, (e2 t h.plain).1, (e2 t h.plain).2, by simp, _, rfl, by decide⟩
  | once t d hw h =>
    exact ⟨[], t, .inl rfl, hw, splitWs_word hw.1, (noComment_iff t).1 hw.2.1, hw.1.1, [], rfl, by decide⟩

/-! ### Headers -/

/-- How a kind is written. -/
def EnvelopeKind.text : EnvelopeKind → Str
  | .expense => s%"expense"
  | .goal => s%"goal"

theorem EnvelopeKind.parse_text (k : EnvelopeKind) : EnvelopeKind.parse k.text = .ok k := by cases k <;> rfl

theorem EnvelopeKind.text_plain (k : EnvelopeKind) : PlainWord k.text := by cases k <;> decide

/-- The due clause of a header: `no date`, `due <schedule>` or `by <schedule>`. -/
inductive DueClause where
  | noDate
  | due (t : Str)
  | byDate (t : Str)

def DueClause.text : DueClause → Str
  | .noDate => s%" no date"
  | .due t => s%" due " ++ t
  | .byDate t => s%" by " ++ t

/-- The starting clause of a header. -/
def startingText : Option Str → Str
  | none => []
  | some t => s%" starting " ++ t

/-- Specification: the clauses and what they mean. -/
inductive DueClause.Means (env : Env) (fmt : Str) (st : Option Date) (name : Str) : DueClause → Frequency → Prop
  | noDate : DueClause.Means env fmt st name .noDate .never
  | due (t : Str) (f : Frequency) (h : Sched env fmt st t f) (hn : name ≠ s%"by") :
      DueClause.Means env fmt st name (.due t) f
  | byDate (t : Str) (f : Frequency) (h : Sched env fmt st t f) : DueClause.Means env fmt st name (.byDate t) f

inductive StartMeans (env : Env) (fmt : Str) : Option Str → Option Date → Prop
  | none : StartMeans env fmt none none
  | some (t : Str) (d : Date) (hw : PlainWord t) (h : env.parseDate t fmt = some d) :
      StartMeans env fmt (some t) (some d)

/-- The header of an envelope. -/
def headerText (k : EnvelopeKind) (gap name : Str) (c : DueClause) (st : Option Str) : Str :=
  k.text ++ gap ++ name ++ c.text ++ startingText st

theorem adj_cons {ts ts' : List Str} {a b w : Str} {rest : List Str} (h : ts ++ a :: b :: ts' = w :: rest) :
    (a = w ∧ rest = b :: ts') ∨ ∃ ts2, ts2 ++ a :: b :: ts' = rest := by
  cases ts with
  | nil => simp only [List.nil_append, List.cons.injEq] at h; exact .inl ⟨h.1, h.2.symm⟩
  | cons c ts => simp only [List.cons_append, List.cons.injEq] at h; exact .inr ⟨ts, h.2⟩

theorem ends_no {u w : Str} (h : u ++ s%"no" = w) : w.getLast? = some 'o' := by
  rw [← h]; simp

/-- No `no date` among the words of a header with a due date. -/
theorem noDate_absent {s name t : Str} {k : EnvelopeKind} {kw : Str} (hk : kw = s%"due" ∨ kw = s%"by")
    {pre : List Str} {w : Str} (hp : pre = [] ∨ pre = [s%"every"] ∨ pre = [s%"every", s%"other"])
    (hs : splitWs s = k.text :: name :: kw :: (pre ++ [w])) : containsStr s%"no date" s = false := by
  cases hc : containsStr s%"no date" s with
  | false => rfl
  | true =>
    exfalso
    obtain ⟨ts, u, v, ts', e⟩ := noDate_words s hc
    rw [hs] at e
    have kill : ∀ x : Str, x.getLast? ≠ some 'o' → u ++ s%"no" ≠ x := fun x hx hh => hx (ends_no hh)
    have last : ∀ (l : List Str) (x : Str), l ++ (u ++ s%"no") :: (s%"date" ++ v) :: ts' ≠ [x] := by
      intro l x hh
      have := congrArg List.length hh
      simp at this
      omega
    rcases adj_cons e.symm with ⟨h1, _⟩ | ⟨l1, h1⟩
    · exact kill k.text (by cases k <;> decide) h1
    rcases adj_cons h1 with ⟨_, h2⟩ | ⟨l2, h2⟩
    · simp only [List.cons.injEq] at h2
      rcases hk with rfl | rfl <;> simp at h2
    rcases adj_cons h2 with ⟨h3, _⟩ | ⟨l3, h3⟩
    · rcases hk with rfl | rfl
      · exact kill s%"due" (by decide) h3
      · exact kill s%"by" (by decide) h3
    rcases hp with rfl | rfl | rfl
    · exact last l3 w h3
    · rcases adj_cons h3 with ⟨h4, _⟩ | ⟨l4, h4⟩
      · exact kill s%"every" (by decide) h4
      · exact last l4 w h4
    · rcases adj_cons h3 with ⟨h4, _⟩ | ⟨l4, h4⟩
      · exact kill s%"every" (by decide) h4
      rcases adj_cons h4 with ⟨h5, _⟩ | ⟨l5, h5⟩
      · exact kill s%"other" (by decide) h5
      · exact last l5 w h5

/-- The conditions on the name of an envelope and the space before it. -/
structure NameOk (gap name : Str) : Prop where
  gap_ws : allWs gap
  gap_ne : gap ≠ []
  word : isWord name
  noComment : NoComment name
  not_starting : name ≠ s%"starting"

theorem rc_ws {g : Str} (h : allWs g) (b : Str) : rc (g ++ b) = g ++ rc b := by
  induction g with
  | nil => rfl
  | cons c g ih =>
    have hc := h c (by simp)
    have n1 : c ≠ ';' := by rintro rfl; revert hc; decide
    have n2 : c ≠ '/' := by rintro rfl; revert hc; decide
    rw [List.cons_append, rc, startsMark_cons, ih (fun d hd => h d (by simp [hd]))]
    simp [n1, n2]

theorem rc_gap {a g : Str} (ha : rc a = a) (hg : allWs g) (hne : g ≠ []) (b : Str) : rc (a ++ (g ++ b)) = a ++ (g ++ rc b) := by
  have : (g ++ b).head? ≠ some '/' := by
    obtain ⟨c, g', rfl⟩ := List.exists_cons_of_ne_nil hne
    have hc := hg c (by simp)
    simp only [List.cons_append, List.head?_cons]
    rintro ⟨⟩
    revert hc; decide
  rw [rc_append ha this, rc_ws hg]

theorem DueClause.Means.words {env : Env} {fmt name : Str} {st : Option Date} {c : DueClause} {f : Frequency}
    (h : DueClause.Means env fmt st name c f) :
    (∀ a, splitWs (a ++ c.text) = splitWs a ++ splitWs c.text) ∧ s%"starting" ∉ splitWs c.text ∧
      (∀ a, rc a = a → rc (a ++ c.text) = a ++ c.text) := by
  have key : ∀ (kw t : Str), Sched env fmt st t f → isWord kw → kw ≠ s%"starting" → rc kw = kw →
      (∀ a, splitWs (a ++ (' ' :: (kw ++ ' ' :: t))) = splitWs a ++ splitWs (' ' :: (kw ++ ' ' :: t))) ∧
      s%"starting" ∉ splitWs (' ' :: (kw ++ ' ' :: t)) ∧
      (∀ a, rc a = a → rc (a ++ (' ' :: (kw ++ ' ' :: t))) = a ++ (' ' :: (kw ++ ' ' :: t))) := by
    intro kw t hs hk hk2 hk3
    obtain ⟨pre, w, hp, hw, e1, e2, _⟩ := hs.words
    refine ⟨fun a => ?_, ?_, fun a ha => ?_⟩
    · rw [splitWs_append_ws _ isWs_space, splitWs_ws_cons isWs_space]
    · rw [splitWs_ws_cons isWs_space, splitWs_append_ws _ isWs_space, splitWs_word hk, e1]
      intro hm
      simp only [List.mem_append, List.mem_singleton] at hm
      rcases hm with hm | hm | hm
      · exact hk2 hm.symm
      · rcases hp with rfl | rfl | rfl
        · cases hm
        · revert hm; decide
        · revert hm; decide
      · exact hw.2.2.1 hm.symm
    · rw [rc_space ha, rc_space hk3, e2]
  cases h with
  | noDate =>
    refine ⟨fun a => ?_, by decide, fun a ha => ?_⟩
    · show splitWs (a ++ ' ' :: s%"no date") = _
      rw [splitWs_append_ws _ isWs_space]
      rfl
    · show rc (a ++ ' ' :: s%"no date") = _
      rw [rc_space ha]
      rfl
  | due t f h hn => exact key s%"due" t h (by decide) (by decide) (by decide)
  | byDate t f h => exact key s%"by" t h (by decide) (by decide) (by decide)

/-- C91. The header of an envelope is read as what it says. -/
theorem header_read (env : Env) (fmt account gap name : Str) (k : EnvelopeKind) (c : DueClause) (st : Option Str)
    (sd : Option Date) (f : Frequency) (hn : NameOk gap name) (hc : c.Means env fmt sd name f)
    (hs : StartMeans env fmt st sd) :
    Envelope.fromHeader (M := M) env (headerText k gap name c st) fmt account = .ok {
      name := name, amount := Amount.zero, kind := k, auto := [], freq := f, funding := .manual, starting := sd,
      next := Amount.zero, now := Amount.zero, account := account, lastTx := Date.zero } := by
  obtain ⟨w1, w2, w3⟩ := hc.words
  -- the first two words
  have hkn : splitWs (k.text ++ gap ++ name) = [k.text, name] := by
    rw [splitWs_cons_gap k.text_plain.1 hn.gap_ws hn.gap_ne, splitWs_word hn.word]
  have hrckn : rc (k.text ++ gap ++ name) = k.text ++ gap ++ name := by
    rw [List.append_assoc, rc_gap ((noComment_iff _).1 k.text_plain.2.1) hn.gap_ws hn.gap_ne,
      (noComment_iff _).1 hn.noComment]
  have hbase : splitWs (k.text ++ gap ++ name ++ c.text) = k.text :: name :: splitWs c.text := by
    rw [w1, hkn]; rfl
  have hrcb : rc (k.text ++ gap ++ name ++ c.text) = k.text ++ gap ++ name ++ c.text := w3 _ hrckn
  have hnst : s%"starting" ∉ splitWs (k.text ++ gap ++ name ++ c.text) := by
    rw [hbase]
    simp only [List.mem_cons, not_or]
    exact ⟨k.text_plain.2.2.1.symm, hn.not_starting.symm, w2⟩
  -- the schedule
  have hfreq : Envelope.extractFrequency env (k.text ++ gap ++ name ++ c.text) fmt sd = .ok f := by
    unfold Envelope.extractFrequency
    rw [removeComments_eq_rc, hrcb]
    cases hc with
    | noDate =>
      have : containsStr s%"no date" (k.text ++ gap ++ name ++ DueClause.noDate.text) = true := by
        rw [containsStr_iff]
        exact ⟨k.text ++ gap ++ name ++ [' '], [], by simp [DueClause.text]⟩
      simp only [this, if_true]
    | due t f h hby =>
      obtain ⟨pre, w, hp, hw, e1, e2, _⟩ := h.words
      have hsp : splitWs (k.text ++ gap ++ name ++ (DueClause.due t).text) =
          k.text :: name :: s%"due" :: (pre ++ [w]) := by
        rw [hbase]
        show k.text :: name :: splitWs (' ' :: (s%"due" ++ ' ' :: t)) = _
        rw [splitWs_ws_cons isWs_space, splitWs_append_ws _ isWs_space, e1]
        rfl
      have hnd := noDate_absent (t := t) (.inl rfl) hp hsp
      have hnby : rfind s%" by " (k.text ++ gap ++ name ++ (DueClause.due t).text) = none := by
        apply rfind_spaced_none s%"by" _ (by decide)
        rw [hsp]
        simp only [List.mem_cons, List.mem_append, not_or, List.not_mem_nil]
        refine ⟨k.text_plain.2.2.2.1.symm, hby.symm, by decide, ?_, hw.2.2.2.1.symm, not_false⟩
        rcases hp with rfl | rfl | rfl <;> decide
      have hdue : rfind s%" due " (k.text ++ gap ++ name ++ (DueClause.due t).text) =
          some (k.text ++ gap ++ name).length := by
        apply rfind_spaced s%"due" (k.text ++ gap ++ name) t (by decide)
        rw [e1]
        simp only [List.mem_append, List.mem_singleton, not_or]
        refine ⟨?_, hw.2.2.2.2.symm⟩
        rcases hp with rfl | rfl | rfl <;> decide
      simp only [hnd, Bool.false_eq_true, if_false, hnby, hdue]
      have : (k.text ++ gap ++ name ++ (DueClause.due t).text).drop ((k.text ++ gap ++ name).length + 5) = t := by
        rw [← List.drop_drop, List.drop_left]; rfl
      rw [this]
      exact C91_schedules env fmt t sd f h
    | byDate t f h =>
      obtain ⟨pre, w, hp, hw, e1, e2, _⟩ := h.words
      have hsp : splitWs (k.text ++ gap ++ name ++ (DueClause.byDate t).text) =
          k.text :: name :: s%"by" :: (pre ++ [w]) := by
        rw [hbase]
        show k.text :: name :: splitWs (' ' :: (s%"by" ++ ' ' :: t)) = _
        rw [splitWs_ws_cons isWs_space, splitWs_append_ws _ isWs_space, e1]
        rfl
      have hnd := noDate_absent (t := t) (.inr rfl) hp hsp
      have hdue : rfind s%" by " (k.text ++ gap ++ name ++ (DueClause.byDate t).text) =
          some (k.text ++ gap ++ name).length := by
        apply rfind_spaced s%"by" (k.text ++ gap ++ name) t (by decide)
        rw [e1]
        simp only [List.mem_append, List.mem_singleton, not_or]
        refine ⟨?_, hw.2.2.2.1.symm⟩
        rcases hp with rfl | rfl | rfl <;> decide
      simp only [hnd, Bool.false_eq_true, if_false, hdue]
      have : (k.text ++ gap ++ name ++ (DueClause.byDate t).text).drop ((k.text ++ gap ++ name).length + 4) = t := by
        rw [← List.drop_drop, List.drop_left]; rfl
      rw [this]
      exact C91_schedules env fmt t sd f h
  -- the whole header
  cases hs with
  | none =>
    have e : headerText k gap name c none = k.text ++ gap ++ name ++ c.text := by
      simp [headerText, startingText]
    have hst : Envelope.extractStarting env (k.text ++ gap ++ name ++ c.text) fmt = .ok none := by
      unfold Envelope.extractStarting
      have := find_spaced_none s%"starting" _ (by decide) hnst
      rw [show s%" starting " = spaced s%"starting" from rfl, this]
    rw [e]
    unfold Envelope.fromHeader
    rw [removeComments_eq_rc, hrcb, hbase]
    simp only [bind, Except.bind, pure, Except.pure, EnvelopeKind.parse_text, hst, hfreq]
  | some t d hw h =>
    have e : headerText k gap name c (some t) = (k.text ++ gap ++ name ++ c.text) ++ (spaced s%"starting" ++ t) := by
      simp [headerText, startingText, spaced]
    have hrc : rc (headerText k gap name c (some t)) = headerText k gap name c (some t) := by
      have e' : headerText k gap name c (some t) =
          (k.text ++ gap ++ name ++ c.text) ++ ' ' :: (s%"starting" ++ ' ' :: t) := by
        simp [headerText, startingText]
      rw [e', rc_space hrcb, rc_space (by decide), (noComment_iff t).1 hw.2.1]
    have hsp : splitWs (headerText k gap name c (some t)) =
        k.text :: name :: (splitWs c.text ++ s%"starting" :: splitWs t) := by
      rw [e, splitWs_spaced _ _ _ (by decide), hbase]
      rfl
    have hst : Envelope.extractStarting env (headerText k gap name c (some t)) fmt =
        .ok (some (d, (k.text ++ gap ++ name ++ c.text).length)) := by
      unfold Envelope.extractStarting
      rw [e, show s%" starting " = spaced s%"starting" from rfl,
        find_spaced s%"starting" _ t (by decide) hnst]
      have : ((k.text ++ gap ++ name ++ c.text) ++ (spaced s%"starting" ++ t)).drop
          ((k.text ++ gap ++ name ++ c.text).length + 10) = t := by
        rw [← List.drop_drop, List.drop_left]; rfl
      simp only [this, h]
    have htake : (headerText k gap name c (some t)).take (k.text ++ gap ++ name ++ c.text).length =
        k.text ++ gap ++ name ++ c.text := by
      rw [e, List.take_left]
    unfold Envelope.fromHeader
    rw [removeComments_eq_rc, hrc, hsp]
    simp only [bind, Except.bind, pure, Except.pure, EnvelopeKind.parse_text, hst, htake, hfreq]

/-! ### Properties of an envelope -/

/-- What a line below the header says. -/
inductive PropLine (M : Type) where
  | forAccount (acc : Str)
  | amount (txt : Str) (a : Amount M)
  | funding (f : Funding)

/-- How a funding method is written. -/
def Funding.text : Funding → Str
  | .manual => s%"manual"
  | .conservative => s%"conservative"
  | .aggressive => s%"aggressive"

namespace PropLine

def key : PropLine M → Str
  | .forAccount _ => s%"for"
  | .amount _ _ => s%"amount"
  | .funding _ => s%"funding"

def value : PropLine M → Str
  | .forAccount acc => acc
  | .amount txt _ => txt
  | .funding f => f.text

/-- The conditions: accounts are words; the text of the amount is that of the amount; nothing of it is taken
for a comment or goes beyond the line. -/
structure Ok (dec : Char) (p : PropLine M) : Prop where
  noComment : NoComment p.value
  oneLine : noNl p.value
  first : ∃ c r, p.value = c :: r ∧ isWs c = false
  last : ∃ r c, p.value = r ++ [c] ∧ isWs c = false
  means : match p with
    | .forAccount acc => isWord acc
    | .amount txt a => Amount.parse txt dec = .ok a
    | .funding _ => True

/-- The line: indentation, key, a space and perhaps more, value. -/
def text (indent gap : Str) (p : PropLine M) : Str := indent ++ (p.key ++ ' ' :: (gap ++ p.value))

/-- What the line changes. -/
def apply (p : PropLine M) (e : Envelope M) : Envelope M :=
  match p with
  | .forAccount acc => { e with auto := setInsert e.auto acc }
  | .amount _ a => { e with
      amount := a
      next := { e.next with sym := a.sym }
      now := { e.now with sym := a.sym } }
  | .funding f => { e with funding := f }

end PropLine

theorem dropPairs_ws {g : Str} (h : allWs g) (s : Str) : dropPairs (g ++ s) = g ++ dropPairs s := by
  induction g with
  | nil => rfl
  | cons c g ih =>
    have hc := h c (by simp)
    rw [List.cons_append, dropPairs_cons (by rintro rfl; revert hc; decide), ih fun d hd => h d (by simp [hd])]
    rfl

theorem Amount.parse_gap {g : Str} (h : allWs g) (s : Str) (dec : Char) :
    Amount.parse (M := M) (g ++ s) dec = Amount.parse s dec := by
  have : amountClump (g ++ s) = amountClump s := by
    unfold amountClump
    rw [replaceAll_dashes, replaceAll_dashes, dropPairs_ws h, splitWs_ws_left h]
  unfold Amount.parse
  rw [this]

theorem splitWs_ink {s c r} (h : s = c :: r) (hc : isWs c = false) : splitWs s ≠ [] := by
  subst h
  rw [splitWs]
  simp only [hc, Bool.false_eq_true, if_false]
  split
  · cases splitWs r <;> simp [consHead]
  · simp

theorem PropLine.key_plain (p : PropLine M) : PlainWord p.key := by cases p <;> (simp only [PropLine.key]; decide)

theorem prop_read (dec : Char) (p : PropLine M) (hp : p.Ok dec) {indent gap : Str} (hi : allWs indent)
    (hg : allWs gap) (e : Envelope M) : e.addBodyLine dec (p.text indent gap) = .ok (p.apply e) := by
  obtain ⟨c, r, hv, hc⟩ := hp.first
  obtain ⟨r', c', hv', hc'⟩ := hp.last
  have hrc : rc (p.text indent gap) = p.text indent gap := by
    unfold PropLine.text
    rw [rc_ws hi, rc_space ((noComment_iff _).1 p.key_plain.2.1), rc_ws hg, (noComment_iff _).1 hp.noComment]
  have htrim : trim (removeComments (p.text indent gap)) = p.key ++ ' ' :: (gap ++ p.value) := by
    rw [removeComments_eq_rc, hrc]
    unfold PropLine.text
    rw [trim_ws_left hi]
    apply trim_id
    · right
      cases p <;> exact ⟨_, _, rfl, by decide⟩
    · right
      refine ⟨p.key ++ ' ' :: (gap ++ r'), c', ?_, hc'⟩
      rw [hv']; simp
  have hsp : splitWs (p.key ++ ' ' :: (gap ++ p.value)) = p.key :: splitWs p.value := by
    rw [splitWs_append_ws _ isWs_space, splitWs_ws_left hg, splitWs_word p.key_plain.1]; rfl
  have hfind : find s%" " (p.key ++ ' ' :: (gap ++ p.value)) = some p.key.length := by
    apply find_char
    cases p <;> (simp only [PropLine.key]; decide)
  have hdrop : (p.key ++ ' ' :: (gap ++ p.value)).drop p.key.length = ' ' :: (gap ++ p.value) := by
    rw [List.drop_left]
  have hne : (splitWs p.value).isEmpty = false := by
    simpa using splitWs_ink hv hc
  have hws : allWs (' ' :: gap) := by
    intro d hd
    rcases List.mem_cons.1 hd with rfl | hd
    · decide
    · exact hg d hd
  have htv : trim (' ' :: (gap ++ p.value)) = p.value := by
    show trim ((' ' :: gap) ++ p.value) = _
    rw [trim_ws_left hws]
    exact trim_id (.inr ⟨c, r, hv, hc⟩) (.inr ⟨r', c', hv', hc'⟩)
  unfold Envelope.addBodyLine
  simp only [htrim, hsp, hfind, hdrop, hne, Bool.false_eq_true, if_false]
  have hm := hp.means
  cases p with
  | forAccount acc =>
    have hm : isWord acc := hm
    show Envelope.addAccount e (' ' :: (gap ++ acc)) = _
    unfold Envelope.addAccount
    have : splitWs (' ' :: (gap ++ acc)) = [acc] := by
      rw [splitWs_ws_cons isWs_space, splitWs_ws_left hg, splitWs_word hm]
    have htv : trim (' ' :: (gap ++ acc)) = acc := htv
    rw [this, htv]
    rfl
  | amount txt a =>
    have hm : Amount.parse txt dec = .ok a := hm
    have : Amount.parse (M := M) (' ' :: (gap ++ txt)) dec = .ok a := by
      show Amount.parse (M := M) ((' ' :: gap) ++ txt) dec = .ok a
      rw [Amount.parse_gap hws, hm]
    simp only [PropLine.key, PropLine.value]
    rw [if_neg (by decide), if_pos trivial]
    simp only [bind, Except.bind, pure, Except.pure, this, PropLine.apply]
  | funding f =>
    have htv : trim (' ' :: (gap ++ f.text)) = f.text := htv
    have : Funding.parse (' ' :: (gap ++ f.text)) = .ok f := by
      unfold Funding.parse
      simp only [htv]
      cases f <;> rfl
    simp only [PropLine.key, PropLine.value]
    rw [if_neg (by decide), if_neg (by decide), if_pos trivial]
    simp only [bind, Except.bind, pure, Except.pure, this, PropLine.apply]

/-! ### Envelopes -/

/-- A written envelope: the header and the lines of its properties, with their layout. -/
structure EnvDecl (M : Type) where
  indent : Str
  kind : EnvelopeKind
  gap : Str
  name : Str
  due : DueClause
  starting : Option Str
  /-- indentation, space after the key, property -/
  props : List (Str × Str × PropLine M)

namespace EnvDecl

def header (d : EnvDecl M) : Str := headerText d.kind d.gap d.name d.due d.starting

def propLines (d : EnvDecl M) : List Str := d.props.map fun p => p.2.2.text p.1 p.2.1

/-- The lines of the declaration. -/
def lines (d : EnvDecl M) : List Str := (d.indent ++ d.header) :: d.propLines

/-- What the written schedule and the starting date mean. -/
structure Ok (env : Env) (fmt : Str) (dec : Char) (d : EnvDecl M) (f : Frequency) (sd : Option Date) : Prop where
  indent : allWs d.indent ∧ noNl d.indent
  gap : noNl d.gap
  name : NameOk d.gap d.name
  due : d.due.Means env fmt sd d.name f
  starting : StartMeans env fmt d.starting sd
  props : ∀ p ∈ d.props, allWs p.1 ∧ noNl p.1 ∧ allWs p.2.1 ∧ noNl p.2.1 ∧ p.2.2.Ok dec

/-- The envelope of the declaration. -/
def envelope (d : EnvDecl M) (f : Frequency) (sd : Option Date) (account : Str) : Envelope M :=
  d.props.foldl (fun e p => p.2.2.apply e) {
    name := d.name, amount := Amount.zero, kind := d.kind, auto := [], freq := f, funding := .manual,
    starting := sd, next := Amount.zero, now := Amount.zero, account := account, lastTx := Date.zero }

end EnvDecl

theorem noNl_isWord {w : Str} (h : isWord w) : noNl w := by
  intro hm
  have := h.2 _ hm
  revert this; decide

/-- The last character of a header is ink, there is no line break in it. -/
theorem header_shape {env : Env} {fmt : Str} {dec : Char} {d : EnvDecl M} {f : Frequency} {sd : Option Date}
    (h : d.Ok env fmt dec f sd) : noNl d.header ∧ (∃ c r, d.header = c :: r ∧ isWs c = false) ∧
      (∃ r c, d.header = r ++ [c] ∧ isWs c = false) := by
  have wordEnd : ∀ (x w : Str), isWord w → ∃ r c, x ++ w = r ++ [c] ∧ isWs c = false := by
    intro x w hw
    have hne := hw.1
    refine ⟨x ++ w.dropLast, w.getLast hne, ?_, hw.2 _ (List.getLast_mem hne)⟩
    rw [List.append_assoc, List.dropLast_append_getLast]
  have hdue : noNl d.due.text ∧ ∃ x w, isWord w ∧ d.due.text = x ++ w := by
    cases hd : d.due with
    | noDate => exact ⟨by decide, s%" no ", s%"date", by decide, rfl⟩
    | due t =>
      have := h.due
      rw [hd] at this
      cases this with
      | due _ _ hs _ =>
        obtain ⟨pre, w, hp, hw, e1, e2, _, x, hx, hxn⟩ := hs.words
        refine ⟨?_, s%" due " ++ x, w, hw.1, by rw [hx]; simp [DueClause.text]⟩
        show noNl (s%" due " ++ t)
        rw [hx, noNl_append, noNl_append]
        exact ⟨by decide, hxn, noNl_isWord hw.1⟩
    | byDate t =>
      have := h.due
      rw [hd] at this
      cases this with
      | byDate _ _ hs =>
        obtain ⟨pre, w, hp, hw, e1, e2, _, x, hx, hxn⟩ := hs.words
        refine ⟨?_, s%" by " ++ x, w, hw.1, by rw [hx]; simp [DueClause.text]⟩
        show noNl (s%" by " ++ t)
        rw [hx, noNl_append, noNl_append]
        exact ⟨by decide, hxn, noNl_isWord hw.1⟩
  have hkn : noNl (d.kind.text ++ d.gap ++ d.name) := by
    rw [noNl_append, noNl_append]
    exact ⟨⟨noNl_isWord d.kind.text_plain.1, h.gap⟩, noNl_isWord h.name.word⟩
  obtain ⟨hd1, x, w, hw, hxw⟩ := hdue
  refine ⟨?_, ?_, ?_⟩
  · unfold EnvDecl.header headerText
    rw [noNl_append, noNl_append]
    refine ⟨⟨hkn, hd1⟩, ?_⟩
    have := h.starting
    revert this
    cases d.starting with
    | none => intro _; decide
    | some t =>
      intro hs
      cases hs with
      | some _ _ hw _ =>
        show noNl (s%" starting " ++ t)
        rw [noNl_append]
        exact ⟨by decide, noNl_isWord hw.1⟩
  · unfold EnvDecl.header headerText
    cases d.kind <;> exact ⟨_, _, rfl, by decide⟩
  · unfold EnvDecl.header headerText
    have := h.starting
    revert this
    cases d.starting with
    | none =>
      intro _
      obtain ⟨r, c, e, hc⟩ := wordEnd (d.kind.text ++ d.gap ++ d.name ++ x) w hw
      refine ⟨r, c, ?_, hc⟩
      rw [hxw, ← e]
      simp [startingText]
    | some t =>
      intro hs
      cases hs with
      | some _ _ hw _ =>
        obtain ⟨r, c, e, hc⟩ := wordEnd (d.kind.text ++ d.gap ++ d.name ++ d.due.text ++ s%" starting ") t hw.1
        refine ⟨r, c, ?_, hc⟩
        rw [← e]
        simp [startingText]

theorem not_cr {r : Str} {c : Char} (h : isWs c = false) : (r ++ [c]).getLast? ≠ some '\r' := by
  simp only [List.getLast?_append, List.getLast?_singleton, Option.some_or]
  rintro ⟨⟩
  revert h; decide

/-- Every line of a declaration is one line, not blank and without a carriage return at its end. -/
theorem decl_lines {env : Env} {fmt : Str} {dec : Char} {d : EnvDecl M} {f : Frequency} {sd : Option Date}
    (h : d.Ok env fmt dec f sd) : ∀ l ∈ d.header :: d.lines, noNl l ∧ (∃ r c, l = r ++ [c] ∧ isWs c = false) := by
  obtain ⟨h1, h2, r, c, e, hc⟩ := header_shape h
  intro l hl
  rcases List.mem_cons.1 hl with rfl | hl
  · exact ⟨h1, r, c, e, hc⟩
  rcases List.mem_cons.1 hl with rfl | hl
  · exact ⟨noNl_append.2 ⟨h.indent.2, h1⟩, d.indent ++ r, c, by rw [e]; simp, hc⟩
  · obtain ⟨p, hp, rfl⟩ := List.mem_map.1 hl
    obtain ⟨q1, q2, q3, q4, q5⟩ := h.props p hp
    obtain ⟨r', c', hv, hc'⟩ := q5.last
    refine ⟨?_, p.1 ++ (p.2.2.key ++ ' ' :: (p.2.1 ++ r')), c', ?_, hc'⟩
    · unfold PropLine.text
      rw [noNl_append, noNl_append]
      refine ⟨q2, noNl_isWord p.2.2.key_plain.1, ?_⟩
      show noNl ([' '] ++ (p.2.1 ++ p.2.2.value))
      rw [noNl_append, noNl_append]
      exact ⟨by decide, q4, q5.oneLine⟩
    · unfold PropLine.text
      rw [hv]; simp

theorem joinWith_cons_nl (l : Str) {ls : List Str} (h : ls ≠ []) :
    joinWith ['\n'] (l :: ls) = l ++ '\n' :: joinWith ['\n'] ls := by
  cases ls with
  | nil => exact absurd rfl h
  | cons m ms => simp [joinWith]

theorem joinWith_last {ls : List Str} (hne : ls ≠ []) (h : ∀ l ∈ ls, ∃ r c, l = r ++ [c] ∧ isWs c = false) :
    ∃ r c, joinWith ['\n'] ls = r ++ [c] ∧ isWs c = false := by
  induction ls with
  | nil => exact absurd rfl hne
  | cons l ls ih =>
    by_cases hl : ls = []
    · subst hl; exact h l (by simp)
    · obtain ⟨r, c, e, hc⟩ := ih hl fun m hm => h m (by simp [hm])
      refine ⟨l ++ '\n' :: r, c, ?_, hc⟩
      rw [joinWith_cons_nl l hl, e]; simp

theorem lines_join' {ls : List Str} (h : ∀ l ∈ ls, noNl l ∧ ∃ r c, l = r ++ [c] ∧ isWs c = false) :
    lines (joinWith ['\n'] ls) = ls := by
  apply lines_join
  · intro l hl
    obtain ⟨h1, r, c, e, hc⟩ := h l hl
    exact ⟨h1, by rw [e]; exact not_cr hc⟩
  · intro e
    obtain ⟨_, r, c, e', _⟩ := h [] (List.mem_of_getLast? e)
    simp at e'

theorem body_read (dec : Char) : ∀ (ps : List (Str × Str × PropLine M)) (e : Envelope M),
    (∀ p ∈ ps, allWs p.1 ∧ noNl p.1 ∧ allWs p.2.1 ∧ noNl p.2.1 ∧ p.2.2.Ok dec) →
    Envelope.addBody dec (ps.map fun p => p.2.2.text p.1 p.2.1) e = .ok (ps.foldl (fun e p => p.2.2.apply e) e)
  | [], _, _ => rfl
  | p :: ps, e, h => by
    obtain ⟨q1, q2, q3, q4, q5⟩ := h p (by simp)
    simp only [List.map_cons, Envelope.addBody, bind, Except.bind]
    rw [prop_read dec p.2.2 q5 q1 q3]
    exact body_read dec ps _ fun q hq => h q (by simp [hq])

/-- The lines of a declaration are read as its envelope. -/
theorem decl_read (env : Env) (fmt account : Str) (dec : Char) (d : EnvDecl M) (f : Frequency) (sd : Option Date)
    (h : d.Ok env fmt dec f sd) :
    Envelope.parse env (joinWith ['\n'] d.lines) account dec fmt = .ok (d.envelope f sd account) := by
  have hl := decl_lines h
  obtain ⟨_, ⟨c0, r0, e0, hc0⟩, _⟩ := header_shape h
  have htrim : trim (joinWith ['\n'] d.lines) = joinWith ['\n'] (d.header :: d.propLines) := by
    have e : joinWith ['\n'] d.lines = d.indent ++ joinWith ['\n'] (d.header :: d.propLines) := by
      unfold EnvDecl.lines
      by_cases hp : d.propLines = []
      · rw [hp]; rfl
      · rw [joinWith_cons_nl _ hp, joinWith_cons_nl _ hp]; simp
    rw [e, trim_ws_left h.indent.1]
    apply trim_id
    · right
      by_cases hp : d.propLines = []
      · rw [hp]; exact ⟨c0, r0, e0, hc0⟩
      · rw [joinWith_cons_nl _ hp, e0]; exact ⟨c0, _, rfl, hc0⟩
    · right
      apply joinWith_last (by simp)
      intro l hm
      apply (hl l _).2
      rcases List.mem_cons.1 hm with rfl | hm
      · simp
      · exact List.mem_cons_of_mem _ (List.mem_cons_of_mem _ hm)
  have hlines : Silverfox.lines (joinWith ['\n'] (d.header :: d.propLines)) = d.header :: d.propLines := by
    apply lines_join'
    intro l hm
    apply hl l _
    rcases List.mem_cons.1 hm with rfl | hm
    · simp
    · exact List.mem_cons_of_mem _ (List.mem_cons_of_mem _ hm)
  have hlines2 : Silverfox.lines (joinWith ['\n'] d.propLines) = d.propLines := by
    apply lines_join'
    intro l hm
    exact hl l (List.mem_cons_of_mem _ (List.mem_cons_of_mem _ hm))
  unfold Envelope.parse
  rw [htrim, hlines]
  simp only [bind, Except.bind]
  unfold EnvDecl.header
  rw [header_read env fmt account d.gap d.name d.kind d.due d.starting sd f h.name h.due h.starting]
  simp only [hlines2]
  exact body_read dec d.props _ h.props

/-! ### Accounts -/

/-- A declaration with its meaning: the schedule and the starting date. -/
abbrev MeantDecl (M : Type) := EnvDecl M × Frequency × Option Date

def MeantDecl.envelope (account : Str) (x : MeantDecl M) : Envelope M := x.1.envelope x.2.1 x.2.2 account

theorem envelope_name (d : EnvDecl M) (f : Frequency) (sd : Option Date) (account : Str) :
    (d.envelope f sd account).name = d.name ∧ (d.envelope f sd account).kind = d.kind ∧
    (d.envelope f sd account).account = account ∧ (d.envelope f sd account).freq = f ∧
    (d.envelope f sd account).starting = sd := by
  unfold EnvDecl.envelope
  have key : ∀ (ps : List (Str × Str × PropLine M)) (e : Envelope M),
      let r := ps.foldl (fun e p => p.2.2.apply e) e
      r.name = e.name ∧ r.kind = e.kind ∧ r.account = e.account ∧ r.freq = e.freq ∧ r.starting = e.starting := by
    intro ps
    induction ps with
    | nil => intro e; simp
    | cons p ps ih =>
      intro e
      have := ih (p.2.2.apply e)
      simp only [List.foldl_cons]
      have h0 : (p.2.2.apply e).name = e.name ∧ (p.2.2.apply e).kind = e.kind ∧
          (p.2.2.apply e).account = e.account ∧ (p.2.2.apply e).freq = e.freq ∧
          (p.2.2.apply e).starting = e.starting := by
        cases p.2.2 <;> simp [PropLine.apply]
      obtain ⟨a1, a2, a3, a4, a5⟩ := this
      obtain ⟨b1, b2, b3, b4, b5⟩ := h0
      exact ⟨a1.trans b1, a2.trans b2, a3.trans b3, a4.trans b4, a5.trans b5⟩
  exact key _ _

theorem trim_decl_header {env : Env} {fmt : Str} {dec : Char} {d : EnvDecl M} {f : Frequency} {sd : Option Date}
    (h : d.Ok env fmt dec f sd) : (startsWith s%"expense" (trim (d.indent ++ d.header)) ||
      startsWith s%"goal" (trim (d.indent ++ d.header))) = true := by
  obtain ⟨_, h2, h3⟩ := header_shape h
  rw [trim_ws_left h.indent.1, trim_id (.inr h2) (.inr h3)]
  unfold EnvDecl.header headerText
  cases d.kind <;> simp [EnvelopeKind.text, startsWith, List.isPrefixOf]

theorem trim_decl_prop {dec : Char} {p : PropLine M} (hp : p.Ok dec) {indent gap : Str} (hi : allWs indent) :
    (startsWith s%"expense" (trim (p.text indent gap)) || startsWith s%"goal" (trim (p.text indent gap))) = false := by
  obtain ⟨r', c', hv', hc'⟩ := hp.last
  have : trim (p.text indent gap) = p.key ++ ' ' :: (gap ++ p.value) := by
    unfold PropLine.text
    rw [trim_ws_left hi]
    apply trim_id
    · right
      cases p <;> exact ⟨_, _, rfl, by decide⟩
    · right
      refine ⟨p.key ++ ' ' :: (gap ++ r'), c', ?_, hc'⟩
      rw [hv']; simp
  rw [this]
  cases p <;> simp [PropLine.key, startsWith, List.isPrefixOf]

theorem collect_props (env : Env) (dec : Char) (fmt : Str) (rest : List Str) (a : Account M) :
    ∀ (ps : List (Str × Str × PropLine M)) (chunk : Str),
    (∀ p ∈ ps, allWs p.1 ∧ noNl p.1 ∧ allWs p.2.1 ∧ noNl p.2.1 ∧ p.2.2.Ok dec) →
    Account.parseLines env dec fmt ((ps.map fun p => p.2.2.text p.1 p.2.1) ++ rest) a chunk =
      Account.parseLines env dec fmt rest a (joinWith ['\n'] (chunk :: ps.map fun p => p.2.2.text p.1 p.2.1))
  | [], chunk, _ => rfl
  | p :: ps, chunk, h => by
    obtain ⟨q1, q2, q3, q4, q5⟩ := h p (by simp)
    rw [List.map_cons, List.cons_append, Account.parseLines, trim_decl_prop q5 q1]
    simp only [Bool.false_eq_true, if_false]
    rw [collect_props env dec fmt rest a ps _ fun q hq => h q (by simp [hq])]
    congr 1
    rw [joinWith_cons_nl chunk (by simp)]
    by_cases hps : ps = []
    · subst hps; rfl
    · rw [joinWith_cons_nl _ (by simpa using hps), joinWith_cons_nl _ (by simpa using hps)]
      simp

/-- The envelopes of a kind. -/
def ofKind (k : EnvelopeKind) (ds : List (MeantDecl M)) : List (MeantDecl M) := ds.filter fun x => x.1.kind = k

theorem parseLines_decls (env : Env) (dec : Char) (fmt name : Str) : ∀ (ds : List (MeantDecl M)) (a a' : Account M)
    (chunk : Str), (∀ x ∈ ds, x.1.Ok env fmt dec x.2.1 x.2.2) →
    a.flush env chunk dec fmt = .ok a' → a'.name = name →
    (a'.expenses.map (·.name) ++ (ofKind .expense ds).map (·.1.name)).Nodup →
    (a'.goals.map (·.name) ++ (ofKind .goal ds).map (·.1.name)).Nodup →
    Account.parseLines env dec fmt (ds.flatMap (·.1.lines)) a chunk = .ok ⟨name,
      a'.expenses ++ (ofKind .expense ds).map (MeantDecl.envelope name),
      a'.goals ++ (ofKind .goal ds).map (MeantDecl.envelope name), a'.real⟩
  | [], a, a', chunk, _, hf, hn, _, _ => by
    simp only [List.flatMap_nil, Account.parseLines, hf, ofKind, List.filter_nil, List.map_nil, List.append_nil]
    subst hn
    rfl
  | x :: ds, a, a', chunk, hok, hf, hn, he, hg => by
    have hx := hok x (by simp)
    have hd : x.1.lines = (x.1.indent ++ x.1.header) :: (x.1.props.map fun p => p.2.2.text p.1 p.2.1) := rfl
    rw [List.flatMap_cons, hd, List.cons_append, Account.parseLines, trim_decl_header hx]
    simp only [if_true, hf, bind, Except.bind]
    rw [collect_props env dec fmt _ a' x.1.props _ hx.props, ← hd]
    obtain ⟨n1, n2, _⟩ := envelope_name x.1 x.2.1 x.2.2 name
    -- the envelope is added when its lines are complete
    have hflush : ∀ a'' : Account M, a'.addEnvelope (MeantDecl.envelope name x) = .ok a'' →
        a'.flush env (joinWith ['\n'] x.1.lines) dec fmt = .ok a'' := by
      intro a'' h
      unfold Account.flush
      have hne : (trim (joinWith ['\n'] x.1.lines)).isEmpty = false := by
        cases hb : (trim (joinWith ['\n'] x.1.lines)).isEmpty with
        | false => rfl
        | true =>
          exfalso
          have h1 : trim (joinWith ['\n'] x.1.lines) = [] := by simpa using hb
          rw [trim_eq_nil] at h1
          obtain ⟨r, c, e, hc⟩ := joinWith_last (ls := x.1.lines) (by rw [hd]; simp)
            fun l hl => (decl_lines hx l (List.mem_cons_of_mem _ hl)).2
          have := h1 c (by rw [e]; simp)
          rw [hc] at this
          cases this
      simp only [hne, Bool.false_eq_true, if_false, bind, Except.bind]
      rw [decl_read env fmt a'.name dec x.1 x.2.1 x.2.2 hx, hn]
      exact h
    cases hk : x.1.kind with
    | expense =>
      have e1 : ofKind .expense (x :: ds) = x :: ofKind .expense ds := by simp [ofKind, hk]
      have e2 : ofKind .goal (x :: ds) = ofKind .goal ds := by simp [ofKind, hk]
      rw [e1] at he ⊢
      rw [e2] at hg ⊢
      have hadd : a'.addEnvelope (MeantDecl.envelope name x) =
          .ok { a' with expenses := a'.expenses ++ [MeantDecl.envelope name x] } := by
        unfold Account.addEnvelope
        have hk' : (MeantDecl.envelope name x).kind = .expense := by rw [← hk]; exact n2
        rw [hk']
        simp only
        rw [if_neg]
        intro hany
        rw [List.any_eq_true] at hany
        obtain ⟨y, hy, hyn⟩ := hany
        have hyn : y.name = x.1.name := by
          have : y.name = (MeantDecl.envelope name x).name := by simpa using hyn
          rw [this]; exact n1
        rw [List.nodup_append] at he
        exact he.2.2 _ (List.mem_map_of_mem hy) _ (by simp) hyn
      rw [parseLines_decls env dec fmt name ds a' _ _ (fun y hy => hok y (by simp [hy])) (hflush _ hadd) hn ?_ hg]
      · simp
      · have : (MeantDecl.envelope name x).name = x.1.name := n1
        simpa [this] using he
    | goal =>
      have e1 : ofKind .goal (x :: ds) = x :: ofKind .goal ds := by simp [ofKind, hk]
      have e2 : ofKind .expense (x :: ds) = ofKind .expense ds := by simp [ofKind, hk]
      rw [e1] at hg ⊢
      rw [e2] at he ⊢
      have hadd : a'.addEnvelope (MeantDecl.envelope name x) =
          .ok { a' with goals := a'.goals ++ [MeantDecl.envelope name x] } := by
        unfold Account.addEnvelope
        have hk' : (MeantDecl.envelope name x).kind = .goal := by rw [← hk]; exact n2
        rw [hk']
        simp only
        rw [if_neg]
        intro hany
        rw [List.any_eq_true] at hany
        obtain ⟨y, hy, hyn⟩ := hany
        have hyn : y.name = x.1.name := by
          have : y.name = (MeantDecl.envelope name x).name := by simpa using hyn
          rw [this]; exact n1
        rw [List.nodup_append] at hg
        exact hg.2.2 _ (List.mem_map_of_mem hy) _ (by simp) hyn
      rw [parseLines_decls env dec fmt name ds a' _ _ (fun y hy => hok y (by simp [hy])) (hflush _ hadd) hn he ?_]
      · simp
      · have : (MeantDecl.envelope name x).name = x.1.name := n1
        simpa [this] using hg

/-- Specification: the envelope is the one that is written. -/
structure IsWritten (account : Str) (x : MeantDecl M) (e : Envelope M) : Prop where
  name : e.name = x.1.name
  kind : e.kind = x.1.kind
  account : e.account = account
  freq : e.freq = x.2.1
  starting : e.starting = x.2.2
  /-- the last amount written, or nothing -/
  amount : e.amount = ((x.1.props.filterMap fun p => match p.2.2 with
    | .amount _ a => some a
    | _ => none).getLast?).getD Amount.zero
  /-- the last funding method written, or manual -/
  funding : e.funding = ((x.1.props.filterMap fun p => match p.2.2 with
    | .funding f => some f
    | _ => none).getLast?).getD .manual
  /-- the accounts of the `for` lines -/
  auto : ∀ acc, acc ∈ e.auto ↔ ∃ p ∈ x.1.props, p.2.2 = .forAccount acc
  /-- no money yet, in the currency of the envelope -/
  now : e.now = ⟨Mag.zero, e.amount.sym⟩
  next : e.next = ⟨Mag.zero, e.amount.sym⟩

theorem getLast?_getD_cons {α : Type} (a d : α) (l : List α) : (a :: l).getLast?.getD d = l.getLast?.getD a := by
  cases l with
  | nil => rfl
  | cons b l => simp [List.getLast?_cons]

theorem isWritten (account : Str) (x : MeantDecl M) : IsWritten account x (MeantDecl.envelope account x) := by
  obtain ⟨n1, n2, n3, n4, n5⟩ := envelope_name x.1 x.2.1 x.2.2 account
  have key : ∀ (ps : List (Str × Str × PropLine M)) (e : Envelope M), e.now = ⟨Mag.zero, e.amount.sym⟩ →
      e.next = ⟨Mag.zero, e.amount.sym⟩ →
      let r := ps.foldl (fun e p => p.2.2.apply e) e
      r.amount = ((ps.filterMap fun p => match p.2.2 with
        | .amount _ a => some a
        | _ => none).getLast?).getD e.amount ∧
      r.funding = ((ps.filterMap fun p => match p.2.2 with
        | .funding f => some f
        | _ => none).getLast?).getD e.funding ∧
      (∀ acc, acc ∈ r.auto ↔ acc ∈ e.auto ∨ ∃ p ∈ ps, p.2.2 = .forAccount acc) ∧
      r.now = ⟨Mag.zero, r.amount.sym⟩ ∧ r.next = ⟨Mag.zero, r.amount.sym⟩ := by
    intro ps
    induction ps with
    | nil => intro e h1 h2; simp [h1, h2]
    | cons p ps ih =>
      intro e h1 h2
      simp only [List.foldl_cons]
      obtain ⟨i1, g, q⟩ := p
      cases q with
      | forAccount acc =>
        obtain ⟨a1, a2, a3, a4, a5⟩ := ih ((PropLine.forAccount acc).apply e) h1 h2
        refine ⟨a1, a2, fun y => ?_, a4, a5⟩
        rw [a3 y]
        have : y ∈ ((PropLine.forAccount acc : PropLine M).apply e).auto ↔ y ∈ e.auto ∨ y = acc := by
          simp only [PropLine.apply, setInsert]
          split
          · rename_i hc
            have : acc ∈ e.auto := by simpa using hc
            constructor
            · exact Or.inl
            · rintro (h | rfl)
              · exact h
              · exact this
          · simp
        rw [this]
        simp only [List.mem_cons, exists_eq_or_imp, PropLine.forAccount.injEq]
        constructor
        · rintro ((h | rfl) | h)
          · exact .inl h
          · exact .inr (.inl rfl)
          · exact .inr (.inr h)
        · rintro (h | h | h)
          · exact .inl (.inl h)
          · exact .inl (.inr h.symm)
          · exact .inr h
      | amount t a =>
        obtain ⟨a1, a2, a3, a4, a5⟩ := ih ((PropLine.amount t a).apply e)
          (by simp [PropLine.apply, h1]) (by simp [PropLine.apply, h2])
        refine ⟨?_, a2, fun y => ?_, a4, a5⟩
        · rw [a1]
          simp only [List.filterMap_cons, PropLine.apply]
          rw [getLast?_getD_cons]
        · rw [a3 y]
          simp [PropLine.apply]
      | funding f =>
        obtain ⟨a1, a2, a3, a4, a5⟩ := ih ((PropLine.funding f).apply e) h1 h2
        refine ⟨a1, ?_, fun y => ?_, a4, a5⟩
        · rw [a2]
          simp only [List.filterMap_cons, PropLine.apply]
          rw [getLast?_getD_cons]
        · rw [a3 y]
          simp [PropLine.apply]
  obtain ⟨a1, a2, a3, a4, a5⟩ := key x.1.props {
    name := x.1.name, amount := Amount.zero, kind := x.1.kind, auto := [], freq := x.2.1, funding := .manual,
    starting := x.2.2, next := Amount.zero, now := Amount.zero, account := account, lastTx := Date.zero } rfl rfl
  exact ⟨n1, n2, n3, n4, n5, a1, a2, fun acc => (a3 acc).trans (by simp), a4, a5⟩

/-- The lines of an account declaration are read as this account. -/
theorem account_read (env : Env) (fmt word gap name : Str) (dec : Char)
    (ds : List (MeantDecl M)) (hword : isWord word ∧ NoComment word) (hgap : allWs gap ∧ gap ≠ [] ∧ noNl gap)
    (hname : isWord name ∧ NoComment name)
    (hok : ∀ x ∈ ds, x.1.Ok env fmt dec x.2.1 x.2.2)
    (huniq : ∀ k, ((ofKind k ds).map (·.1.name)).Nodup) :
    Account.parse env (joinWith ['\n'] ((word ++ gap ++ name) :: ds.flatMap (·.1.lines))) dec fmt =
      .ok ⟨name, (ofKind .expense ds).map (MeantDecl.envelope name),
        (ofKind .goal ds).map (MeantDecl.envelope name), []⟩ := by
  have hl : lines (joinWith ['\n'] ((word ++ gap ++ name) :: ds.flatMap (·.1.lines))) =
      (word ++ gap ++ name) :: ds.flatMap (·.1.lines) := by
    apply lines_join'
    intro l hl
    rcases List.mem_cons.1 hl with rfl | hl
    · refine ⟨?_, word ++ gap ++ name.dropLast, name.getLast hname.1.1, ?_, hname.1.2 _ (List.getLast_mem _)⟩
      · rw [noNl_append, noNl_append]
        exact ⟨⟨noNl_isWord hword.1, hgap.2.2⟩, noNl_isWord hname.1⟩
      · have := List.dropLast_append_getLast hname.1.1
        rw [List.append_assoc (word ++ gap), this]
    · obtain ⟨x, hx, hm⟩ := List.mem_flatMap.1 hl
      exact decl_lines (hok x hx) l (List.mem_cons_of_mem _ hm)
  have hh : Account.parseHeader (word ++ gap ++ name) = .ok name := by
    unfold Account.parseHeader
    rw [removeComments_eq_rc, List.append_assoc, rc_gap ((noComment_iff _).1 hword.2) hgap.1 hgap.2.1,
      (noComment_iff _).1 hname.2, ← List.append_assoc, splitWs_cons_gap hword.1 hgap.1 hgap.2.1,
      splitWs_word hname.1]
  have hp := parseLines_decls env dec fmt name ds ⟨name, [], [], []⟩ ⟨name, [], [], []⟩ [] hok rfl rfl
    (by simpa using huniq .expense) (by simpa using huniq .goal)
  unfold Account.parse
  rw [hl]
  simp only [hh, bind, Except.bind]
  rw [hp]
  rfl

/-- C91. An account declaration, written line by line, is read as the account with exactly the envelopes that
are written, the expenses and the goals in the order of the declaration. -/
theorem C91_declaration_means_what_it_says (env : Env) (fmt word gap name : Str) (dec : Char)
    (ds : List (MeantDecl M)) (hword : isWord word ∧ NoComment word) (hgap : allWs gap ∧ gap ≠ [] ∧ noNl gap)
    (hname : isWord name ∧ NoComment name)
    (hok : ∀ x ∈ ds, x.1.Ok env fmt dec x.2.1 x.2.2)
    (huniq : ∀ k, ((ofKind k ds).map (·.1.name)).Nodup) :
    ∃ a : Account M,
      Account.parse env (joinWith ['\n'] ((word ++ gap ++ name) :: ds.flatMap (·.1.lines))) dec fmt = .ok a ∧
      a.name = name ∧ a.real = [] ∧
      List.Forall₂ (IsWritten name) (ofKind .expense ds) a.expenses ∧
      List.Forall₂ (IsWritten name) (ofKind .goal ds) a.goals := by
  refine ⟨_, account_read env fmt word gap name dec ds hword hgap hname hok huniq, rfl, rfl, ?_, ?_⟩
  · rw [List.forall₂_map_right_iff]
    exact List.forall₂_same.2 fun x _ => isWritten name x
  · rw [List.forall₂_map_right_iff]
    exact List.forall₂_same.2 fun x _ => isWritten name x

/-! ### A declaration -/

/-- The declaration
```
account assets:bank
    expense  food due every Friday starting 2024/06/01
      amount   $5
      for expenses:food
      funding aggressive
    goal trip by 2024/06/01
    expense rent due every 5th
```
-/
def sampleDecl : List (MeantDecl Rat) :=
  [(⟨s%"    ", .expense, s%"  ", s%"food", .due s%"every Friday", some s%"2024/06/01",
      [(s%"      ", s%"  ", .amount s%"$5" ⟨5, some s%"$"⟩), (s%"      ", [], .forAccount s%"expenses:food"),
       (s%"      ", [], .funding .aggressive)]⟩, .weekly .fri, some ⟨2024, 6, 1, by decide⟩),
   (⟨s%"    ", .goal, s%" ", s%"trip", .byDate s%"2024/06/01", none, []⟩, .once ⟨2024, 6, 1, by decide⟩, none),
   (⟨s%"    ", .expense, s%" ", s%"rent", .due s%"every 5th", none, []⟩, .monthly 5, none)]

instance (s : Str) : Decidable (noNl s) := by unfold noNl; infer_instance

example : joinWith s%"\n" ((s%"account" ++ s%" " ++ s%"assets:bank") :: sampleDecl.flatMap (·.1.lines)) =
    s%"account assets:bank\n    expense  food due every Friday starting 2024/06/01\n      amount   $5\n      for expenses:food\n      funding aggressive\n    goal trip by 2024/06/01\n    expense rent due every 5th" := by
  decide +kernel

/-- The hypotheses hold of it. -/
example : (∀ x ∈ sampleDecl, x.1.Ok (stdEnv ⟨2024, 6, 15, by decide⟩) s%"%Y/%m/%d" '.' x.2.1 x.2.2) ∧
    ∀ k, ((ofKind k sampleDecl).map (·.1.name)).Nodup := by
  refine ⟨?_, fun k => by cases k <;> decide⟩
  intro x hx
  simp only [sampleDecl, List.mem_cons, List.not_mem_nil, or_false] at hx
  rcases hx with rfl | rfl | rfl
  · refine ⟨by decide, by decide, ⟨by decide, by decide, by decide, by decide, by decide⟩, ?_, ?_, ?_⟩
    · exact .due _ _ (.weekly s%"Friday" .fri (.inr (by decide))) (by decide)
    · exact .some _ _ (by decide) (by decide +kernel)
    · intro p hp
      simp only [List.mem_cons, List.not_mem_nil, or_false] at hp
      rcases hp with rfl | rfl | rfl
      · exact ⟨by decide, by decide, by decide, by decide, by decide, by decide, ⟨_, _, rfl, by decide⟩,
          ⟨s%"$", '5', rfl, by decide⟩, by show Amount.parse s%"$5" '.' = .ok (⟨5, some s%"$"⟩ : Amount Rat); decide +kernel⟩
      · exact ⟨by decide, by decide, by decide, by decide, by decide, by decide, ⟨_, _, rfl, by decide⟩,
          ⟨s%"expenses:foo", 'd', rfl, by decide⟩, by show isWord s%"expenses:food"; decide⟩
      · exact ⟨by decide, by decide, by decide, by decide, by decide, by decide, ⟨_, _, rfl, by decide⟩,
          ⟨s%"aggressiv", 'e', rfl, by decide⟩, trivial⟩
  · refine ⟨by decide, by decide, ⟨by decide, by decide, by decide, by decide, by decide⟩, ?_, .none, ?_⟩
    · exact .byDate _ _ (.once s%"2024/06/01" _ (by decide) (by decide +kernel))
    · intro p hp; cases hp
  · refine ⟨by decide, by decide, ⟨by decide, by decide, by decide, by decide, by decide⟩, ?_, .none, ?_⟩
    · exact .due _ _ (.monthly s%"5th" 5 ⟨by decide, s%"th", by decide, by decide, by decide⟩) (by decide)
    · intro p hp; cases hp

/-- C91. The conditions on names are needed: envelopes named `starting` or `by` are refused. So are a schedule
after two spaces and a header whose comment has the word `starting`, although the same header without the comment
is read. -/
theorem C91_headers_misread :
    let read : Str → Res (Envelope Rat) := fun s =>
      Envelope.fromHeader (stdEnv ⟨2024, 6, 15, by decide⟩) s s%"%Y/%m/%d" s%"assets:bank"
    (∃ k, read s%"expense starting due every friday" = .error k) ∧
    (∃ k, read s%"expense by due every friday" = .error k) ∧
    (∃ k, read s%"expense food due  every friday" = .error k) ∧
    (∃ k, read s%"expense food due every 5th ; starting soon" = .error k) ∧
    (∃ e, read s%"expense food due every 5th" = .ok e ∧ (e.freq = .monthly 5)) ∧
    (∃ e, read s%"expense food due every 5th ; soon" = .ok e ∧ (e.freq = .monthly 5)) := by
  refine ⟨⟨.err .parse, ?_⟩, ⟨.err .parse, ?_⟩, ⟨.err .parse, ?_⟩, ⟨.err .parse, ?_⟩, ?_, ?_⟩ <;> decide +kernel

/-- C91. More is read as a schedule than is one: the digits of a word are put together, the 0th and the 99th are
days of a month, and a name with `no` before a word with `date` means that there is no date. -/
theorem C91_schedules_not_checked :
    let read : Str → Res (Envelope Rat) := fun s =>
      Envelope.fromHeader (stdEnv ⟨2024, 6, 15, by decide⟩) s s%"%Y/%m/%d" s%"assets:bank"
    (∃ e, read s%"expense food due every 1x5" = .ok e ∧ (e.freq = .monthly 15)) ∧
    (∃ e, read s%"expense food due every 0th" = .ok e ∧ (e.freq = .monthly 0)) ∧
    (∃ e, read s%"expense food due every 99th" = .ok e ∧ (e.freq = .monthly 99)) ∧
    (∃ e, read s%"goal volcano dates due every 5th" = .ok e ∧ (e.freq = .never)) := by
  refine ⟨?_, ?_, ?_, ?_⟩ <;> decide +kernel

end Silverfox
