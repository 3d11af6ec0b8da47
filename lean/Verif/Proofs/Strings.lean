import Verif.Proofs.Text

/-
More lemmas about strings: words, trimming, lines.
-/

namespace Silverfox

/-- Only whitespace. -/
def allWs (s : Str) : Prop := ∀ c ∈ s, isWs c = true

theorem allWs_nil : allWs [] := by simp [allWs]

theorem allWs_append {a b : Str} : allWs (a ++ b) ↔ allWs a ∧ allWs b := by
  simp only [allWs, List.mem_append]
  exact ⟨fun h => ⟨fun c hc => h c (Or.inl hc), fun c hc => h c (Or.inr hc)⟩,
    fun h c hc => hc.elim (h.1 c) (h.2 c)⟩

instance (s : Str) : Decidable (allWs s) := by unfold allWs; infer_instance

theorem isWs_nl : isWs '\n' = true := by decide
theorem isWs_cr : isWs '\r' = true := by decide
theorem isWs_space : isWs ' ' = true := by decide
theorem isWs_slash : isWs '/' = false := by decide
theorem isWs_semi : isWs ';' = false := by decide

/-! ### Trimming -/

theorem dropWhile_append_all {α : Type} {p : α → Bool} {a b : List α} (h : ∀ x ∈ a, p x = true) :
    (a ++ b).dropWhile p = b.dropWhile p := by
  induction a with
  | nil => rfl
  | cons x a ih => simp [h x (by simp), ih fun y hy => h y (by simp [hy])]

theorem dropWhile_append_exists {α : Type} {p : α → Bool} {a b : List α} (h : ∃ x ∈ a, p x = false) :
    (a ++ b).dropWhile p = a.dropWhile p ++ b := by
  induction a with
  | nil => obtain ⟨x, hx, _⟩ := h; cases hx
  | cons x a ih =>
    cases hp : p x with
    | false => simp [hp]
    | true =>
      simp only [List.cons_append, List.dropWhile_cons, hp, if_true]
      obtain ⟨y, hy, hpy⟩ := h
      rcases List.mem_cons.1 hy with rfl | hy
      · rw [hp] at hpy; cases hpy
      · exact ih ⟨y, hy, hpy⟩

theorem trimStart_ws {a : Str} (h : allWs a) (b : Str) : trimStart (a ++ b) = trimStart b :=
  dropWhile_append_all h

theorem trimStart_ink {a : Str} (h : ¬ allWs a) (b : Str) : trimStart (a ++ b) = trimStart a ++ b := by
  apply dropWhile_append_exists
  unfold allWs at h
  simpa using h

theorem trimEnd_ws (a : Str) {b : Str} (h : allWs b) : trimEnd (a ++ b) = trimEnd a := by
  unfold trimEnd
  rw [List.reverse_append, dropWhile_append_all]
  intro x hx
  exact h x (by simpa using hx)

theorem trimEnd_ink (a : Str) {b : Str} (h : ¬ allWs b) : trimEnd (a ++ b) = a ++ trimEnd b := by
  unfold trimEnd
  rw [List.reverse_append, dropWhile_append_exists]
  · simp
  · unfold allWs at h
    simpa using h

theorem trimStart_allWs {a : Str} (h : allWs a) : trimStart a = [] := by
  have := trimStart_ws h []
  simpa [trimStart] using this

theorem trimEnd_allWs {a : Str} (h : allWs a) : trimEnd a = [] := by
  have := trimEnd_ws [] h
  simpa [trimEnd] using this

theorem trim_allWs {a : Str} (h : allWs a) : trim a = [] := by
  unfold trim; rw [trimStart_allWs h]; rfl

theorem trimStart_spec (s : Str) : ∃ a, allWs a ∧ s = a ++ trimStart s ∧
    (trimStart s = [] ∨ ∃ c r, trimStart s = c :: r ∧ isWs c = false) := by
  induction s with
  | nil => exact ⟨[], allWs_nil, rfl, Or.inl rfl⟩
  | cons c s ih =>
    cases hc : isWs c with
    | true =>
      obtain ⟨a, h1, h2, h3⟩ := ih
      have : trimStart (c :: s) = trimStart s := by simp [trimStart, hc]
      rw [this]
      refine ⟨c :: a, ?_, by rw [List.cons_append, ← h2], h3⟩
      intro x hx
      rcases List.mem_cons.1 hx with rfl | hx
      · exact hc
      · exact h1 x hx
    | false =>
      have : trimStart (c :: s) = c :: s := by simp [trimStart, hc]
      rw [this]
      exact ⟨[], allWs_nil, rfl, Or.inr ⟨c, s, rfl, hc⟩⟩

theorem trimEnd_spec (s : Str) : ∃ b, allWs b ∧ s = trimEnd s ++ b ∧
    (trimEnd s = [] ∨ ∃ r c, trimEnd s = r ++ [c] ∧ isWs c = false) := by
  obtain ⟨a, h1, h2, h3⟩ := trimStart_spec s.reverse
  refine ⟨a.reverse, fun c hc => h1 c (by simpa using hc), ?_, ?_⟩
  · have := congrArg List.reverse h2
    rw [List.reverse_reverse, List.reverse_append] at this
    exact this
  · have : trimEnd s = (trimStart s.reverse).reverse := rfl
    rw [this]
    rcases h3 with h | ⟨c, r, h, hc⟩
    · left; rw [h]; rfl
    · right; rw [h]; exact ⟨r.reverse, c, by simp, hc⟩

theorem trimStart_id {s : Str} (h : s = [] ∨ ∃ c r, s = c :: r ∧ isWs c = false) : trimStart s = s := by
  rcases h with rfl | ⟨c, r, rfl, hc⟩
  · rfl
  · simp [trimStart, hc]

theorem trimEnd_id {s : Str} (h : s = [] ∨ ∃ r c, s = r ++ [c] ∧ isWs c = false) : trimEnd s = s := by
  rcases h with rfl | ⟨r, c, rfl, hc⟩
  · rfl
  · rw [trimEnd_ink r (by intro h; have := h c (by simp); rw [hc] at this; cases this)]
    simp [trimEnd, hc]

theorem trim_eq_nil {s : Str} : trim s = [] ↔ allWs s := by
  refine ⟨fun h => ?_, trim_allWs⟩
  obtain ⟨a, h1, h2, h3⟩ := trimStart_spec s
  rcases h3 with h3 | ⟨c, r, h3, hc⟩
  · rw [h2, h3]; simpa using h1
  · exfalso
    unfold trim at h
    obtain ⟨b, hb, h4, _⟩ := trimEnd_spec (trimStart s)
    rw [h, List.nil_append] at h4
    have := hb c (by rw [← h4, h3]; simp)
    rw [hc] at this; cases this

theorem trim_spec (s : Str) : ∃ a b, allWs a ∧ allWs b ∧ s = a ++ trim s ++ b := by
  obtain ⟨a, h1, h2, _⟩ := trimStart_spec s
  obtain ⟨b, h3, h4, _⟩ := trimEnd_spec (trimStart s)
  refine ⟨a, b, h1, h3, ?_⟩
  unfold trim
  rw [List.append_assoc, ← h4, ← h2]

theorem trimEnd_trim (s : Str) : trimEnd (trim s) = trim s := by
  obtain ⟨_, _, _, h⟩ := trimEnd_spec (trimStart s)
  exact trimEnd_id h

theorem trimStart_trim (s : Str) : trimStart (trim s) = trim s := by
  by_cases hs : allWs s
  · rw [trim_allWs hs]; rfl
  · obtain ⟨a, h1, h2, h3⟩ := trimStart_spec s
    rcases h3 with h3 | ⟨c, r, h3, hc⟩
    · exfalso; apply hs; rw [h2, h3]; simpa using h1
    · apply trimStart_id
      right
      unfold trim
      obtain ⟨b, hb, h4, _⟩ := trimEnd_spec (trimStart s)
      cases he : trimEnd (trimStart s) with
      | nil =>
        exfalso
        rw [he, List.nil_append, h3] at h4
        have := hb c (by rw [← h4]; simp)
        rw [hc] at this; cases this
      | cons d q =>
        rw [he, h3] at h4
        simp only [List.cons_append, List.cons.injEq] at h4
        exact ⟨d, q, rfl, by rw [← h4.1]; exact hc⟩

theorem trim_trim (s : Str) : trim (trim s) = trim s := by
  show trimEnd (trimStart (trim s)) = trim s
  rw [trimStart_trim, trimEnd_trim]

theorem trim_ws_left {a : Str} (h : allWs a) (b : Str) : trim (a ++ b) = trim b := by
  unfold trim; rw [trimStart_ws h]

theorem trim_ws_right (a : Str) {b : Str} (h : allWs b) : trim (a ++ b) = trim a := by
  unfold trim
  by_cases ha : allWs a
  · rw [trimStart_ws ha, trimStart_allWs h, trimStart_allWs ha]
  · rw [trimStart_ink ha, trimEnd_ws _ h]

theorem trim_id {s : Str} (h1 : s = [] ∨ ∃ c r, s = c :: r ∧ isWs c = false)
    (h2 : s = [] ∨ ∃ r c, s = r ++ [c] ∧ isWs c = false) : trim s = s := by
  unfold trim; rw [trimStart_id h1, trimEnd_id h2]

/-! ### Words -/

theorem splitWs_ws_cons {c : Char} (h : isWs c = true) (s : Str) : splitWs (c :: s) = splitWs s := by
  simp [splitWs, h]

theorem splitWs_allWs {s : Str} (h : allWs s) : splitWs s = [] := by
  induction s with
  | nil => rfl
  | cons c s ih =>
    rw [splitWs_ws_cons (h c (by simp))]
    exact ih fun x hx => h x (by simp [hx])

theorem splitWs_ws_left {a : Str} (h : allWs a) (b : Str) : splitWs (a ++ b) = splitWs b := by
  induction a with
  | nil => rfl
  | cons c a ih =>
    rw [List.cons_append, splitWs_ws_cons (h c (by simp))]
    exact ih fun x hx => h x (by simp [hx])

theorem splitWs_append_ws (a : Str) {w : Char} (hw : isWs w = true) (b : Str) :
    splitWs (a ++ w :: b) = splitWs a ++ splitWs b := by
  induction a with
  | nil => simp [splitWs_ws_cons hw, splitWs]
  | cons c a ih =>
    simp only [List.cons_append, splitWs]
    cases hc : isWs c with
    | true => simpa using ih
    | false =>
      simp only [Bool.false_eq_true, if_false]
      cases a with
      | nil =>
        have : startsInk (w :: b) = false := by simp [startsInk, hw]
        simp [startsInk, hw, splitWs, splitWs_ws_cons hw]
      | cons d a =>
        have h1 : startsInk (d :: a ++ w :: b) = startsInk (d :: a) := rfl
        rw [h1]
        cases hd : startsInk (d :: a) with
        | false => simp only [Bool.false_eq_true, if_false]; rw [ih]; rfl
        | true =>
          simp only [if_true]
          rw [ih]
          have : splitWs (d :: a) ≠ [] := by
            have hd' : isWs d = false := by simpa [startsInk] using hd
            simp only [splitWs, hd', Bool.false_eq_true, if_false]
            split
            · cases splitWs a <;> simp [consHead]
            · simp
          cases hs : splitWs (d :: a) with
          | nil => exact absurd hs this
          | cons t ts => rfl

theorem splitWs_ws_right (a : Str) {b : Str} (h : allWs b) : splitWs (a ++ b) = splitWs a := by
  cases b with
  | nil => simp
  | cons c b =>
    have hb : splitWs b = [] := splitWs_allWs fun x hx => h x (by simp [hx])
    rw [splitWs_append_ws a (h c (by simp)), hb, List.append_nil]

theorem splitWs_trim (s : Str) : splitWs (trim s) = splitWs s := by
  obtain ⟨a, b, ha, hb, h⟩ := trim_spec s
  conv => rhs; rw [h]
  rw [splitWs_ws_right _ hb, splitWs_ws_left ha]

theorem splitWs_trimEnd (s : Str) : splitWs (trimEnd s) = splitWs s := by
  obtain ⟨b, hb, h, _⟩ := trimEnd_spec s
  conv => rhs; rw [h]
  rw [splitWs_ws_right _ hb]

theorem splitWs_trimStart (s : Str) : splitWs (trimStart s) = splitWs s := by
  obtain ⟨b, hb, h, _⟩ := trimStart_spec s
  conv => rhs; rw [h]
  rw [splitWs_ws_left hb]

/-- A word: not empty, no whitespace. -/
def isWord (s : Str) : Prop := s ≠ [] ∧ ∀ c ∈ s, isWs c = false

theorem splitWs_word {s : Str} (h : isWord s) : splitWs s = [s] := by
  obtain ⟨h1, h2⟩ := h
  induction s with
  | nil => exact absurd rfl h1
  | cons c s ih =>
    have hc := h2 c (by simp)
    simp only [splitWs, hc, Bool.false_eq_true, if_false]
    cases s with
    | nil => simp [startsInk, splitWs]
    | cons d s =>
      have hd := h2 d (by simp)
      have : startsInk (d :: s) = true := by simp [startsInk, hd]
      rw [if_pos this, ih (by simp) (fun x hx => h2 x (List.mem_cons_of_mem _ hx))]
      rfl

theorem splitWs_isWord (s : Str) : ∀ t ∈ splitWs s, isWord t := by
  induction s with
  | nil => intro t ht; cases ht
  | cons c s ih =>
    intro t ht
    simp only [splitWs] at ht
    cases hc : isWs c with
    | true => simp only [hc, if_true] at ht; exact ih t ht
    | false =>
      simp only [hc, Bool.false_eq_true, if_false] at ht
      split at ht
      · cases hs : splitWs s with
        | nil =>
          rw [hs] at ht
          simp only [consHead, List.mem_singleton] at ht
          subst ht
          exact ⟨by simp, by simpa using hc⟩
        | cons u us =>
          rw [hs] at ht ih
          simp only [consHead, List.mem_cons] at ht
          rcases ht with rfl | ht
          · obtain ⟨_, h2⟩ := ih u (by simp)
            refine ⟨by simp, fun x hx => ?_⟩
            rcases List.mem_cons.1 hx with rfl | hx
            · exact hc
            · exact h2 x hx
          · exact ih t (by simp [ht])
      · rcases List.mem_cons.1 ht with rfl | ht
        · exact ⟨by simp, by simpa using hc⟩
        · exact ih t ht

theorem splitWs_eq_nil {s : Str} : splitWs s = [] ↔ allWs s := by
  refine ⟨fun h => ?_, splitWs_allWs⟩
  induction s with
  | nil => exact allWs_nil
  | cons c s ih =>
    simp only [splitWs] at h
    cases hc : isWs c with
    | true =>
      simp only [hc, if_true] at h
      intro x hx
      rcases List.mem_cons.1 hx with rfl | hx
      · exact hc
      · exact ih h x hx
    | false =>
      simp only [hc, Bool.false_eq_true, if_false] at h
      split at h
      · cases hs : splitWs s <;> simp [hs, consHead] at h
      · cases h

/-- Words joined by single spaces are found again. -/
theorem splitWs_join (ts : List Str) (h : ∀ t ∈ ts, isWord t) : splitWs (joinWith [' '] ts) = ts := by
  induction ts with
  | nil => rfl
  | cons t ts ih =>
    cases ts with
    | nil => exact splitWs_word (h t (by simp))
    | cons u us =>
      show splitWs (t ++ [' '] ++ joinWith [' '] (u :: us)) = _
      rw [List.append_assoc, List.singleton_append, splitWs_append_ws t isWs_space,
        splitWs_word (h t (by simp)), ih fun x hx => h x (by simp [hx])]
      rfl

/-! ### Lines -/

/-- Without line break. -/
def noNl (s : Str) : Prop := '\n' ∉ s

/-- Without a final carriage return. -/
def stripCr (s : Str) : Str := if s.getLast? = some '\r' then s.dropLast else s

theorem lines_cons_of {c : Char} {cs : Str} (h1 : c ≠ '\n') (h2 : ¬ (c = '\r' ∧ cs.head? = some '\n')) :
    lines (c :: cs) = consHead c (lines cs) := by
  simp [lines, h1, h2]

theorem lines_nl (cs : Str) : lines ('\n' :: cs) = [] :: lines cs := by simp [lines]

theorem lines_line (l : Str) (h : noNl l) (rest : Str) :
    lines (l ++ '\n' :: rest) = stripCr l :: lines rest := by
  induction l with
  | nil => simp [lines_nl, stripCr]
  | cons c l ih =>
    have hc : c ≠ '\n' := fun e => h (by simp [e])
    have hl : noNl l := fun e => h (by simp [e])
    rw [List.cons_append]
    cases l with
    | nil =>
      by_cases hr : c = '\r'
      · subst hr
        have : lines ('\r' :: ([] ++ '\n' :: rest)) = lines ('\n' :: rest) := by simp [lines]
        rw [this, lines_nl]
        simp [stripCr]
      · rw [lines_cons_of hc (by simp [hr]), List.nil_append, lines_nl]
        simp [consHead, stripCr, hr]
    | cons d l =>
      have hd : d ≠ '\n' := fun e => h (by simp [e])
      rw [lines_cons_of hc (by simp [hd]), ih hl]
      simp only [consHead, stripCr, List.getLast?_cons_cons]
      split <;> simp

theorem lines_last (l : Str) (h : noNl l) (hne : l ≠ []) : lines l = [l] := by
  induction l with
  | nil => exact absurd rfl hne
  | cons c l ih =>
    have hc : c ≠ '\n' := fun e => h (by simp [e])
    have hl : noNl l := fun e => h (by simp [e])
    cases l with
    | nil => simp [lines, hc, consHead]
    | cons d l =>
      have hd : d ≠ '\n' := fun e => h (by simp [e])
      rw [lines_cons_of hc (by simp [hd]), ih hl (by simp)]
      rfl

/-- A text is a number of complete lines and a rest without line break. -/
theorem lastLine (s : Str) : ∃ p l, s = p ++ l ∧ noNl l ∧ (p = [] ∨ ∃ q, p = q ++ ['\n']) := by
  induction s with
  | nil => exact ⟨[], [], rfl, by simp [noNl], Or.inl rfl⟩
  | cons c s ih =>
    obtain ⟨p, l, h1, h2, h3⟩ := ih
    rcases h3 with rfl | ⟨q, rfl⟩
    · by_cases hc : c = '\n'
      · subst hc
        exact ⟨['\n'], l, by rw [h1]; rfl, h2, Or.inr ⟨[], rfl⟩⟩
      · refine ⟨[], c :: l, by rw [h1]; rfl, ?_, Or.inl rfl⟩
        intro hm
        rcases List.mem_cons.1 hm with h | h
        · exact hc h.symm
        · exact h2 h
    · exact ⟨c :: (q ++ ['\n']), l, by rw [h1]; rfl, h2, Or.inr ⟨c :: q, rfl⟩⟩

theorem lines_append_complete (q rest : Str) :
    lines (q ++ '\n' :: rest) = lines (q ++ ['\n']) ++ lines rest := by
  induction q with
  | nil => simp [lines_nl, lines]
  | cons c q ih =>
    rw [List.cons_append, List.cons_append]
    by_cases hc : c = '\n'
    · subst hc; rw [lines_nl, lines_nl, ih]; rfl
    · by_cases hr : c = '\r' ∧ (q ++ '\n' :: rest).head? = some '\n'
      · have hr' : c = '\r' ∧ (q ++ ['\n']).head? = some '\n' := by
          refine ⟨hr.1, ?_⟩
          cases q with
          | nil => rfl
          | cons d q => simpa using hr.2
        have e1 : lines (c :: (q ++ '\n' :: rest)) = lines (q ++ '\n' :: rest) := by
          simp only [lines, hc, if_false, if_pos hr]
        have e2 : lines (c :: (q ++ ['\n'])) = lines (q ++ ['\n']) := by
          simp only [lines, hc, if_false, if_pos hr']
        rw [e1, e2, ih]
      · have hr' : ¬ (c = '\r' ∧ (q ++ ['\n']).head? = some '\n') := by
          intro h
          apply hr
          refine ⟨h.1, ?_⟩
          cases q with
          | nil => rfl
          | cons d q => simpa using h.2
        rw [lines_cons_of hc hr, lines_cons_of hc hr', ih]
        have : lines (q ++ ['\n']) ≠ [] := by
          clear ih hr hr'
          induction q with
          | nil => simp [lines_nl]
          | cons d q ih =>
            rw [List.cons_append]
            by_cases hd : d = '\n'
            · subst hd; rw [lines_nl]; simp
            · by_cases hr : d = '\r' ∧ (q ++ ['\n']).head? = some '\n'
              · have : lines (d :: (q ++ ['\n'])) = lines (q ++ ['\n']) := by
                  simp only [lines, hd, if_false, if_pos hr]
                rw [this]; exact ih
              · rw [lines_cons_of hd hr]
                cases lines (q ++ ['\n']) <;> simp [consHead]
        cases hl : lines (q ++ ['\n']) with
        | nil => exact absurd hl this
        | cons t ts => rfl

/-- Complete lines before do not interfere. -/
theorem lines_append (p rest : Str) (h : p = [] ∨ ∃ q, p = q ++ ['\n']) :
    lines (p ++ rest) = lines p ++ lines rest := by
  rcases h with rfl | ⟨q, rfl⟩
  · rfl
  · rw [List.append_assoc, List.singleton_append, lines_append_complete]

theorem lines_noNl (s : Str) : ∀ l ∈ lines s, noNl l := by
  induction s with
  | nil => intro l h; cases h
  | cons c s ih =>
    intro l hl
    simp only [lines] at hl
    split at hl
    · rcases List.mem_cons.1 hl with rfl | hl
      · simp [noNl]
      · exact ih l hl
    · rename_i hc
      split at hl
      · exact ih l hl
      · cases hs : lines s with
        | nil =>
          rw [hs] at hl
          simp only [consHead, List.mem_singleton] at hl
          subst hl
          simp only [noNl, List.mem_singleton]
          exact fun e => hc e.symm
        | cons t ts =>
          rw [hs] at hl ih
          simp only [consHead, List.mem_cons] at hl
          rcases hl with rfl | hl
          · intro hm
            rcases List.mem_cons.1 hm with h | h
            · exact hc h.symm
            · exact ih t (by simp) h
          · exact ih l (by simp [hl])

/-- Lines joined by line breaks are found again, if the last is not empty and none ends in a
carriage return. -/
theorem lines_join (ls : List Str) (h : ∀ l ∈ ls, noNl l ∧ l.getLast? ≠ some '\r')
    (hlast : ls.getLast? ≠ some []) : lines (joinWith ['\n'] ls) = ls := by
  induction ls with
  | nil => rfl
  | cons l ls ih =>
    cases ls with
    | nil =>
      have : l ≠ [] := by rintro rfl; exact hlast rfl
      exact lines_last l (h l (by simp)).1 this
    | cons m ms =>
      show lines (l ++ ['\n'] ++ joinWith ['\n'] (m :: ms)) = _
      rw [List.append_assoc, List.singleton_append, lines_line l (h l (by simp)).1,
        ih (fun x hx => h x (by simp [hx])) (by simpa [List.getLast?_cons_cons] using hlast)]
      have : stripCr l = l := by unfold stripCr; rw [if_neg (h l (by simp)).2]
      rw [this]

/-! ### Comments and whitespace -/

theorem startsMark_ws {c : Char} (h : isWs c = true) (s : Str) : startsMark (c :: s) = false := by
  rw [startsMark_cons]
  have h1 : c ≠ ';' := by rintro rfl; rw [isWs_semi] at h; cases h
  have h2 : c ≠ '/' := by rintro rfl; rw [isWs_slash] at h; cases h
  simp [h1, h2]

theorem rc_allWs {b : Str} (h : allWs b) : rc b = b := by
  induction b with
  | nil => rfl
  | cons c b ih =>
    simp only [rc, startsMark_ws (h c (by simp)), Bool.false_eq_true, if_false]
    rw [ih fun x hx => h x (by simp [hx])]

/-- Whitespace at the end stays at the end. -/
theorem rc_append_ws (a : Str) {b : Str} (h : allWs b) : ∃ b', allWs b' ∧ rc (a ++ b) = rc a ++ b' := by
  induction a with
  | nil => exact ⟨b, h, by simp [rc_allWs h, rc]⟩
  | cons c a ih =>
    have hm : startsMark (c :: a ++ b) = startsMark (c :: a) := by
      rw [List.cons_append, startsMark_cons, startsMark_cons]
      cases a with
      | nil =>
        cases b with
        | nil => rfl
        | cons d b =>
          have : d ≠ '/' := by
            rintro rfl
            have := h '/' (by simp)
            rw [isWs_slash] at this; cases this
          simp [this]
      | cons d a => rfl
    rw [List.cons_append] at hm ⊢
    simp only [rc, hm]
    split
    · exact ⟨[], allWs_nil, rfl⟩
    · obtain ⟨b', h1, h2⟩ := ih
      exact ⟨b', h1, by rw [h2]; rfl⟩

theorem trim_rc_ws (a : Str) {b : Str} (h : allWs b) : trim (rc (a ++ b)) = trim (rc a) := by
  obtain ⟨b', h1, h2⟩ := rc_append_ws a h
  rw [h2, trim_ws_right _ h1]

theorem splitWs_rc_ws (a : Str) {b : Str} (h : allWs b) : splitWs (rc (a ++ b)) = splitWs (rc a) := by
  obtain ⟨b', h1, h2⟩ := rc_append_ws a h
  rw [h2, splitWs_ws_right _ h1]

end Silverfox
