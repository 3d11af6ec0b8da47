import Verif.Model.Utils

/-
Lemmas about strings.
-/

namespace Silverfox

/-! ### Comments -/

/-- Does a comment start here? -/
def startsMark : Str → Bool
  | ';' :: _ => true
  | '/' :: '/' :: _ => true
  | _ => false

/-- `removeComments` as a recursion. -/
def rc : Str → Str
  | [] => []
  | c :: cs => if startsMark (c :: cs) then [] else c :: rc cs

theorem startsMark_cons (c : Char) (cs : Str) :
    startsMark (c :: cs) = (decide (c = ';') || (decide (c = '/') && decide (cs.head? = some '/'))) := by
  by_cases h1 : c = ';'
  · subst h1; simp [startsMark]
  · by_cases hc : c = '/'
    · subst hc
      cases cs with
      | nil => simp [startsMark]
      | cons d ds =>
        by_cases hd : d = '/'
        · subst hd; simp [startsMark]
        · simp [hd, startsMark]
    · simp [h1, hc, startsMark]

theorem isPrefixOf_semi (c : Char) (cs : Str) :
    (s%";").isPrefixOf (c :: cs) = decide (c = ';') := by
  by_cases h : c = ';'
  · simp [h]
  · have : ¬ ';' = c := fun e => h e.symm
    simp [h, List.isPrefixOf, this]

theorem isPrefixOf_slashes (c : Char) (cs : Str) :
    (s%"//").isPrefixOf (c :: cs) = (decide (c = '/') && decide (cs.head? = some '/')) := by
  by_cases h : c = '/'
  · cases cs with
    | nil => simp [h]
    | cons d ds =>
      by_cases h' : d = '/'
      · simp [h, h']
      · have : ¬ '/' = d := fun e => h' e.symm
        simp [h, h', List.isPrefixOf, this]
  · have : ¬ '/' = c := fun e => h e.symm
    simp [h, List.isPrefixOf, this]

theorem removeComments_eq_rc (s : Str) : removeComments s = rc s := by
  induction s with
  | nil => simp [removeComments, find, rc]
  | cons c cs ih =>
    unfold removeComments at ih ⊢
    by_cases h1 : c = ';'
    · have hs : startsMark (c :: cs) = true := by simp [startsMark_cons, h1]
      have : (s%"//").isPrefixOf (c :: cs) = false := by rw [isPrefixOf_slashes]; simp [h1]
      simp only [find, isPrefixOf_semi, h1, decide_true, if_true, rc]
      rw [h1] at this hs
      simp only [this, hs]
      cases find s%"//" cs <;> simp
    · by_cases h2 : c = '/' ∧ cs.head? = some '/'
      · have hs : startsMark (c :: cs) = true := by simp [startsMark_cons, h2]
        have hp : (s%"//").isPrefixOf (c :: cs) = true := by
          rw [isPrefixOf_slashes]; simp [h2]
        simp only [find, isPrefixOf_semi, h1, decide_false, hp, if_true, rc, hs]
        cases find s%";" cs <;> simp
      · have hs : startsMark (c :: cs) = false := by
          simp only [startsMark_cons, h1, decide_false, Bool.false_or]
          simpa using h2
        have hp : (s%"//").isPrefixOf (c :: cs) = false := by
          rw [isPrefixOf_slashes]; simpa using h2
        simp only [find, isPrefixOf_semi, h1, decide_false, hp, rc, hs, Bool.false_eq_true, if_false]
        rw [← ih]
        cases find s%";" cs <;> cases find s%"//" cs <;> simp
        rename_i i j
        by_cases hij : i < j <;> simp [hij]

theorem rc_append_rest (s : Str) :
    ∃ rest, s = rc s ++ rest ∧ (rest = [] ∨ startsMark rest = true) := by
  induction s with
  | nil => exact ⟨[], rfl, Or.inl rfl⟩
  | cons c cs ih =>
    by_cases h : startsMark (c :: cs) = true
    · exact ⟨c :: cs, by simp [rc, h], Or.inr h⟩
    · obtain ⟨rest, h1, h2⟩ := ih
      refine ⟨rest, ?_, h2⟩
      simp only [rc, h, Bool.false_eq_true, if_false, List.cons_append]
      rw [← h1]

theorem rc_first (s p q : Str) (h : s = p ++ q) (hl : p.length < (rc s).length) :
    startsMark q = false := by
  induction s generalizing p with
  | nil => simp [rc] at hl
  | cons c cs ih =>
    by_cases hm : startsMark (c :: cs) = true
    · simp [rc, hm] at hl
    · cases p with
      | nil => simp at h; rw [← h]; simpa using hm
      | cons d p =>
        simp only [List.cons_append, List.cons.injEq] at h
        exact ih p h.2 (by simpa [rc, hm] using hl)

theorem startsMark_append {a b : Str} (h : startsMark (a ++ b) = false) : startsMark a = false := by
  cases a with
  | nil => rfl
  | cons c cs =>
    rw [List.cons_append, startsMark_cons] at h
    rw [startsMark_cons]
    cases cs with
    | nil => simp_all
    | cons d ds => simpa using h

theorem rc_of_noMark (s : Str) (h : ∀ p q, s = p ++ q → startsMark q = false) : rc s = s := by
  induction s with
  | nil => rfl
  | cons c cs ih =>
    have h0 := h [] (c :: cs) rfl
    simp only [rc, h0, Bool.false_eq_true, if_false, List.cons.injEq, true_and]
    exact ih fun p q e => h (c :: p) q (by simp [e])

theorem rc_noMark (s p q : Str) (h : rc s = p ++ q) : startsMark q = false := by
  obtain ⟨rest, h1, _⟩ := rc_append_rest s
  cases q with
  | nil => rfl
  | cons c cs =>
    have := rc_first s p (c :: cs ++ rest) (by rw [← List.append_assoc, ← h]; exact h1)
      (by rw [h]; simp)
    exact startsMark_append this

theorem rc_idem (s : Str) : rc (rc s) = rc s := rc_of_noMark _ fun p q h => rc_noMark s p q h

/-- Text without any comment sign. -/
def noComment (s : Str) : Prop := rc s = s

theorem rc_append_mark (s m : Str) (hm : startsMark m = true)
    (h : s.getLast? ≠ some '/' ∨ m.head? = some ';') : rc (s ++ m) = rc s := by
  induction s with
  | nil =>
    cases m with
    | nil => rfl
    | cons c cs => simp [rc, hm]
  | cons c cs ih =>
    cases cs with
    | nil =>
      have hx : startsMark ([c] ++ m) = startsMark [c] := by
        simp only [List.singleton_append, startsMark_cons, List.head?_nil]
        rcases h with h | h
        · have : c ≠ '/' := by simpa using h
          simp [this]
        · simp [h]
      cases m with
      | nil => simp
      | cons d ds =>
        simp only [List.singleton_append, rc] at hx ⊢
        rw [hx]
        simp [hm]
    | cons d ds =>
      have hx : startsMark ((c :: d :: ds) ++ m) = startsMark (c :: d :: ds) := by
        simp [startsMark_cons]
      have ih' := ih (by
        rcases h with h | h
        · left; simpa [List.getLast?_cons_cons] using h
        · right; exact h)
      simp only [List.cons_append] at hx ih' ⊢
      rw [rc, hx]
      conv => rhs; rw [rc]
      split <;> simp_all

theorem rc_no_char {s : Str} (h : ∀ c ∈ s, c ≠ ';' ∧ c ≠ '/') : rc s = s := by
  apply rc_of_noMark
  intro p q e
  cases q with
  | nil => rfl
  | cons c cs =>
    have := h c (by rw [e]; simp)
    rw [startsMark_cons]
    simp [this]

end Silverfox
