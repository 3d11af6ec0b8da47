import Verif.Proofs.Strings
import Mathlib.Data.List.Forall2

/-
Texts line by line: what does not depend on whitespace at the end of lines.
-/

namespace Silverfox

/-- The pieces between line breaks. -/
abbrev segs (s : Str) : List Str := splitOn '\n' s

theorem splitOn_ne_nil (d : Char) (s : Str) : splitOn d s ≠ [] := by
  cases s with
  | nil => simp [splitOn]
  | cons c s =>
    simp only [splitOn]
    split
    · simp
    · cases splitOn d s <;> simp [consHead]

theorem splitOn_append (d : Char) (a b : Str) : splitOn d (a ++ d :: b) = splitOn d a ++ splitOn d b := by
  induction a with
  | nil => simp [splitOn]
  | cons c a ih =>
    rw [List.cons_append]
    simp only [splitOn]
    split
    · rw [ih]; rfl
    · rw [ih]
      cases h : splitOn d a with
      | nil => exact absurd h (splitOn_ne_nil d a)
      | cons t ts => rfl

theorem splitOn_none {d : Char} {a : Str} (h : d ∉ a) : splitOn d a = [a] := by
  induction a with
  | nil => rfl
  | cons c a ih =>
    have hc : c ≠ d := fun e => h (by simp [e])
    simp only [splitOn, if_neg hc]
    rw [ih fun e => h (by simp [e])]
    rfl

theorem splitOn_mem {d : Char} (a : Str) : ∀ x ∈ splitOn d a, d ∉ x := by
  induction a with
  | nil => intro x hx; simp [splitOn] at hx; simp [hx]
  | cons c a ih =>
    intro x hx
    simp only [splitOn] at hx
    split at hx
    · rcases List.mem_cons.1 hx with rfl | hx
      · simp
      · exact ih x hx
    · rename_i hc
      cases h : splitOn d a with
      | nil => exact absurd h (splitOn_ne_nil d a)
      | cons t ts =>
        rw [h] at hx ih
        rcases List.mem_cons.1 hx with rfl | hx
        · intro hm
          rcases List.mem_cons.1 hm with e | hm
          · exact hc e.symm
          · exact ih t (by simp) hm
        · exact ih x (by simp [hx])

/-- Split at the last line break. -/
theorem segs_snoc (a : Str) : ∃ (xs : List Str) (l : Str), noNl l ∧ segs a = xs ++ [l] ∧
    (∀ u : Str, noNl u → segs (a ++ u) = xs ++ [l ++ u]) ∧
    (∀ u : Str, segs (a ++ '\n' :: u) = xs ++ [l] ++ segs u) := by
  obtain ⟨p, l, rfl, hl, hp⟩ := lastLine a
  rcases hp with rfl | ⟨q, rfl⟩
  · refine ⟨[], l, hl, splitOn_none hl, fun u hu => ?_, fun u => ?_⟩
    · rw [List.nil_append, List.nil_append]
      apply splitOn_none
      intro h
      rcases List.mem_append.1 h with h | h
      · exact hl h
      · exact hu h
    · rw [List.nil_append, segs, splitOn_append, splitOn_none hl]; rfl
  · refine ⟨segs q, l, hl, ?_, fun u hu => ?_, fun u => ?_⟩
    · rw [List.append_assoc, List.singleton_append, segs, splitOn_append, splitOn_none hl]
    · rw [List.append_assoc, List.append_assoc, List.singleton_append, segs, splitOn_append]
      have : '\n' ∉ l ++ u := by
        intro h
        rcases List.mem_append.1 h with h | h
        · exact hl h
        · exact hu h
      rw [splitOn_none this]
    · rw [segs, splitOn_append, List.append_assoc, List.singleton_append, splitOn_append,
        splitOn_none hl]

theorem segs_reverse (a : Str) : segs a.reverse = ((segs a).map List.reverse).reverse := by
  induction a with
  | nil => rfl
  | cons c a ih =>
    rw [List.reverse_cons]
    by_cases hc : c = '\n'
    · subst hc
      rw [segs, splitOn_append]
      rw [segs] at ih
      rw [ih]
      simp [splitOn]
    · obtain ⟨xs, l, _, h1, h2, _⟩ := segs_snoc a.reverse
      have h3 : segs (c :: a) = consHead c (segs a) := by simp [splitOn, hc]
      rw [h2 [c] (by simp [noNl]; exact fun e => hc e.symm), h3]
      rw [h1] at ih
      cases h : segs a with
      | nil => exact absurd h (splitOn_ne_nil _ _)
      | cons t ts =>
        rw [h] at ih
        simp only [List.map_cons, List.reverse_cons, consHead] at ih ⊢
        obtain ⟨e1, e2⟩ := List.append_inj' ih rfl
        cases e2
        rw [e1]

/-! ### Equal up to the end -/

variable {P : Str → Prop}

/-- The same up to whitespace at the end; but a blank text, or one that satisfies `P` when trimmed,
is only the same as itself. -/
def SameEnd (P : Str → Prop) (x y : Str) : Prop :=
  x = y ∨ (trimEnd x = trimEnd y ∧ ¬ allWs x ∧ ¬ P (trim x))

theorem SameEnd.refl (x : Str) : SameEnd P x x := Or.inl rfl

theorem trimEnd_eq_nil {x : Str} : trimEnd x = [] ↔ allWs x := by
  refine ⟨fun h => ?_, trimEnd_allWs⟩
  obtain ⟨b, hb, h1, _⟩ := trimEnd_spec x
  rw [h1, h]
  simpa using hb

theorem trim_of_trimEnd {x y : Str} (h : trimEnd x = trimEnd y) : trim x = trim y := by
  obtain ⟨b, hb, h1, _⟩ := trimEnd_spec x
  obtain ⟨c, hc, h2, _⟩ := trimEnd_spec y
  rw [h1, h2, trim_ws_right _ hb, trim_ws_right _ hc, h]

theorem SameEnd.trimEnd {x y : Str} (h : SameEnd P x y) : trimEnd x = trimEnd y := by
  rcases h with rfl | h
  · rfl
  · exact h.1

theorem SameEnd.blank {x y : Str} (h : SameEnd P x y) : allWs x ↔ allWs y := by
  rw [← trimEnd_eq_nil, ← trimEnd_eq_nil, h.trimEnd]

theorem SameEnd.eq_of_blank {x y : Str} (h : SameEnd P x y) (hx : allWs x) : x = y := by
  rcases h with rfl | h
  · rfl
  · exact absurd hx h.2.1

theorem SameEnd.trim {x y : Str} (h : SameEnd P x y) : trim x = trim y := trim_of_trimEnd h.trimEnd

theorem SameEnd.splitWs {x y : Str} (h : SameEnd P x y) : splitWs x = splitWs y := by
  rw [← splitWs_trimEnd x, h.trimEnd, splitWs_trimEnd]

theorem SameEnd.trim_rc {x y : Str} (h : SameEnd P x y) :
    Silverfox.trim (removeComments x) = Silverfox.trim (removeComments y) := by
  obtain ⟨b, hb, h1, _⟩ := trimEnd_spec x
  obtain ⟨c, hc, h2, _⟩ := trimEnd_spec y
  rw [removeComments_eq_rc, removeComments_eq_rc, h1, h2, trim_rc_ws _ hb, trim_rc_ws _ hc, h.trimEnd]

theorem SameEnd.splitWs_rc {x y : Str} (h : SameEnd P x y) :
    Silverfox.splitWs (removeComments x) = Silverfox.splitWs (removeComments y) := by
  rw [← splitWs_trim, h.trim_rc, splitWs_trim]

/-- Line by line the same up to the end. -/
def SameLines (P : Str → Prop) (a b : Str) : Prop := List.Forall₂ (SameEnd P) (segs a) (segs b)

theorem forall₂_refl {α : Type} {r : α → α → Prop} (h : ∀ x, r x x) (l : List α) : List.Forall₂ r l l := by
  induction l with
  | nil => exact .nil
  | cons a l ih => exact .cons (h a) ih

theorem SameLines.refl (a : Str) : SameLines P a a := forall₂_refl SameEnd.refl _

theorem forall₂_append {α β : Type} {r : α → β → Prop} {a c : List α} {b d : List β}
    (h : List.Forall₂ r a b) (h' : List.Forall₂ r c d) : List.Forall₂ r (a ++ c) (b ++ d) := by
  induction h with
  | nil => exact h'
  | cons hx _ ih => exact .cons hx ih

theorem SameLines.snoc {a b x y : Str} (h : SameLines P a b) (hx : noNl x) (hy : noNl y)
    (hxy : SameEnd P x y) : SameLines P (a ++ '\n' :: x) (b ++ '\n' :: y) := by
  unfold SameLines segs
  rw [splitOn_append, splitOn_append, splitOn_none hx, splitOn_none hy]
  exact forall₂_append h (.cons hxy .nil)

theorem SameLines.single {x y : Str} (hx : noNl x) (hy : noNl y) (hxy : SameEnd P x y) : SameLines P x y := by
  unfold SameLines segs
  rw [splitOn_none hx, splitOn_none hy]
  exact .cons hxy .nil

theorem splitWs_segs (a : Str) : splitWs a = (segs a).flatMap splitWs := by
  induction ha : a.length using Nat.strongRecOn generalizing a with
  | _ n ih =>
    obtain ⟨p, l, rfl, hl, hp⟩ := lastLine a
    rcases hp with rfl | ⟨q, rfl⟩
    · rw [List.nil_append, segs, splitOn_none hl]; simp
    · rw [List.append_assoc, List.singleton_append, segs, splitOn_append, splitOn_none hl,
        splitWs_append_ws _ isWs_nl, List.flatMap_append]
      rw [ih q.length (by simp at ha; omega) q rfl]
      simp

theorem SameLines.splitWs {a b : Str} (h : SameLines P a b) : splitWs a = splitWs b := by
  rw [splitWs_segs, splitWs_segs]
  unfold SameLines at h
  generalize segs a = xs at h
  generalize segs b = ys at h
  induction h with
  | nil => rfl
  | cons hx _ ih => simp only [List.flatMap_cons]; rw [hx.splitWs, ih]

/-! ### Trimming line by line -/

/-- `trimStart` on the pieces. -/
def segTrim : List Str → List Str
  | [] => []
  | [x] => [trimStart x]
  | x :: xs => if allWs x then segTrim xs else trimStart x :: xs

theorem segTrim_cons (x y : Str) (ys : List Str) : segTrim (x :: y :: ys) =
    if allWs x then segTrim (y :: ys) else trimStart x :: y :: ys := rfl

theorem allWs_cons {c : Char} {x : Str} : allWs (c :: x) ↔ isWs c = true ∧ allWs x := by
  simp [allWs]

theorem segs_trimStart (a : Str) : segs (trimStart a) = segTrim (segs a) := by
  induction a with
  | nil => rfl
  | cons c a ih =>
    obtain ⟨t, ts, ht⟩ : ∃ t ts, segs a = t :: ts := by
      cases h : segs a with
      | nil => exact absurd h (splitOn_ne_nil _ _)
      | cons t ts => exact ⟨t, ts, rfl⟩
    by_cases hn : c = '\n'
    · subst hn
      have h1 : segs ('\n' :: a) = [] :: segs a := by simp [splitOn]
      have h2 : trimStart ('\n' :: a) = trimStart a := by simp [trimStart, isWs_nl]
      rw [h1, h2, ih, ht, segTrim_cons, if_pos allWs_nil]
    · have h1 : segs (c :: a) = (c :: t) :: ts := by
        have : segs (c :: a) = consHead c (segs a) := by simp [splitOn, hn]
        rw [this, ht]; rfl
      rw [h1]
      cases hc : isWs c with
      | true =>
        have h2 : trimStart (c :: a) = trimStart a := by simp [trimStart, hc]
        have h3 : trimStart (c :: t) = trimStart t := by simp [trimStart, hc]
        rw [h2, ih, ht]
        cases ts with
        | nil => show [trimStart t] = [trimStart (c :: t)]; rw [h3]
        | cons u us =>
          rw [segTrim_cons, segTrim_cons, h3]
          have : allWs (c :: t) ↔ allWs t := by rw [allWs_cons]; simp [hc]
          by_cases ht : allWs t
          · rw [if_pos ht, if_pos (this.2 ht)]
          · rw [if_neg ht, if_neg (fun h => ht (this.1 h))]
      | false =>
        have h2 : trimStart (c :: a) = c :: a := by simp [trimStart, hc]
        have h3 : trimStart (c :: t) = c :: t := by simp [trimStart, hc]
        rw [h2, h1]
        have hw : ¬ allWs (c :: t) := by rw [allWs_cons]; simp [hc]
        cases ts with
        | nil => show _ = [trimStart (c :: t)]; rw [h3]
        | cons u us => rw [segTrim_cons, if_neg hw, h3]

/-- `trimEnd` on the pieces, last piece first. -/
def segTrimR : List Str → List Str
  | [] => []
  | [x] => [trimEnd x]
  | x :: xs => if allWs x then segTrimR xs else trimEnd x :: xs

theorem allWs_reverse {x : Str} : allWs x.reverse ↔ allWs x := by simp [allWs]

theorem segTrimR_eq (xs : List Str) : segTrimR xs = (segTrim (xs.map List.reverse)).map List.reverse := by
  induction xs with
  | nil => rfl
  | cons x xs ih =>
    cases xs with
    | nil => simp [segTrimR, segTrim, trimEnd, trimStart]
    | cons y ys =>
      have h1 : segTrimR (x :: y :: ys) = if allWs x then segTrimR (y :: ys) else trimEnd x :: y :: ys := rfl
      rw [h1, List.map_cons, List.map_cons, segTrim_cons]
      by_cases hx : allWs x
      · rw [if_pos hx, if_pos (allWs_reverse.2 hx), ih, List.map_cons]
      · rw [if_neg hx, if_neg (fun h => hx (allWs_reverse.1 h))]
        simp [trimEnd, trimStart]

theorem segs_trimEnd (a : Str) : segs (trimEnd a) = (segTrimR (segs a).reverse).reverse := by
  have : trimEnd a = (trimStart a.reverse).reverse := rfl
  rw [this, segs_reverse, segs_trimStart, segs_reverse, segTrimR_eq, List.map_reverse]

theorem SameEnd.trimStart {x y : Str} (h : SameEnd P x y) : SameEnd P (trimStart x) (trimStart y) := by
  rcases h with rfl | ⟨h1, h2, h3⟩
  · exact .refl _
  · right
    refine ⟨?_, ?_, ?_⟩
    · show Silverfox.trim x = Silverfox.trim y
      exact trim_of_trimEnd h1
    · intro hw
      obtain ⟨a, ha, h4, _⟩ := trimStart_spec x
      exact h2 (by rw [h4]; exact allWs_append.2 ⟨ha, hw⟩)
    · obtain ⟨a, ha, h4, _⟩ := trimStart_spec x
      rw [h4, trim_ws_left ha] at h3
      exact h3

theorem forall₂_segTrim {xs ys : List Str} (h : List.Forall₂ (SameEnd P) xs ys) :
    List.Forall₂ (SameEnd P) (segTrim xs) (segTrim ys) := by
  induction h with
  | nil => exact .nil
  | cons hx hr ih =>
    cases hr with
    | nil => exact .cons hx.trimStart .nil
    | @cons u v us vs hy hr =>
      rename_i x y
      rw [segTrim_cons, segTrim_cons]
      by_cases hw : allWs x
      · rw [if_pos hw, if_pos (hx.blank.1 hw)]; exact ih
      · rw [if_neg hw, if_neg (fun h => hw (hx.blank.2 h))]
        exact .cons hx.trimStart (.cons hy hr)

theorem forall₂_segTrimR {xs ys : List Str} (h : List.Forall₂ (SameEnd P) xs ys) :
    List.Forall₂ (SameEnd P) (segTrimR xs) (segTrimR ys) := by
  induction h with
  | nil => exact .nil
  | cons hx hr ih =>
    have he := hx.trimEnd
    cases hr with
    | nil => exact .cons (Or.inl he) .nil
    | @cons u v us vs hy hr =>
      rename_i x y
      have h1 : segTrimR (x :: u :: us) = if allWs x then segTrimR (u :: us) else trimEnd x :: u :: us := rfl
      have h2 : segTrimR (y :: v :: vs) = if allWs y then segTrimR (v :: vs) else trimEnd y :: v :: vs := rfl
      rw [h1, h2]
      by_cases hw : allWs x
      · rw [if_pos hw, if_pos (hx.blank.1 hw)]; exact ih
      · rw [if_neg hw, if_neg (fun h => hw (hx.blank.2 h))]
        exact .cons (Or.inl he) (.cons hy hr)

theorem forall₂_reverse {α β : Type} {r : α → β → Prop} {a : List α} {b : List β}
    (h : List.Forall₂ r a b) : List.Forall₂ r a.reverse b.reverse := by
  induction h with
  | nil => exact .nil
  | cons hx _ ih =>
    rw [List.reverse_cons, List.reverse_cons]
    exact forall₂_append ih (.cons hx .nil)

theorem SameLines.trim {a b : Str} (h : SameLines P a b) : SameLines P (trim a) (trim b) := by
  unfold SameLines Silverfox.trim
  rw [segs_trimEnd, segs_trimEnd, segs_trimStart, segs_trimStart]
  exact forall₂_reverse (forall₂_segTrimR (forall₂_reverse (forall₂_segTrim h)))

/-! ### Lines and pieces -/

/-- The lines of a text from its pieces. -/
def linesOf : List Str → List Str
  | [] => []
  | [x] => if x = [] then [] else [x]
  | x :: xs => stripCr x :: linesOf xs

theorem linesOf_cons (x y : Str) (ys : List Str) : linesOf (x :: y :: ys) = stripCr x :: linesOf (y :: ys) := rfl

/-- Split at the first line break. -/
theorem firstLine (a : Str) : noNl a ∨ ∃ l r, a = l ++ '\n' :: r ∧ noNl l := by
  induction a with
  | nil => left; simp [noNl]
  | cons c a ih =>
    by_cases hc : c = '\n'
    · subst hc; exact Or.inr ⟨[], a, rfl, by simp [noNl]⟩
    · have hc' : '\n' ≠ c := fun e => hc e.symm
      rcases ih with h | ⟨l, r, rfl, hl⟩
      · left; simp only [noNl, List.mem_cons, not_or]; exact ⟨hc', h⟩
      · right; exact ⟨c :: l, r, rfl, by simp only [noNl, List.mem_cons, not_or]; exact ⟨hc', hl⟩⟩

theorem lines_segs (a : Str) : lines a = linesOf (segs a) := by
  induction ha : a.length using Nat.strongRecOn generalizing a with
  | _ n ih =>
    rcases firstLine a with h | ⟨l, r, rfl, hl⟩
    · rw [segs, splitOn_none h]
      by_cases hn : a = []
      · subst hn; rfl
      · rw [lines_last a h hn]; simp [linesOf, hn]
    · rw [lines_line l hl, segs, splitOn_append, splitOn_none hl, List.singleton_append]
      rw [ih r.length (by simp at ha; omega) r rfl]
      cases h : splitOn '\n' r with
      | nil => exact absurd h (splitOn_ne_nil _ _)
      | cons t ts => rw [linesOf_cons]; simp only [segs, h]

theorem stripCr_spec (x : Str) : x = stripCr x ∨ x = stripCr x ++ ['\r'] := by
  unfold stripCr
  split
  · rename_i h
    right
    obtain ⟨y, hy⟩ := List.getLast?_eq_some_iff.1 h
    rw [hy]; simp
  · left; rfl

theorem stripCr_trimEnd (x : Str) : trimEnd (stripCr x) = trimEnd x := by
  rcases stripCr_spec x with h | h
  · rw [← h]
  · conv => rhs; rw [h]
    rw [trimEnd_ws]
    intro c hc
    simp at hc
    subst hc
    exact isWs_cr

theorem SameEnd.stripCr {x y : Str} (h : SameEnd P x y) : SameEnd P (stripCr x) (stripCr y) := by
  rcases h with rfl | ⟨h1, h2, h3⟩
  · exact .refl _
  · right
    refine ⟨by rw [stripCr_trimEnd, stripCr_trimEnd, h1], fun hw => h2 ?_, ?_⟩
    · rw [← trimEnd_eq_nil] at hw ⊢
      rw [stripCr_trimEnd] at hw
      exact hw
    · rw [trim_of_trimEnd (stripCr_trimEnd x)]; exact h3

theorem forall₂_linesOf {xs ys : List Str} (h : List.Forall₂ (SameEnd P) xs ys) :
    List.Forall₂ (SameEnd P) (linesOf xs) (linesOf ys) := by
  induction h with
  | nil => exact .nil
  | cons hx hr ih =>
    cases hr with
    | nil =>
      rename_i x y
      simp only [linesOf]
      by_cases h : x = []
      · subst h
        have : [] = y := hx.eq_of_blank allWs_nil
        subst this
        simp
      · have hy : y ≠ [] := by
          rintro rfl
          have hw : allWs x := hx.blank.2 allWs_nil
          exact h (hx.eq_of_blank hw)
        rw [if_neg h, if_neg hy]
        exact .cons hx .nil
    | cons hy hr => exact .cons hx.stripCr ih

theorem SameLines.lines {a b : Str} (h : SameLines P a b) : List.Forall₂ (SameEnd P) (lines a) (lines b) := by
  rw [lines_segs, lines_segs]; exact forall₂_linesOf h

theorem SameLines.isEmpty {a b : Str} (h : SameLines P a b) : a.isEmpty = b.isEmpty := by
  have key : ∀ {a b : Str}, SameLines P a b → a = [] → b = [] := by
    intro a b h ha
    subst ha
    unfold SameLines at h
    have : segs [] = [[]] := rfl
    rw [this] at h
    cases hb : segs b with
    | nil => exact absurd hb (splitOn_ne_nil _ _)
    | cons t ts =>
      rw [hb] at h
      cases h with
      | cons hx hr =>
        cases hr
        have ht : [] = t := hx.eq_of_blank allWs_nil
        subst ht
        cases b with
        | nil => rfl
        | cons c b =>
          exfalso
          simp only [segs, splitOn] at hb
          split at hb
          · cases h : splitOn '\n' b with
            | nil => exact splitOn_ne_nil _ _ h
            | cons u us => rw [h] at hb; simp at hb
          · cases h : splitOn '\n' b with
            | nil => exact splitOn_ne_nil _ _ h
            | cons u us => rw [h] at hb; simp [consHead] at hb
  have h' : SameLines P b a := by
    unfold SameLines at h ⊢
    generalize segs a = xs at h
    generalize segs b = ys at h
    induction h with
    | nil => exact .nil
    | cons hx _ ih =>
      refine .cons ?_ ih
      rcases hx with rfl | ⟨h1, h2, h3⟩
      · exact .refl _
      · refine Or.inr ⟨h1.symm, fun hw => h2 ?_, ?_⟩
        · rw [← trimEnd_eq_nil] at hw ⊢
          rw [h1]; exact hw
        · rw [← trim_of_trimEnd h1]; exact h3
  cases a with
  | nil => rw [key h rfl]
  | cons c a =>
    cases b with
    | nil => exact absurd (key h' rfl) (by simp)
    | cons d b => rfl

end Silverfox
