import Verif.Proofs.Segs
import Verif.Proofs.Postings
import Verif.Model.Entry

/-
Lemmas on reading and printing entries.
-/

namespace Silverfox

set_option linter.unusedSectionVars false

variable {M : Type} [Mag M]

/-! ### The lines that matter -/

/-- The trimmed lines that are not blank. -/
def ink (ls : List Str) : List Str := (ls.map trim).filter fun l => !l.isEmpty

theorem ink_nil : ink [] = [] := rfl

theorem ink_append (a b : List Str) : ink (a ++ b) = ink a ++ ink b := by simp [ink]

theorem ink_blank {l : Str} (h : allWs l) (ls : List Str) : ink (l :: ls) = ink ls := by
  simp [ink, trim_eq_nil.2 h]

theorem ink_cons {l : Str} (h : ¬ allWs l) (ls : List Str) : ink (l :: ls) = trim l :: ink ls := by
  have : trim l ≠ [] := fun e => h (trim_eq_nil.1 e)
  simp [ink, this]

theorem ink_congr {l l' : Str} (h : trim l = trim l') (ls : List Str) : ink (l :: ls) = ink (l' :: ls) := by
  simp [ink, h]

theorem trim_stripCr (x : Str) : trim (stripCr x) = trim x := trim_of_trimEnd (stripCr_trimEnd x)

theorem ink_linesOf (xs : List Str) : ink (linesOf xs) = ink xs := by
  induction xs with
  | nil => rfl
  | cons x xs ih =>
    cases xs with
    | nil =>
      unfold linesOf
      split
      · rename_i h; subst h; rfl
      · rfl
    | cons y ys =>
      rw [linesOf_cons, ink_congr (trim_stripCr x)]
      show ink ([x] ++ linesOf (y :: ys)) = ink ([x] ++ y :: ys)
      rw [ink_append, ih, ← ink_append]

theorem trim_trimStart (x : Str) : trim (trimStart x) = trim x := by
  obtain ⟨a, ha, h, _⟩ := trimStart_spec x
  conv => rhs; rw [h]
  rw [trim_ws_left ha]

theorem trim_trimEnd (x : Str) : trim (trimEnd x) = trim x := by
  obtain ⟨a, ha, h, _⟩ := trimEnd_spec x
  conv => rhs; rw [h]
  rw [trim_ws_right _ ha]

theorem ink_segTrim (xs : List Str) : ink (segTrim xs) = ink xs := by
  induction xs with
  | nil => rfl
  | cons x xs ih =>
    cases xs with
    | nil => exact ink_congr (trim_trimStart x) []
    | cons y ys =>
      rw [segTrim_cons]
      split
      · rename_i h; rw [ih, ink_blank h]
      · exact ink_congr (trim_trimStart x) _

theorem ink_segTrimR (xs : List Str) : ink (segTrimR xs) = ink xs := by
  induction xs with
  | nil => rfl
  | cons x xs ih =>
    cases xs with
    | nil => exact ink_congr (trim_trimEnd x) []
    | cons y ys =>
      have h1 : segTrimR (x :: y :: ys) = if allWs x then segTrimR (y :: ys) else trimEnd x :: y :: ys := rfl
      rw [h1]
      split
      · rename_i h; rw [ih, ink_blank h]
      · exact ink_congr (trim_trimEnd x) _

theorem ink_reverse (xs : List Str) : ink xs.reverse = (ink xs).reverse := by
  simp [ink, List.map_reverse, List.filter_reverse]

/-- The lines of a text that matter. -/
def inkLines (s : Str) : List Str := ink (segs s)

theorem ink_lines_trim (s : Str) : ink (lines (trim s)) = inkLines s := by
  rw [lines_segs, ink_linesOf]
  unfold trim inkLines
  rw [segs_trimEnd, ink_reverse, ink_segTrimR, ink_reverse, List.reverse_reverse, segs_trimStart, ink_segTrim]

theorem ink_lines (s : Str) : ink (lines s) = inkLines s := by
  rw [lines_segs, ink_linesOf]; rfl

theorem inkLines_nl (a b : Str) : inkLines (a ++ '\n' :: b) = inkLines a ++ inkLines b := by
  unfold inkLines segs
  rw [splitOn_append, ink_append]

theorem inkLines_blank {a : Str} (h : allWs a) : inkLines a = [] := by
  unfold inkLines
  have hall : ∀ x ∈ segs a, allWs x := by
    have key : ∀ a : Str, ∀ x ∈ segs a, ∀ c ∈ x, c ∈ a := by
      intro a
      induction a with
      | nil =>
        intro x hx
        simp only [segs, splitOn, List.mem_singleton] at hx
        subst hx; simp
      | cons c a ih =>
        intro x hx
        simp only [segs, splitOn] at hx ih
        split at hx
        · rcases List.mem_cons.1 hx with rfl | hx
          · simp
          · intro d hd; exact List.mem_cons_of_mem _ (ih x hx d hd)
        · cases hs : splitOn '\n' a with
          | nil => exact absurd hs (splitOn_ne_nil _ _)
          | cons t ts =>
            rw [hs] at hx ih
            rcases List.mem_cons.1 hx with rfl | hx
            · intro d hd
              rcases List.mem_cons.1 hd with rfl | hd
              · simp
              · exact List.mem_cons_of_mem _ (ih t (by simp) d hd)
            · intro d hd; exact List.mem_cons_of_mem _ (ih x (by simp [hx]) d hd)
    intro x hx c hc
    exact h c (key a x hx c hc)
  generalize segs a = xs at hall
  induction xs with
  | nil => rfl
  | cons x xs ih => rw [ink_blank (hall x (by simp)), ih fun y hy => hall y (by simp [hy])]

theorem inkLines_line {l : Str} (h : noNl l) (hb : ¬ allWs l) : inkLines l = [trim l] := by
  unfold inkLines segs
  rw [splitOn_none h, ink_cons hb]; rfl

/-! ### `Entry::parse` on these lines -/

theorem splitWs_rc_trim (l : Str) : splitWs (rc (trim l)) = splitWs (rc l) := by
  obtain ⟨a, b, ha, hb, h⟩ := trim_spec l
  conv => rhs; rw [h]
  rw [splitWs_rc_ws _ hb]
  have key : ∀ a : Str, allWs a → ∀ s, rc (a ++ s) = a ++ rc s := by
    intro a ha s
    induction a with
    | nil => rfl
    | cons c a ih =>
      rw [List.cons_append, rc, startsMark_ws (ha c (by simp))]
      simp only [Bool.false_eq_true, if_false]
      rw [ih fun d hd => ha d (by simp [hd])]
      rfl
  rw [key a ha, splitWs_ws_left ha]

theorem trim_rc_trim (l : Str) : trim (rc (trim l)) = trim (rc l) := by
  obtain ⟨a, b, ha, hb, h⟩ := trim_spec l
  conv => rhs; rw [h]
  rw [trim_rc_ws _ hb]
  have key : ∀ a : Str, allWs a → ∀ s, rc (a ++ s) = a ++ rc s := by
    intro a ha s
    induction a with
    | nil => rfl
    | cons c a ih =>
      rw [List.cons_append, rc, startsMark_ws (ha c (by simp))]
      simp only [Bool.false_eq_true, if_false]
      rw [ih fun d hd => ha d (by simp [hd])]
      rfl
  rw [key a ha, trim_ws_left ha]

theorem parseHeader_trim (env : Env) (l fmt : Str) :
    (Entry.parseHeader env (trim l) fmt : Res (Entry M)) = Entry.parseHeader env l fmt := by
  unfold Entry.parseHeader
  rw [removeComments_eq_rc, removeComments_eq_rc, splitWs_rc_trim]

theorem Posting.parse_trim (l : Str) (dec : Char) (accs : List Str) :
    (Posting.parse (trim l) dec accs : Res (Posting M)) = Posting.parse l dec accs := by
  unfold Posting.parse
  simp only [removeComments_eq_rc, trim_rc_trim]

theorem parsePostings_ink (dec : Char) (accs : List Str) (ls : List Str) :
    (Entry.parsePostings dec accs ls : Res (List (Posting M))) = Entry.parsePostings dec accs (ink ls) := by
  induction ls with
  | nil => rfl
  | cons l ls ih =>
    by_cases h : allWs l
    · rw [ink_blank h, ← ih]
      simp only [Entry.parsePostings, trim_eq_nil.2 h]
      rfl
    · rw [ink_cons h]
      have he : (trim l).isEmpty = false := by
        cases hh : (trim l).isEmpty with
        | false => rfl
        | true => exact absurd (trim_eq_nil.1 (List.isEmpty_iff.1 hh)) h
      simp only [Entry.parsePostings, he, trim_trim, Bool.false_eq_true, if_false, Posting.parse_trim, ih]

/-- `Entry::parse` in terms of the lines that matter: the first is the header, the others are postings. -/
theorem Entry.parse_ink (env : Env) (chunk fmt : Str) (dec : Char) (accs : List Str) :
    (Entry.parse env chunk fmt dec accs : Res (Entry M)) =
      (match inkLines chunk with
      | [] => fail .parse
      | h :: ls => do
        let e : Entry M ← Entry.parseHeader env h fmt
        let ps ← Entry.parsePostings dec accs ls
        let e : Entry M := { e with postings := ps }
        e.validate
        pure e) := by
  unfold Entry.parse
  simp only
  have hi := ink_lines_trim chunk
  by_cases hw : allWs chunk
  · rw [inkLines_blank hw, if_pos (by rw [trim_allWs hw]; rfl)]
  · have hne : trim chunk ≠ [] := fun e => hw (trim_eq_nil.1 e)
    rw [if_neg (by simpa using hne)]
    -- the first line is not blank
    obtain ⟨c, r, hc⟩ := List.exists_cons_of_ne_nil hne
    have hink : isWs c = false := by
      have h1 := trimStart_trim chunk
      rw [hc] at h1
      cases hcw : isWs c with
      | false => rfl
      | true =>
        have h2 : trimStart (c :: r) = trimStart r := by simp [trimStart, hcw]
        rw [h2] at h1
        obtain ⟨a, _, h3, _⟩ := trimStart_spec r
        have h4 := congrArg List.length h3
        rw [h1] at h4
        simp at h4
        omega
    cases hl : lines (trim chunk) with
    | nil =>
      exfalso
      rw [hc, lines] at hl
      have h1 : c ≠ '\n' := fun e => by rw [e, isWs_nl] at hink; cases hink
      have h2 : c ≠ '\r' := fun e => by rw [e, isWs_cr] at hink; cases hink
      rw [if_neg h1, if_neg (fun h => h2 h.1)] at hl
      cases hlr : lines r with
      | nil => rw [hlr] at hl; cases hl
      | cons t ts => rw [hlr] at hl; cases hl
    | cons l ls =>
      have hb : ¬ allWs l := by
        intro hb
        rw [hc, lines] at hl
        have h1 : c ≠ '\n' := fun e => by rw [e, isWs_nl] at hink; cases hink
        have h2 : c ≠ '\r' := fun e => by rw [e, isWs_cr] at hink; cases hink
        rw [if_neg h1, if_neg (fun h => h2 h.1)] at hl
        have : ∃ q, l = c :: q := by
          cases hlr : lines r with
          | nil => rw [hlr] at hl; cases hl; exact ⟨[], rfl⟩
          | cons t ts => rw [hlr] at hl; cases hl; exact ⟨t, rfl⟩
        obtain ⟨q, rfl⟩ := this
        have := hb c (by simp)
        rw [hink] at this; cases this
      rw [hl, ink_cons hb] at hi
      rw [← hi]
      simp only
      rw [parseHeader_trim, parsePostings_ink dec accs ls]

/-! ### Brackets -/

theorem find_char (x y : Str) (c : Char) (h : c ∉ x) : find [c] (x ++ c :: y) = some x.length := by
  induction x with
  | nil => simp [find]
  | cons d x ih =>
    have hd : c ≠ d := fun e => h (by simp [e])
    rw [List.cons_append, find, ih fun hm => h (by simp [hm])]
    simp [hd]

theorem find_char_none (s : Str) (c : Char) : find [c] s = none ↔ c ∉ s := by
  induction s with
  | nil => simp [find]
  | cons d s ih =>
    rw [find]
    by_cases hd : c = d
    · subst hd; simp
    · simp [hd, ih]

theorem rfind_char_none (s : Str) (c : Char) : rfind [c] s = none ↔ c ∉ s := by
  induction s with
  | nil => simp [rfind]
  | cons d s ih =>
    rw [rfind]
    cases h : rfind [c] s with
    | some i =>
      have : ¬ c ∉ s := fun hn => by rw [ih.2 hn] at h; cases h
      simp at this
      simp [this]
    | none =>
      have := ih.1 h
      by_cases hd : c = d
      · subst hd; simp
      · simp [hd, this]

theorem rfind_char (x y : Str) (c : Char) (h : c ∉ y) : rfind [c] (x ++ c :: y) = some x.length := by
  induction x with
  | nil =>
    rw [List.nil_append, rfind, (rfind_char_none y c).2 h]
    simp
  | cons d x ih =>
    rw [List.cons_append, rfind, ih]
    rfl

/-- The first occurrence of a character. -/
theorem split_first {s : Str} {c : Char} (h : c ∈ s) : ∃ x y, s = x ++ c :: y ∧ c ∉ x := by
  induction s with
  | nil => cases h
  | cons d s ih =>
    by_cases hd : c = d
    · subst hd; exact ⟨[], s, rfl, by simp⟩
    · rcases List.mem_cons.1 h with e | h
      · exact absurd e hd
      · obtain ⟨x, y, rfl, hx⟩ := ih h
        exact ⟨d :: x, y, rfl, by simp [hd, hx]⟩

/-- The last occurrence of a character. -/
theorem split_last {s : Str} {c : Char} (h : c ∈ s) : ∃ x y, s = x ++ c :: y ∧ c ∉ y := by
  induction s with
  | nil => cases h
  | cons d s ih =>
    by_cases hs : c ∈ s
    · obtain ⟨x, y, rfl, hy⟩ := ih hs
      exact ⟨d :: x, y, rfl, hy⟩
    · rcases List.mem_cons.1 h with rfl | h
      · exact ⟨[], s, rfl, hs⟩
      · exact absurd h hs

theorem parseDescription_plain {s : Str} (h : '[' ∉ s) : parseDescription s = .ok (s, none) := by
  unfold parseDescription
  rw [(find_char_none s '[').2 h]

theorem parseDescription_open {s : Str} (h : '[' ∈ s) (h' : ']' ∉ s) : parseDescription s = fail .parse := by
  unfold parseDescription
  obtain ⟨x, y, rfl, hx⟩ := split_first h
  rw [find_char x y '[' hx]
  simp only
  rw [(rfind_char_none _ ']').2 h']

theorem parseDescription_payee {x p y : Str} (hx : '[' ∉ x) (hy : ']' ∉ y) :
    parseDescription (x ++ '[' :: (p ++ ']' :: y)) = .ok (trim x, some (trim p)) := by
  unfold parseDescription
  rw [find_char x _ '[' hx]
  simp only
  rw [show x ++ '[' :: (p ++ ']' :: y) = (x ++ '[' :: p) ++ ']' :: y by simp, rfind_char _ y ']' hy]
  simp only
  rw [if_pos (by simp)]
  have e1 : ((x ++ '[' :: p) ++ ']' :: y).take x.length = x := by
    rw [List.append_assoc, List.take_left]
  have e2 : (((x ++ '[' :: p) ++ ']' :: y).take (x ++ '[' :: p).length).drop (x.length + 1) = p := by
    rw [List.take_left, List.drop_append]
    simp
  rw [e1, e2]

theorem parseDescription_crossed {x m y : Str} (hx : '[' ∉ x ++ ']' :: m) (hy : ']' ∉ m ++ '[' :: y) :
    parseDescription (x ++ ']' :: (m ++ '[' :: y)) = panicked := by
  unfold parseDescription
  rw [show x ++ ']' :: (m ++ '[' :: y) = (x ++ ']' :: m) ++ '[' :: y by simp, find_char _ y '[' hx]
  simp only
  rw [show (x ++ ']' :: m) ++ '[' :: y = x ++ ']' :: (m ++ '[' :: y) by simp, rfind_char x _ ']' hy]
  simp only
  rw [if_neg (by simp; omega)]

/-! ### Phrases -/

/-- Specification: words with single spaces between. -/
def Phrase (s : Str) : Prop := ∃ ws : List Str, (∀ w ∈ ws, isWord w) ∧ s = joinWith s%" " ws

theorem Phrase.join {s : Str} (h : Phrase s) : joinWith s%" " (splitWs s) = s := by
  obtain ⟨ws, h1, rfl⟩ := h
  rw [splitWs_join ws h1]

theorem joinWith_cons {w : Str} {ws : List Str} (h : ws ≠ []) :
    joinWith s%" " (w :: ws) = w ++ ' ' :: joinWith s%" " ws := by
  cases ws with
  | nil => exact absurd rfl h
  | cons v vs => simp [joinWith]

theorem joinWith_append {a b : List Str} (ha : a ≠ []) (hb : b ≠ []) :
    joinWith s%" " (a ++ b) = joinWith s%" " a ++ ' ' :: joinWith s%" " b := by
  induction a with
  | nil => exact absurd rfl ha
  | cons w a ih =>
    cases a with
    | nil => simp only [List.singleton_append]; rw [joinWith_cons hb]; rfl
    | cons v vs =>
      rw [List.cons_append, joinWith_cons (w := w) (ws := v :: vs ++ b) (by simp), ih (by simp), joinWith_cons (w := w) (ws := v :: vs) (by simp)]
      simp

theorem Phrase.nil : Phrase [] := ⟨[], by simp, rfl⟩

theorem Phrase.noNl {s : Str} (h : Phrase s) : noNl s := by
  obtain ⟨ws, h1, rfl⟩ := h
  induction ws with
  | nil => simp [joinWith, Silverfox.noNl]
  | cons w ws ih =>
    have hw : '\n' ∉ w := fun hm => by
      have := (h1 w (by simp)).2 _ hm
      rw [isWs_nl] at this; cases this
    cases ws with
    | nil => exact hw
    | cons v vs =>
      rw [joinWith_cons (by simp)]
      have := ih fun u hu => h1 u (by simp [hu])
      unfold Silverfox.noNl at this ⊢
      simp only [List.mem_append, List.mem_cons, not_or]
      exact ⟨hw, by decide, this⟩

theorem Phrase.trim {s : Str} (h : Phrase s) : trim s = s := by
  obtain ⟨ws, h1, rfl⟩ := h
  have hs : ∀ ws : List Str, (∀ w ∈ ws, isWord w) → joinWith s%" " ws = [] ∨
      ∃ c r, joinWith s%" " ws = c :: r ∧ isWs c = false := by
    intro ws h1
    cases ws with
    | nil => exact Or.inl rfl
    | cons w ws =>
      right
      obtain ⟨c, r, e⟩ := List.exists_cons_of_ne_nil (h1 w (by simp)).1
      have hc := (h1 w (by simp)).2 c (by rw [e]; simp)
      cases ws with
      | nil => exact ⟨c, r, e, hc⟩
      | cons v vs => rw [joinWith_cons (by simp), e]; exact ⟨c, _, rfl, hc⟩
  have he : ∀ ws : List Str, (∀ w ∈ ws, isWord w) → joinWith s%" " ws = [] ∨
      ∃ r c, joinWith s%" " ws = r ++ [c] ∧ isWs c = false := by
    intro ws h1
    rcases List.eq_nil_or_concat ws with rfl | ⟨us, w, rfl⟩
    · exact Or.inl rfl
    · right
      rw [List.concat_eq_append] at h1 ⊢
      have hw := h1 w (by simp)
      rcases List.eq_nil_or_concat w with e | ⟨r, c, e⟩
      · exact absurd e hw.1
      · rw [List.concat_eq_append] at e
        have hc := hw.2 c (by rw [e]; simp)
        cases us with
        | nil => exact ⟨r, c, e, hc⟩
        | cons u us =>
          rw [joinWith_append (by simp) (by simp)]
          refine ⟨joinWith s%" " (u :: us) ++ ' ' :: r, c, ?_, hc⟩
          show _ ++ ' ' :: w = _
          rw [e]; simp
  exact trim_id (hs ws h1) (he ws h1)

/-- Brackets around a phrase. -/
theorem bracket_words {P : List Str} (h : ∀ w ∈ P, isWord w) :
    ∃ Q : List Str, Q ≠ [] ∧ (∀ w ∈ Q, isWord w) ∧ joinWith s%" " Q = '[' :: (joinWith s%" " P ++ s%"]") := by
  have hr : ∀ P : List Str, P ≠ [] → (∀ w ∈ P, isWord w) → ∃ Q : List Str, Q ≠ [] ∧ (∀ w ∈ Q, isWord w) ∧
      joinWith s%" " Q = joinWith s%" " P ++ s%"]" := by
    intro P hne h
    induction P with
    | nil => exact absurd rfl hne
    | cons w P ih =>
      cases P with
      | nil =>
        refine ⟨[w ++ s%"]"], by simp, ?_, rfl⟩
        intro u hu
        simp at hu
        subst hu
        refine ⟨by simp, fun c hc => ?_⟩
        rcases List.mem_append.1 hc with hc | hc
        · exact (h w (by simp)).2 c hc
        · simp at hc; rw [hc]; decide
      | cons v vs =>
        obtain ⟨Q, hQ, hw, e⟩ := ih (by simp) fun u hu => h u (by simp [hu])
        refine ⟨w :: Q, by simp, ?_, ?_⟩
        · intro u hu
          rcases List.mem_cons.1 hu with rfl | hu
          · exact h u (by simp)
          · exact hw u hu
        · rw [joinWith_cons hQ, e, joinWith_cons (w := w) (ws := v :: vs) (by simp)]
          simp
  cases P with
  | nil => exact ⟨[s%"[]"], by simp, by intro w hw; simp at hw; subst hw; exact ⟨by decide, by decide⟩, rfl⟩
  | cons w P =>
    obtain ⟨Q, hQ, hw, e⟩ := hr (('[' :: w) :: P) (by simp) (by
      intro u hu
      rcases List.mem_cons.1 hu with rfl | hu
      · refine ⟨by simp, fun c hc => ?_⟩
        rcases List.mem_cons.1 hc with rfl | hc
        · decide
        · exact (h w (by simp)).2 c hc
      · exact h u (by simp [hu]))
    refine ⟨Q, hQ, hw, ?_⟩
    rw [e]
    cases P with
    | nil => rfl
    | cons v vs =>
      rw [joinWith_cons (w := w) (ws := v :: vs) (by simp), joinWith_cons (w := '[' :: w) (ws := v :: vs) (by simp)]
      simp

end Silverfox
