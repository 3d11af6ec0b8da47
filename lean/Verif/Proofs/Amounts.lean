import Verif.Model.Amount
import Verif.Proofs.Strings
import Verif.Proofs.Numerals

/-
Lemmas on reading and printing amounts.
-/

namespace Silverfox

set_option linter.unusedSectionVars false

variable {M : Type} [Mag M]

/-! ### Double dashes -/

/-- Specification: the text without its double dashes, taken from the left. -/
def dropPairs : Str → Str
  | '-' :: '-' :: r => dropPairs r
  | c :: r => c :: dropPairs r
  | [] => []

theorem dropPairs_cons {c : Char} (h : c ≠ '-') (r : Str) : dropPairs (c :: r) = c :: dropPairs r := by
  rw [dropPairs.eq_def]
  split
  · rename_i e; simp only [List.cons.injEq] at e; exact absurd e.1 h
  · rename_i e; simp only [List.cons.injEq] at e; rw [e.1, e.2]
  · rename_i e; cases e

theorem dropPairs_dash {r : Str} (h : r.head? ≠ some '-') : dropPairs ('-' :: r) = '-' :: dropPairs r := by
  rw [dropPairs.eq_def]
  split
  · rename_i e; simp only [List.cons.injEq] at e; rw [e.2] at h; simp at h
  · rename_i e; simp only [List.cons.injEq] at e; rw [← e.1, ← e.2]
  · rename_i e; cases e

theorem dropPairs_pair (r : Str) : dropPairs ('-' :: '-' :: r) = dropPairs r := by
  rw [dropPairs]

theorem replaceAll_dashes (s : Str) : replaceAll s%"--" [] s = dropPairs s := by
  unfold replaceAll
  induction s using dropPairs.induct with
  | case1 r ih =>
    rw [dropPairs_pair, ← ih]
    simp [replaceGo]
  | case2 c r hno ih =>
    by_cases hc : c = '-'
    · subst hc
      have hh : r.head? ≠ some '-' := by
        intro e
        cases r with
        | nil => cases e
        | cons d r =>
          simp at e; subst e
          exact hno r rfl rfl
      rw [dropPairs_dash hh, ← ih]
      cases r with
      | nil => simp [replaceGo]
      | cons d r =>
        simp at hh
        simp [replaceGo, Ne.symm hh]
    · rw [dropPairs_cons hc, ← ih]
      simp [replaceGo, Ne.symm hc]
  | case3 => rfl

/-- Two texts side by side, unless two dashes meet. -/
theorem dropPairs_append (a b : Str) (h : b.head? ≠ some '-') :
    dropPairs (a ++ b) = dropPairs a ++ dropPairs b := by
  induction a using dropPairs.induct with
  | case1 r ih =>
    rw [List.cons_append, List.cons_append, dropPairs_pair, dropPairs_pair, ih]
  | case2 c r hno ih =>
    by_cases hc : c = '-'
    · subst hc
      have hr : r.head? ≠ some '-' := by
        intro e
        cases r with
        | nil => cases e
        | cons d r =>
          simp at e; subst e
          exact hno r rfl rfl
      have hr' : (r ++ b).head? ≠ some '-' := by
        cases r with
        | nil => simpa using h
        | cons d r => simpa using hr
      rw [List.cons_append, dropPairs_dash hr', dropPairs_dash hr, ih, List.cons_append]
    · rw [List.cons_append, dropPairs_cons hc, dropPairs_cons hc, ih, List.cons_append]
  | case3 => rfl

theorem dropPairs_ink_append (a : Str) {c : Char} (hc : c ≠ '-') (b : Str) :
    dropPairs (a ++ c :: b) = dropPairs a ++ c :: dropPairs b := by
  rw [dropPairs_append _ _ (by simpa using hc), dropPairs_cons hc]

/-- No dash, nothing to delete. -/
theorem dropPairs_none {s : Str} (h : ∀ c ∈ s, c ≠ '-') : dropPairs s = s := by
  induction s with
  | nil => rfl
  | cons c s ih =>
    rw [dropPairs_cons (h c (by simp)), ih fun d hd => h d (by simp [hd])]

/-- A single dash in front stays. -/
theorem dropPairs_minus {s : Str} (h : ∀ c ∈ s, c ≠ '-') : dropPairs ('-' :: s) = '-' :: s := by
  rw [dropPairs_dash, dropPairs_none h]
  cases s with
  | nil => simp
  | cons c s => simpa using h c (by simp)

theorem dropPairs_mem {s : Str} {c : Char} (h : c ∈ dropPairs s) : c ∈ s := by
  induction s using dropPairs.induct with
  | case1 r ih => rw [dropPairs_pair] at h; simp [ih h]
  | case2 d r hno ih =>
    rw [dropPairs.eq_2 d r (fun r' h1 h2 => hno r' h1 h2)] at h
    rcases List.mem_cons.1 h with h | h
    · simp [h]
    · simp [ih h]
  | case3 => exact h

/-! ### The clump -/

theorem amountClump_eq (s : Str) : amountClump s =
    match splitWs (dropPairs s) with
    | [a] => some a
    | [a, b] => some (a ++ ' ' :: b)
    | _ => none := by
  unfold amountClump
  rw [replaceAll_dashes]
  split <;> simp_all [joinWith]

theorem splitWs_words2 {a b : Str} (ha : isWord a) (hb : isWord b) : splitWs (a ++ ' ' :: b) = [a, b] := by
  rw [splitWs_append_ws _ isWs_space, splitWs_word ha, splitWs_word hb]
  rfl

/-- Characters of a symbol: no whitespace, digit, dash, dot, comma or decimal symbol. -/
def symChar (dec c : Char) : Prop :=
  isWs c = false ∧ isDigit c = false ∧ c ≠ '-' ∧ c ≠ '.' ∧ c ≠ ',' ∧ c ≠ dec

/-- Specification: a currency symbol. -/
def ValidSymbol (dec : Char) (s : Str) : Prop := s ≠ [] ∧ ∀ c ∈ s, symChar dec c

instance (dec c : Char) : Decidable (symChar dec c) := by unfold symChar; infer_instance
instance (dec : Char) (s : Str) : Decidable (ValidSymbol dec s) := by unfold ValidSymbol; infer_instance

theorem symChar.isSym {dec c : Char} (h : symChar dec c) : isSymbolChar dec c = true := by
  obtain ⟨_, h1, h2, h3, h4, h5⟩ := h
  simp [isSymbolChar, isMagChar, h1, h2, h3, h4, h5]

theorem symChar.notMag {dec c : Char} (h : symChar dec c) : isMagChar dec c = false := by
  obtain ⟨_, h1, h2, h3, h4, h5⟩ := h
  simp [isMagChar, h1, h2, h5]

theorem ValidSymbol.word {dec : Char} {s : Str} (h : ValidSymbol dec s) : isWord s :=
  ⟨h.1, fun c hc => (h.2 c hc).1⟩

theorem ValidSymbol.noDash {dec : Char} {s : Str} (h : ValidSymbol dec s) : ∀ c ∈ s, c ≠ '-' :=
  fun c hc => (h.2 c hc).2.2.1

theorem ValidSymbol.filterSym {dec : Char} {s : Str} (h : ValidSymbol dec s) :
    s.filter (isSymbolChar dec) = s := List.filter_eq_self.2 fun c hc => (h.2 c hc).isSym

theorem ValidSymbol.filterMag {dec : Char} {s : Str} (h : ValidSymbol dec s) :
    s.filter (isMagChar dec) = [] := List.filter_eq_nil_iff.2 fun c hc => by simp [(h.2 c hc).notMag]

theorem isMagChar_space {dec : Char} (h : isWs dec = false) : isMagChar dec ' ' = false := by
  have : dec ≠ ' ' := fun e => by rw [e, isWs_space] at h; cases h
  simp [isMagChar, Ne.symm this]
  decide

theorem isSymbolChar_space {dec : Char} (h : isWs dec = false) : isSymbolChar dec ' ' = true := by
  simp [isSymbolChar, isMagChar_space h]

theorem rawMag_congr {dec : Char} {a b : Str} (h : a.filter (isMagChar dec) = b.filter (isMagChar dec)) :
    rawMag dec a = rawMag dec b := by
  unfold rawMag; simp only [h]

theorem word_trim {s : Str} (h : isWord s) : trim s = s := by
  apply trim_id
  · cases s with
    | nil => exact Or.inl rfl
    | cons c r => exact Or.inr ⟨c, r, rfl, h.2 c (by simp)⟩
  · rcases List.eq_nil_or_concat s with e | ⟨r, c, e⟩
    · exact Or.inl e
    · rw [List.concat_eq_append] at e
      exact Or.inr ⟨r, c, e, h.2 c (by rw [e]; simp)⟩

theorem rawSym_of {dec : Char} {clump s : Str} (h : trim (clump.filter (isSymbolChar dec)) = s) (hs : s ≠ []) :
    rawSym dec clump = some s := by
  unfold rawSym
  simp only [h]
  rw [if_neg (by simpa using hs)]

/-- A symbol next to a number in one or two words. -/
theorem Amount.parse_spellings {dec : Char} (hdec : isWs dec = false) {w sym : Str} {m : M}
    (hw : ∀ c ∈ w, isWs c = false) (hsym : ValidSymbol dec sym)
    (h : Amount.parse w dec = .ok (⟨m, none⟩ : Amount M)) :
    Amount.parse (sym ++ w) dec = .ok (⟨m, some sym⟩ : Amount M) ∧
      Amount.parse (w ++ sym) dec = .ok (⟨m, some sym⟩ : Amount M) ∧
      Amount.parse (sym ++ ' ' :: w) dec = .ok (⟨m, some sym⟩ : Amount M) ∧
      Amount.parse (w ++ ' ' :: sym) dec = .ok (⟨m, some sym⟩ : Amount M) := by
  -- what is known of `w`
  have hv : ∀ c ∈ dropPairs w, isWs c = false := fun c hc => hw c (dropPairs_mem hc)
  unfold Amount.parse at h
  rw [amountClump_eq] at h
  have hne : dropPairs w ≠ [] := by
    intro e
    rw [e] at h
    simp [splitWs, fail] at h
  rw [splitWs_word ⟨hne, hv⟩] at h
  simp only at h
  cases hm : Mag.parse (M := M) (rawMag dec (dropPairs w)) with
  | none => rw [hm] at h; cases h
  | some m' =>
  rw [hm] at h
  simp only [Except.ok.injEq, Amount.mk.injEq] at h
  obtain ⟨rfl, hs⟩ := h
  have hfil : (dropPairs w).filter (isSymbolChar dec) = [] := by
    unfold rawSym at hs
    simp only at hs
    split at hs
    · rename_i he
      have := trim_eq_nil.1 (List.isEmpty_iff.1 he)
      rw [List.eq_nil_iff_forall_not_mem]
      intro c hc
      have h1 := this c hc
      rw [hv c (List.mem_filter.1 hc).1] at h1
      cases h1
    · cases hs
  generalize hvd : dropPairs w = v at *
  have fin : ∀ s clump : Str, amountClump s = some clump →
      clump.filter (isMagChar dec) = v.filter (isMagChar dec) →
      trim (clump.filter (isSymbolChar dec)) = sym →
      Amount.parse s dec = .ok (⟨m', some sym⟩ : Amount M) := by
    intro s clump h1 h2 h3
    unfold Amount.parse
    rw [h1]
    simp only
    rw [rawMag_congr h2, hm, rawSym_of h3 hsym.1]
  have ts := word_trim hsym.word
  have hd := dropPairs_none hsym.noDash
  have c1 : dropPairs (w ++ sym) = v ++ sym := by
    rw [dropPairs_append, hvd, hd]
    obtain ⟨c, r, e⟩ := List.exists_cons_of_ne_nil hsym.1
    rw [e]
    simpa using hsym.noDash c (by rw [e]; simp)
  have c2 : dropPairs (sym ++ w) = sym ++ v := by
    have key : ∀ t : Str, (∀ c ∈ t, c ≠ '-') → dropPairs (t ++ w) = t ++ v := by
      intro t ht
      induction t with
      | nil => simpa using hvd
      | cons c t ih =>
        rw [List.cons_append, dropPairs_cons (ht c (by simp)), ih fun d hd => ht d (by simp [hd])]
        rfl
    exact key sym hsym.noDash
  have c3 : dropPairs (w ++ ' ' :: sym) = v ++ ' ' :: sym := by
    rw [dropPairs_ink_append _ (by decide), hvd, hd]
  have c4 : dropPairs (sym ++ ' ' :: w) = sym ++ ' ' :: v := by
    rw [dropPairs_ink_append _ (by decide), hvd, hd]
  have wv : isWord v := ⟨hne, hv⟩
  have w1 : isWord (v ++ sym) := ⟨by simp [hne], fun c hc => (List.mem_append.1 hc).elim (wv.2 c) (hsym.word.2 c)⟩
  have w2 : isWord (sym ++ v) := ⟨by simp [hne], fun c hc => (List.mem_append.1 hc).elim (hsym.word.2 c) (wv.2 c)⟩
  refine ⟨fin _ (sym ++ v) ?_ ?_ ?_, fin _ (v ++ sym) ?_ ?_ ?_, fin _ (sym ++ ' ' :: v) ?_ ?_ ?_,
    fin _ (v ++ ' ' :: sym) ?_ ?_ ?_⟩
  · rw [amountClump_eq, c2, splitWs_word w2]
  · simp [hsym.filterMag]
  · simp [hsym.filterSym, hfil, ts]
  · rw [amountClump_eq, c1, splitWs_word w1]
  · simp [hsym.filterMag]
  · simp [hsym.filterSym, hfil, ts]
  · rw [amountClump_eq, c4, splitWs_words2 hsym.word wv]
  · simp [hsym.filterMag, isMagChar_space hdec]
  · rw [List.filter_append, hsym.filterSym, List.filter_cons_of_pos (isSymbolChar_space hdec), hfil,
      trim_ws_right _ (by intro c hc; simp at hc; rw [hc]; exact isWs_space), ts]
  · rw [amountClump_eq, c3, splitWs_words2 wv hsym.word]
  · simp [hsym.filterMag, isMagChar_space hdec]
  · rw [List.filter_append, hfil, List.nil_append, List.filter_cons_of_pos (isSymbolChar_space hdec), hsym.filterSym,
      show ' ' :: sym = [' '] ++ sym from rfl,
      trim_ws_left (by intro c hc; simp at hc; rw [hc]; exact isWs_space), ts]

/-- Whitespace around an amount does not matter. -/
theorem Amount.parse_ws {dec : Char} {a s b : Str} (ha : allWs a) (hb : allWs b) :
    Amount.parse (a ++ s ++ b) dec = (Amount.parse s dec : Res (Amount M)) := by
  have nd : ∀ {t : Str}, allWs t → ∀ c ∈ t, c ≠ '-' := by
    intro t ht c hc e
    have := ht c hc
    rw [e] at this
    revert this; decide
  have hl : ∀ {t : Str}, allWs t → t.head? ≠ some '-' := by
    intro t ht
    cases t with
    | nil => simp
    | cons c t => simpa using nd ht c (by simp)
  have hd : dropPairs (a ++ s ++ b) = a ++ dropPairs s ++ b := by
    rw [dropPairs_append _ _ (hl hb), dropPairs_none (nd hb)]
    congr 1
    have key : ∀ t : Str, (∀ c ∈ t, c ≠ '-') → dropPairs (t ++ s) = t ++ dropPairs s := by
      intro t ht
      induction t with
      | nil => rfl
      | cons c t ih =>
        rw [List.cons_append, dropPairs_cons (ht c (by simp)), ih fun d hd => ht d (by simp [hd])]
        rfl
    exact key a (nd ha)
  unfold Amount.parse
  rw [amountClump_eq, amountClump_eq, hd, splitWs_ws_right _ hb, splitWs_ws_left ha]

/-! ### Numbers -/

theorem isDigit_ws {c : Char} (h : isDigit c = true) : isWs c = false := by
  unfold isDigit at h
  unfold isWs
  simp at h ⊢
  omega

theorem isDigit_ne {c : Char} (h : isDigit c = true) : c ≠ '-' ∧ c ≠ '.' ∧ c ≠ ',' := by
  refine ⟨?_, ?_, ?_⟩ <;> · rintro rfl; revert h; decide

/-- The text of a number with no symbol, decimal dot. -/
theorem Amount.parse_numeral {w : Str} {neg : Bool} {d k : Nat} (h : IsNumeral w neg d k) {m : M}
    (hm : Mag.parse w = some m) : Amount.parse w '.' = .ok (⟨m, none⟩ : Amount M) := by
  obtain ⟨hne, r, hr, hc⟩ := h.chars
  have hnd : ∀ c ∈ r, c ≠ '-' := by
    intro c h1
    rcases hc c h1 with h | h
    · exact (isDigit_ne h).1
    · rw [h]; decide
  have hcw : ∀ c ∈ w, (isDigit c = true ∨ c = '.') ∨ c = '-' := by
    intro c h1
    rw [hr] at h1
    rcases List.mem_append.1 h1 with h1 | h1
    · cases neg <;> simp at h1
      exact Or.inr h1
    · exact Or.inl (hc c h1)
  have hd : dropPairs w = w := by
    rw [hr]
    cases neg with
    | true => exact dropPairs_minus hnd
    | false => exact dropPairs_none hnd
  have hw : isWord w := by
    refine ⟨hne, fun c h1 => ?_⟩
    rcases hcw c h1 with (h | h) | h
    · exact isDigit_ws h
    · rw [h]; decide
    · rw [h]; decide
  have hmag : w.filter (isMagChar '.') = w := by
    refine List.filter_eq_self.2 fun c h1 => ?_
    rcases hcw c h1 with (h | h) | h
    · simp [isMagChar, h]
    · rw [h]; decide
    · rw [h]; decide
  have hsym : w.filter (isSymbolChar '.') = [] := by
    refine List.filter_eq_nil_iff.2 fun c h1 => ?_
    have : isMagChar '.' c = true := (List.filter_eq_self.1 hmag) c h1
    simp [isSymbolChar, this]
  have h1 : rawMag '.' w = w := by unfold rawMag; simp [hmag]
  have h2 : rawSym '.' w = none := by unfold rawSym; rw [hsym]; rfl
  unfold Amount.parse
  rw [amountClump_eq, hd, splitWs_word hw]
  simp only [h1, h2, hm]

theorem IsNumeral.noWs {w : Str} {neg : Bool} {d k : Nat} (h : IsNumeral w neg d k) :
    ∀ c ∈ w, isWs c = false := by
  obtain ⟨_, r, hr, hc⟩ := h.chars
  intro c h1
  rw [hr] at h1
  rcases List.mem_append.1 h1 with h1 | h1
  · cases neg <;> simp at h1
    rw [h1]; decide
  · rcases hc c h1 with h | h
    · exact isDigit_ws h
    · rw [h]; decide

/-! ### Printing -/

/-- The text of a magnitude is a numeral that reads back as that magnitude. -/
def FmtOk (m : M) : Prop := (∃ neg d k, IsNumeral (Mag.fmt m) neg d k) ∧ Mag.parse (Mag.fmt m) = some m

theorem fmtOk_f64 {x : F64} (h : x.finite = true) : FmtOk x := by
  obtain ⟨neg, d, k, h1, h2⟩ := F64.fmt_numeral x h
  exact ⟨⟨neg, d, k, h1⟩, h2⟩

theorem round8_rat (m : Rat) : round8 m = (ratRound (m * 100000000) : Rat) / 100000000 := by
  unfold round8
  show (ratRound (m * ((100000000 : Int) : Rat)) : Rat) / ((100000000 : Int) : Rat) = _
  push_cast
  rfl

theorem fmtOk_rat (m : Rat) : FmtOk (round8 m) := by
  rw [round8_rat]
  exact ratFmt_numeral _

theorem Amount.parse_display {a : Amount M} (h : FmtOk (round8 a.mag))
    (hs : ∀ s, a.sym = some s → ValidSymbol '.' s) :
    Amount.parse a.display '.' = .ok ⟨round8 a.mag, a.sym⟩ := by
  obtain ⟨⟨neg, d, k, hn⟩, hp⟩ := h
  have h0 : Amount.parse (Mag.fmt (round8 a.mag)) '.' = .ok (⟨round8 a.mag, none⟩ : Amount M) :=
    Amount.parse_numeral hn hp
  have wsp : allWs [' '] := by intro c hc; simp at hc; rw [hc]; exact isWs_space
  obtain ⟨m, y⟩ := a
  simp only at h0 hs hn ⊢
  generalize hw : Mag.fmt (round8 m) = w at h0 hn
  cases y with
  | none =>
    unfold Amount.display magText
    simp only [hw]
    split
    · simpa using h0
    · have := Amount.parse_ws (M := M) (dec := '.') (s := w) wsp allWs_nil
      simp only [List.append_nil, List.singleton_append] at this
      rw [this, h0]
  | some sym =>
    have hv := hs sym rfl
    obtain ⟨h1, h2, h3, h4⟩ := Amount.parse_spellings (by decide) hn.noWs hv h0
    unfold Amount.display magText
    simp only [hw]
    split
    · split
      · exact h1
      · exact h3
    · split
      · exact h4
      · have := Amount.parse_ws (M := M) (dec := '.') (s := w ++ ' ' :: sym) wsp allWs_nil
        simp only [List.append_nil, List.singleton_append] at this
        rw [List.cons_append, this, h4]

end Silverfox
