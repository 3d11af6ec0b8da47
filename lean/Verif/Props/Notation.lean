import Verif.Props.EndToEnd
import Verif.Props.Quotes

/-
Amounts in the notation of a bank: another decimal symbol, and digits in groups (used by C119).
-/

namespace Silverfox

set_option linter.unusedSectionVars false

/-! ### Specification -/

/-- The word with another decimal symbol. -/
def putMark (dec : Char) (w : Str) : Str := w.map fun c => if c = '.' then dec else c

/-- The word without the points and commas that group digits. -/
def dropGroups (dec : Char) (w : Str) : Str := w.filter fun c => c = dec || (c ≠ '.' && c ≠ ',')

/-- Specification: a sign that can be the decimal symbol. -/
structure DecimalSign (dec : Char) : Prop where
  plain : isDigit dec = false ∧ dec ≠ '-' ∧ isWs dec = false ∧ dec ≠ ';' ∧ dec ≠ '%'
  short : dec.utf8Size = 1

/-- Specification: the amount `t`, written with the decimal symbol `dec` and perhaps with points and commas between the digits:
word by word the same, but for these. -/
structure InNotation (dec : Char) (t t' : Str) : Prop where
  words : (splitWs t').map (dropGroups dec) = (splitWs t).map (putMark dec)
  other : dec ≠ '.' → dec ∉ t
  dashes : t'.count '-' ≤ 1
  plain : NoComment t' ∧ NoOps t'

/-! ### What is read -/

theorem dropPairs_one {s : Str} (h : s.count '-' ≤ 1) : dropPairs s = s := by
  induction s with
  | nil => rfl
  | cons c s ih =>
    by_cases hc : c = '-'
    · subst hc
      rw [List.count_cons_self] at h
      have h0 : s.count '-' = 0 := by omega
      exact dropPairs_minus fun d hd e => by
        subst e
        exact absurd (List.count_pos_iff.2 hd) (by omega)
    · rw [dropPairs_cons hc, ih (by rw [List.count_cons_of_ne hc] at h; exact h)]

theorem amountClump_words {s : Str} (h : s.count '-' ≤ 1) (h1 : joinWith [' '] (splitWs s) = s)
    (h2 : (splitWs s).length = 1 ∨ (splitWs s).length = 2) : amountClump s = some s := by
  unfold amountClump
  rw [replaceAll_dashes, dropPairs_one h]
  generalize splitWs s = ws at h1 h2
  match ws, h2 with
  | [a], _ => simpa [joinWith] using h1
  | [a, b], _ => simp only; rw [h1]
  | [], h => simp at h
  | _ :: _ :: _ :: _, h => simp at h

theorem mag_word {dec : Char} (hd : DecimalSign dec) {w w' : Str} (h : dropGroups dec w' = putMark dec w) (ho : dec ≠ '.' → dec ∉ w) :
    w'.filter (isMagChar dec) = putMark dec (w.filter (isMagChar '.')) := by
  have h1 : w'.filter (isMagChar dec) = (dropGroups dec w').filter (isMagChar dec) := by
    unfold dropGroups
    rw [List.filter_filter]
    refine List.filter_congr fun c _ => ?_
    by_cases e : isMagChar dec c = true
    · have : c = dec ∨ (c ≠ '.' ∧ c ≠ ',') := by
        unfold isMagChar at e
        simp only [Bool.or_eq_true, beq_iff_eq] at e
        rcases e with (e | e) | e
        · right; constructor <;> rintro rfl <;> revert e <;> decide
        · exact Or.inl e
        · right; subst e; decide
      rw [e]
      rcases this with rfl | ⟨a, b⟩
      · simp
      · simp [a, b]
    · rw [Bool.not_eq_true] at e
      rw [e]; rfl
  rw [h1, h]
  unfold putMark
  rw [List.filter_map]
  congr 1
  refine List.filter_congr fun c hc => ?_
  simp only [Function.comp]
  by_cases e : c = '.'
  · subst e; simp [isMagChar]
  · rw [if_neg e]
    unfold isMagChar
    by_cases e2 : dec = '.'
    · rw [e2]
    · have : c ≠ dec := by rintro rfl; exact ho e2 hc
      have h3 : (c == dec) = false := by simpa using this
      have h4 : (c == '.') = false := by simpa using e
      rw [h3, h4]

theorem sym_word {dec : Char} {w w' : Str} (h : dropGroups dec w' = putMark dec w) (ho : dec ≠ '.' → dec ∉ w) :
    w'.filter (isSymbolChar dec) = w.filter (isSymbolChar '.') := by
  have h1 : w'.filter (isSymbolChar dec) = (dropGroups dec w').filter (isSymbolChar dec) := by
    unfold dropGroups
    rw [List.filter_filter]
    refine List.filter_congr fun c _ => ?_
    by_cases e : isSymbolChar dec c = true
    · have : c ≠ '.' ∧ c ≠ ',' := by
        unfold isSymbolChar at e
        simp only [Bool.and_eq_true, bne_iff_ne, ne_eq] at e
        exact ⟨e.1.2, e.2⟩
      rw [e]; simp [this.1, this.2]
    · rw [Bool.not_eq_true] at e
      rw [e]; rfl
  rw [h1, h]
  clear h h1
  induction w with
  | nil => rfl
  | cons c w ih =>
    have ih := ih fun e hm => ho e (by simp [hm])
    unfold putMark at ih ⊢
    rw [List.map_cons]
    by_cases e : c = '.'
    · subst e
      rw [if_pos rfl, List.filter_cons_of_neg (by simp [isSymbolChar, isMagChar]), ih,
        List.filter_cons_of_neg (by decide)]
    · rw [if_neg e]
      have hs : isSymbolChar dec c = isSymbolChar '.' c := by
        by_cases e2 : dec = '.'
        · rw [e2]
        · have h3 : (c == dec) = false := by
            simp only [beq_eq_false_iff_ne, ne_eq]
            rintro rfl
            exact ho e2 (by simp)
          have h4 : (c == '.') = false := by simpa using e
          unfold isSymbolChar isMagChar
          rw [h3, h4]
      rw [List.filter_cons, List.filter_cons, hs, ih]

theorem putMark_back {dec : Char} {w : Str} (ho : dec ≠ '.' → dec ∉ w) :
    (if dec != '.' then (putMark dec w).map (fun c => if c = dec then '.' else c) else putMark dec w) = w := by
  by_cases e : dec = '.'
  · subst e
    simp only [bne_self_eq_false, Bool.false_eq_true, if_false, putMark]
    conv_rhs => rw [← List.map_id w]
    exact List.map_congr_left fun c _ => by by_cases h : c = '.' <;> simp [h]
  · have : (dec != '.') = true := by simpa using e
    rw [this, if_pos rfl, putMark, List.map_map]
    conv_rhs => rw [← List.map_id w]
    refine List.map_congr_left fun c hc => ?_
    simp only [Function.comp]
    by_cases h : c = '.'
    · simp [h]
    · rw [if_neg h, if_neg (by rintro rfl; exact ho e hc)]; rfl

variable {M : Type} [Mag M]

/-- The amount is read as the same. -/
theorem notation_read {dec : Char} (hd : DecimalSign dec) {t t' : Str} (h : InNotation dec t t') (h1 : t.count '-' ≤ 1)
    (h2 : joinWith [' '] (splitWs t) = t) (h3 : (splitWs t).length = 1 ∨ (splitWs t).length = 2) :
    (Amount.parse (joinWith [' '] (splitWs t')) dec : Res (Amount M)) = Amount.parse t '.' := by
  have hlen : (splitWs t').length = (splitWs t).length := by
    have := congrArg List.length h.words
    simpa using this
  have hws := splitWs_isWord t'
  have hj : splitWs (joinWith [' '] (splitWs t')) = splitWs t' := splitWs_join _ hws
  have hcount : (joinWith [' '] (splitWs t')).count '-' ≤ 1 := by
    have key : ∀ ws : List Str, (joinWith [' '] ws).count '-' = (ws.flatten).count '-' := by
      intro ws
      induction ws with
      | nil => rfl
      | cons w ws ih =>
        cases ws with
        | nil => simp [joinWith]
        | cons v ws =>
          simp only [joinWith, List.flatten_cons, List.count_append] at ih ⊢
          rw [ih]; simp
    rw [key]
    have hl : ∀ s : Str, (letters s).count '-' = s.count '-' := fun s => List.count_filter (by decide)
    rw [← hl, letters_words, hl]
    exact h.dashes
  have c1 : amountClump t = some t := amountClump_words h1 h2 h3
  have c2 : amountClump (joinWith [' '] (splitWs t')) = some (joinWith [' '] (splitWs t')) :=
    amountClump_words hcount (by rw [hj]) (by rw [hj, hlen]; exact h3)
  have hsp : isMagChar dec ' ' = false := by
    unfold isMagChar
    have : (' ' == dec) = false := by
      simp only [beq_eq_false_iff_ne, ne_eq]
      rintro rfl
      exact absurd hd.plain.2.2.1 (by decide)
    rw [this]; decide
  have hsp' : isSymbolChar dec ' ' = true := by
    unfold isSymbolChar
    rw [hsp]; decide
  have hmag : rawMag dec (joinWith [' '] (splitWs t')) = rawMag '.' t := by
    have e : (joinWith [' '] (splitWs t')).filter (isMagChar dec) = putMark dec (t.filter (isMagChar '.')) := by
      have ho := h.other
      conv_rhs => rw [← h2]
      have ho' : ∀ w ∈ splitWs t, dec ≠ '.' → dec ∉ w := fun w hw e hm => ho e (((splitWs_infix t).1 w hw).subset hm)
      have hw := h.words
      generalize splitWs t' = ws' at hw
      generalize splitWs t = ws at hw ho'
      induction ws generalizing ws' with
      | nil =>
        cases ws' with
        | nil => rfl
        | cons _ _ => cases hw
      | cons w ws ih =>
        cases ws' with
        | nil => cases hw
        | cons w' ws' =>
          simp only [List.map_cons, List.cons.injEq] at hw
          have k1 := mag_word hd hw.1 (ho' w (by simp))
          have k2 := ih ws' hw.2 fun v hv => ho' v (by simp [hv])
          cases ws with
          | nil =>
            cases ws' with
            | nil => simpa [joinWith] using k1
            | cons _ _ => cases hw.2
          | cons v vs =>
            cases ws' with
            | nil => cases hw.2
            | cons v' vs' =>
              simp only [joinWith, List.filter_append, putMark, List.map_append] at k1 k2 ⊢
              rw [k1, k2, List.filter_cons_of_neg (by rw [hsp]; decide), List.filter_cons_of_neg (by decide)]
              simp
    have ho2 : dec ≠ '.' → dec ∉ t.filter (isMagChar '.') := fun e hm => h.other e (List.mem_filter.1 hm).1
    have := putMark_back ho2
    unfold rawMag
    simp only [e]
    rw [this]
    simp
  have hsym : rawSym dec (joinWith [' '] (splitWs t')) = rawSym '.' t := by
    have e : (joinWith [' '] (splitWs t')).filter (isSymbolChar dec) = t.filter (isSymbolChar '.') := by
      have ho := h.other
      conv_rhs => rw [← h2]
      have ho' : ∀ w ∈ splitWs t, dec ≠ '.' → dec ∉ w := fun w hw e hm => ho e (((splitWs_infix t).1 w hw).subset hm)
      have hw := h.words
      generalize splitWs t' = ws' at hw
      generalize splitWs t = ws at hw ho'
      induction ws generalizing ws' with
      | nil =>
        cases ws' with
        | nil => rfl
        | cons _ _ => cases hw
      | cons w ws ih =>
        cases ws' with
        | nil => cases hw
        | cons w' ws' =>
          simp only [List.map_cons, List.cons.injEq] at hw
          have k1 := sym_word hw.1 (ho' w (by simp))
          have k2 := ih ws' hw.2 fun v hv => ho' v (by simp [hv])
          cases ws with
          | nil =>
            cases ws' with
            | nil => simpa [joinWith] using k1
            | cons _ _ => cases hw.2
          | cons v vs =>
            cases ws' with
            | nil => cases hw.2
            | cons v' vs' =>
              simp only [joinWith, List.filter_append] at k1 k2 ⊢
              rw [k1, k2, List.filter_cons_of_pos (by rw [hsp']), List.filter_cons_of_pos (by decide)]
              simp
    unfold rawSym
    rw [e]
  unfold Amount.parse
  rw [c1, c2]
  simp only [hmag, hsym]

theorem WrittenAmount.oneDash {t : Str} {q : Rat} {s : Option Str} (h : WrittenAmount t q s) :
    t.count '-' ≤ 1 ∧ ((splitWs t).length = 1 ∨ (splitWs t).length = 2) := by
  obtain ⟨w, neg, d, k, h1, _, h3⟩ := h
  have hw : isWord w := ⟨h1.chars.1, h1.noWs⟩
  have hc : w.count '-' ≤ 1 := by
    obtain ⟨_, r, hr, hd⟩ := h1.chars
    have : r.count '-' = 0 := List.count_eq_zero.2 fun hm => by
      rcases hd _ hm with e | e <;> revert e <;> decide
    rw [hr, List.count_append, this]
    cases neg <;> simp
  rcases h3 with ⟨_, rfl⟩ | ⟨sym, _, hv, ht⟩
  · rw [splitWs_word hw]; exact ⟨hc, Or.inl rfl⟩
  · have hs : isWord sym := ⟨hv.1, fun c hc => (hv.2 c hc).1⟩
    have hs0 : sym.count '-' = 0 := List.count_eq_zero.2 fun hm => by
      have := (hv.2 _ hm).isSym
      unfold isSymbolChar isMagChar at this
      revert this; decide
    have hcat : ∀ a b : Str, isWord a → isWord b → isWord (a ++ b) := fun a b ha hb =>
      ⟨by simp [ha.1], fun c hc => (List.mem_append.1 hc).elim (ha.2 c) (hb.2 c)⟩
    simp only [List.mem_cons, List.not_mem_nil, or_false] at ht
    rcases ht with rfl | rfl | rfl | rfl
    · rw [splitWs_word (hcat _ _ hs hw), List.count_append, hs0]; exact ⟨by omega, Or.inl rfl⟩
    · rw [splitWs_word (hcat _ _ hw hs), List.count_append, hs0]; exact ⟨by omega, Or.inl rfl⟩
    · rw [show sym ++ s%" " ++ w = sym ++ ' ' :: w by simp, splitWs_words2 hs hw, List.count_append,
        List.count_cons_of_ne (by decide), hs0]
      exact ⟨by omega, Or.inr rfl⟩
    · rw [show w ++ s%" " ++ sym = w ++ ' ' :: sym by simp, splitWs_words2 hw hs, List.count_append,
        List.count_cons_of_ne (by decide), hs0]
      exact ⟨by omega, Or.inr rfl⟩

/-- A line with the amount is read as the posting. -/
theorem notation_posting {dec : Char} (hd : DecimalSign dec) {known : List Str} {a t t' : Str} {q : Rat} {s : Option Str}
    (h : InNotation dec t t') (hw : WrittenAmount t q s) (ha : isWord a) (hrc : rc a = a) (he : a ≠ s%"envelope") (hk : a ∈ known)
    {y : Amount M} (hy : Amount.parse t '.' = .ok y) :
    Posting.parse (a ++ s%" " ++ t') dec known = .ok (.classic ⟨a, some y, none, none⟩) := by
  have hs : allWs s%" " := by decide
  have hne : splitWs t' ≠ [] := by
    intro e
    have := congrArg List.length h.words
    rw [e] at this
    obtain ⟨_, h2 | h2⟩ := hw.oneDash <;> simp [h2] at this
  have h1 : Silverfox.splitWs (trim (removeComments (a ++ s%" " ++ t'))) = a :: (Silverfox.splitWs t' ++ clauseToks []) := by
    have e : rc (a ++ s%" " ++ t') = a ++ s%" " ++ t' := by
      rw [show a ++ s%" " ++ t' = a ++ ' ' :: t' by simp, rc_space hrc, (noComment_iff _).1 h.plain.1]
    rw [splitWs_trim, removeComments_eq_rc, e, splitWs_cons_gap ha hs (by simp)]
    simp [clauseToks]
  have hops : ∀ u ∈ Silverfox.splitWs t', isOp u = false := fun u hu => isOp_false (h.plain.2 u hu)
  rw [Posting.parse_classic _ dec known h1 he, Classic.parse_clauses h1 ⟨hops, by simp, by simp, by simp⟩ dec known]
  have hfirst : (firstAmount (Silverfox.splitWs t') dec : Res (Option (Amount M))) = .ok (some y) := by
    unfold firstAmount
    rw [if_neg (by rw [joinWith_ne_blank (splitWs_isWord _) hne]; simp), notation_read hd h hw.oneDash.1 hw.words.2 hw.oneDash.2, hy]
    rfl
  rw [hfirst]
  have hc : known.contains a = true := by rw [List.contains_iff_mem]; exact hk
  simp only [bind, Except.bind, clauseAmount, clauseCost, List.find?_nil, Except.map, pure, Except.pure, hc, if_true, Option.map]

/-- A line without an amount. -/
theorem blank_posting (dec : Char) {known : List Str} {b : Str} (hb : isWord b) (hrc : rc b = b) (he : b ≠ s%"envelope") (hk : b ∈ known) :
    (Posting.parse b dec known : Res (Posting M)) = .ok (.classic ⟨b, none, none, none⟩) := by
  have h1 : Silverfox.splitWs (trim (removeComments b)) = b :: ([] ++ clauseToks []) := by
    rw [splitWs_trim, removeComments_eq_rc, hrc, splitWs_word hb]
    simp [clauseToks]
  rw [Posting.parse_classic _ dec known h1 he, Classic.parse_clauses h1 ⟨by simp, by simp, by simp, by simp⟩ dec known]
  have hfirst : (firstAmount [] dec : Res (Option (Amount M))) = .ok none := rfl
  rw [hfirst]
  have hc : known.contains b = true := by rw [List.contains_iff_mem]; exact hk
  simp only [bind, Except.bind, clauseAmount, clauseCost, List.find?_nil, Except.map, pure, Except.pure, hc, if_true, Option.map]

end Silverfox
