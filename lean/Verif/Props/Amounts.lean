import Verif.Proofs.Amounts

/-
C05-C08: reading and printing amounts.
-/

namespace Silverfox

set_option linter.unusedSectionVars false

variable {M : Type} [Mag M]

/-! ### C05 -/

/-- C05. If the word `w` alone reads as the number `m` without a symbol, then with the symbol before
or after it, with or without a space between, it reads as `m` of that symbol. -/
theorem C05_symbol_position {dec : Char} (hdec : isWs dec = false) {w sym : Str} {m : M}
    (hw : ∀ c ∈ w, isWs c = false) (hsym : ValidSymbol dec sym)
    (h : Amount.parse w dec = .ok (⟨m, none⟩ : Amount M)) :
    ∀ t ∈ [sym ++ w, w ++ sym, sym ++ s%" " ++ w, w ++ s%" " ++ sym],
      Amount.parse t dec = .ok (⟨m, some sym⟩ : Amount M) := by
  obtain ⟨h1, h2, h3, h4⟩ := Amount.parse_spellings hdec hw hsym h
  intro t ht
  simp only [List.append_assoc, List.cons_append, List.nil_append, List.mem_cons, List.not_mem_nil, or_false] at ht
  rcases ht with rfl | rfl | rfl | rfl
  · exact h1
  · exact h2
  · exact h3
  · exact h4

/-- Which words are numbers without a symbol: optional minus, digits, optionally the decimal symbol and
more digits, group separators left out. With a decimal dot: -/
theorem C05_numbers {w : Str} {neg : Bool} {d k : Nat} (h : IsNumeral w neg d k) :
    (∃ m : F64, Amount.parse w '.' = .ok ⟨m, none⟩ ∧ m = F64.mkRound neg (d * F64.unit) (10 ^ k)) ∧
      (∃ m : Rat, Amount.parse w '.' = .ok ⟨m, none⟩ ∧ m = (if neg then -1 else 1) * ((d : Rat) / 10 ^ k)) := by
  have hp := (parseNumeral_iff _ _ _ _).2 h
  constructor
  · refine ⟨_, Amount.parse_numeral h ?_, rfl⟩
    show F64.parse w = _
    unfold F64.parse
    rw [hp]; rfl
  · refine ⟨_, Amount.parse_numeral h ?_, rfl⟩
    show ratParse w = _
    unfold ratParse
    rw [hp]
    cases neg <;> simp

example : Amount.parse s%"-1,234.5" '.' = .ok (⟨-2469 / 2, none⟩ : Amount Rat) ∧ ValidSymbol '.' s%"BTC" ∧
    Amount.parse s%"BTC -1,234.5" '.' = .ok (⟨-2469 / 2, some s%"BTC"⟩ : Amount Rat) := by decide +kernel

/-! ### C06 -/

/-- Specification: one word, or two words with whitespace between, whitespace around. -/
def OneOrTwoWords (t : Str) : Prop :=
  (∃ a w b, allWs a ∧ isWord w ∧ allWs b ∧ t = a ++ w ++ b) ∨
    ∃ a v g w b, allWs a ∧ isWord v ∧ allWs g ∧ g ≠ [] ∧ isWord w ∧ allWs b ∧ t = a ++ v ++ g ++ w ++ b

/-- Specification: the digits, decimal symbols and dashes of a text in order, decimal symbols as dots. -/
def spelled (dec : Char) (t : Str) : Str :=
  (t.filter fun c => isDigit c || c == dec || c == '-').map fun c => if c = dec then '.' else c

/-- Specification: everything else but dots and commas, in order, whitespace trimmed; a gap of
whitespace between two words counts as one space. -/
def symbolOf (dec : Char) (ts : List Str) : Option Str :=
  let t := trim ((joinWith s%" " ts).filter fun c => !(isDigit c || c == dec || c == '-' || c == '.' || c == ','))
  if t = [] then none else some t

theorem splitWs_snoc_word (a : Str) {w : Str} (ha : a = [] ∨ ∃ r c, a = r ++ [c] ∧ isWs c = true) (hw : isWord w) :
    splitWs (a ++ w) = splitWs a ++ [w] := by
  rcases ha with rfl | ⟨r, c, rfl, hc⟩
  · simp [splitWs, splitWs_word hw]
  · rw [List.append_assoc, List.singleton_append, splitWs_append_ws _ hc, splitWs_append_ws r hc []]
    simp [splitWs, splitWs_word hw]

/-- A text that starts with ink is a word and a rest that starts with whitespace. -/
theorem span_word {c : Char} {s : Str} (h : isWs c = false) :
    ∃ w r, isWord w ∧ (r = [] ∨ ∃ d q, r = d :: q ∧ isWs d = true) ∧ c :: s = w ++ r := by
  refine ⟨(c :: s).takeWhile (fun d => !isWs d), (c :: s).dropWhile (fun d => !isWs d), ⟨?_, ?_⟩, ?_,
    List.takeWhile_append_dropWhile.symm⟩
  · simp [h]
  · intro d hd
    have := List.all_takeWhile (p := fun d => !isWs d) (l := c :: s)
    have := List.all_eq_true.1 this d hd
    simpa using this
  · cases hr : (c :: s).dropWhile (fun d => !isWs d) with
    | nil => exact Or.inl rfl
    | cons d q =>
      refine Or.inr ⟨d, q, rfl, ?_⟩
      have := List.head?_dropWhile_not (fun d => !isWs d) (c :: s)
      rw [hr] at this
      simpa using this

theorem splitWs_cons_word {s : Str} {w : Str} {ts : List Str} (h : splitWs s = w :: ts) :
    ∃ a r, allWs a ∧ isWord w ∧ (r = [] ∨ ∃ d q, r = d :: q ∧ isWs d = true) ∧ s = a ++ w ++ r ∧ splitWs r = ts := by
  obtain ⟨a, h1, h2, h3⟩ := trimStart_spec s
  rcases h3 with h3 | ⟨c, q, h3, hc⟩
  · rw [h2, h3, splitWs_ws_left h1] at h
    cases h
  · obtain ⟨v, r, hv, hr, e⟩ := span_word (s := q) hc
    have hs : s = a ++ v ++ r := by rw [h2, h3, e, List.append_assoc]
    have : splitWs s = v :: splitWs r := by
      rw [hs, List.append_assoc, splitWs_ws_left h1]
      rcases hr with rfl | ⟨d, p, rfl, hd⟩
      · simp [splitWs, splitWs_word hv]
      · rw [splitWs_append_ws _ hd, splitWs_word hv, splitWs_ws_cons hd]; rfl
    rw [this] at h
    cases h
    exact ⟨a, r, h1, hv, hr, hs, rfl⟩

theorem oneOrTwoWords_iff (t : Str) : OneOrTwoWords t ↔ (∃ w, splitWs t = [w]) ∨ ∃ v w, splitWs t = [v, w] := by
  constructor
  · rintro (⟨a, w, b, ha, hw, hb, rfl⟩ | ⟨a, v, g, w, b, ha, hv, hg, hne, hw, hb, rfl⟩)
    · left
      exact ⟨w, by rw [splitWs_ws_right _ hb, splitWs_ws_left ha, splitWs_word hw]⟩
    · right
      refine ⟨v, w, ?_⟩
      rw [splitWs_ws_right _ hb]
      obtain ⟨c, g', rfl⟩ := List.exists_cons_of_ne_nil hne
      have hc := hg c (by simp)
      rw [List.append_assoc, List.append_assoc, splitWs_ws_left ha, List.cons_append,
        splitWs_append_ws _ hc, splitWs_ws_left (fun d hd => hg d (by simp [hd])), splitWs_word hv, splitWs_word hw]
      rfl
  · rintro (⟨w, h⟩ | ⟨v, w, h⟩)
    · obtain ⟨a, r, ha, hw, _, hs, hr⟩ := splitWs_cons_word h
      exact Or.inl ⟨a, w, r, ha, hw, splitWs_eq_nil.1 hr, hs⟩
    · obtain ⟨a, r, ha, hv, hr0, hs, hr⟩ := splitWs_cons_word h
      obtain ⟨g, b, hg, hw, _, hs', hb⟩ := splitWs_cons_word hr
      refine Or.inr ⟨a, v, g, w, b, ha, hv, hg, ?_, hw, splitWs_eq_nil.1 hb, by rw [hs, hs']; simp⟩
      rintro rfl
      rcases hr0 with rfl | ⟨d, q, rfl, hd⟩
      · simp at hs'
        exact hw.1 hs'.1
      · rw [List.nil_append] at hs'
        obtain ⟨e, w', rfl⟩ := List.exists_cons_of_ne_nil hw.1
        simp only [List.cons_append, List.cons.injEq] at hs'
        have := hw.2 e (by simp)
        rw [← hs'.1, hd] at this
        cases this

theorem filter_words (P : Char → Bool) (hP : ∀ c, isWs c = true → P c = false) (s : Str) :
    s.filter P = ((splitWs s).map (List.filter P)).flatten := by
  induction s with
  | nil => rfl
  | cons c s ih =>
    unfold splitWs
    by_cases hc : isWs c = true
    · rw [if_pos hc, ← ih, List.filter_cons_of_neg (by simp [hP c hc])]
    · rw [if_neg hc]
      split
      · rename_i hi
        have hne : splitWs s ≠ [] := by
          intro e
          cases s with
          | nil => cases hi
          | cons d s =>
            have := splitWs_eq_nil.1 e d (by simp)
            simp [startsInk, this] at hi
        obtain ⟨w, ts, e⟩ := List.exists_cons_of_ne_nil hne
        rw [e] at ih ⊢
        simp only [consHead, List.map_cons, List.flatten_cons] at ih ⊢
        rw [List.filter_cons, List.filter_cons, ih]
        split <;> simp
      · simp only [List.map_cons, List.flatten_cons]
        rw [← ih, List.filter_cons, List.filter_cons]
        split <;> simp

theorem rawMag_spelled (dec : Char) (r : Str) : rawMag dec r = spelled dec r := by
  unfold rawMag spelled
  have e : (fun c => isDigit c || c == dec || c == '-') = isMagChar dec := rfl
  rw [e]
  by_cases hd : dec = '.'
  · subst hd
    simp only [bne_self_eq_false, Bool.false_eq_true, if_false]
    symm
    have : ∀ l : Str, l.map (fun c => if c = '.' then '.' else c) = l := by
      intro l
      induction l with
      | nil => rfl
      | cons c l ih =>
        rw [List.map_cons, ih]
        congr 1
        split
        · rename_i h; exact h.symm
        · rfl
    exact this _
  · simp [hd]

/-- What `Amount.parse` does, in terms of the specification. -/
theorem Amount.parse_iff {dec : Char} (hdec : isWs dec = false) (s : Str) (m : M) (y : Option Str) :
    (Amount.parse s dec = .ok (⟨m, y⟩ : Amount M) ↔ OneOrTwoWords (dropPairs s) ∧
      Mag.parse (spelled dec (dropPairs s)) = some m ∧ y = symbolOf dec (splitWs (dropPairs s))) ∧
    ((¬ ∃ a : Amount M, Amount.parse s dec = .ok a) → Amount.parse s dec = (fail .parse : Res (Amount M))) := by
  have hsp : ∀ t, spelled dec t = ((splitWs t).map (spelled dec)).flatten := by
    intro t
    have hw : ∀ c, isWs c = true → isMagChar dec c = false := by
      intro c hc
      have h1 : c ≠ dec := fun e => by rw [e, hdec] at hc; cases hc
      have h2 : isDigit c = false := by
        cases h : isDigit c with
        | false => rfl
        | true => rw [isDigit_ws h] at hc; cases hc
      have h3 : c ≠ '-' := fun e => by rw [e] at hc; revert hc; decide
      simp [isMagChar, h1, h2, h3]
    unfold spelled
    rw [show (fun c => isDigit c || c == dec || c == '-') = isMagChar dec from rfl, filter_words _ hw t]
    induction splitWs t with
    | nil => rfl
    | cons u us ih => simp only [List.map_cons, List.flatten_cons, List.map_append, ih]
  have hsym : ∀ l, rawSym dec l = symbolOf dec [l] := by
    intro l
    unfold rawSym symbolOf
    have e : isSymbolChar dec = fun c => !(isDigit c || c == dec || c == '-' || c == '.' || c == ',') := by
      funext c
      simp only [isSymbolChar, isMagChar, bne]
      cases isDigit c <;> cases c == dec <;> cases c == '-' <;> cases c == '.' <;> cases c == ',' <;> rfl
    rw [e]
    simp only [joinWith]
    congr 1
    simp
  have hmag : ∀ l, rawMag dec l = spelled dec l := fun l => rawMag_spelled dec l
  have hspace : spelled dec s%" " = [] := by
    have := isMagChar_space hdec
    unfold spelled
    rw [show (fun c => isDigit c || c == dec || c == '-') = isMagChar dec from rfl]
    simp [this]
  have happ : ∀ a b, spelled dec (a ++ b) = spelled dec a ++ spelled dec b := by
    intro a b; simp [spelled]
  -- by cases on the words
  have hone : ∀ w, splitWs (dropPairs s) = [w] → amountClump s = some w ∧
      spelled dec (dropPairs s) = spelled dec w := by
    intro w e
    rw [amountClump_eq, hsp, e]
    simp
  have htwo : ∀ v w, splitWs (dropPairs s) = [v, w] → amountClump s = some (v ++ ' ' :: w) ∧
      spelled dec (dropPairs s) = spelled dec (v ++ ' ' :: w) := by
    intro v w e
    rw [amountClump_eq, hsp (dropPairs s), e]
    refine ⟨rfl, ?_⟩
    rw [show v ++ ' ' :: w = v ++ (s%" " ++ w) from rfl, happ, happ, hspace]
    simp
  constructor
  · rw [oneOrTwoWords_iff]
    by_cases h1 : ∃ w, splitWs (dropPairs s) = [w]
    · obtain ⟨w, e⟩ := h1
      obtain ⟨e1, e2⟩ := hone w e
      unfold Amount.parse
      rw [e1, e2, e]
      simp only [hmag, hsym]
      cases Mag.parse (M := M) (spelled dec w) with
      | none => simp [fail]
      | some m' =>
        simp only [Except.ok.injEq, Amount.mk.injEq, Option.some.injEq]
        constructor
        · rintro ⟨rfl, rfl⟩; exact ⟨Or.inl ⟨w, rfl⟩, rfl, rfl⟩
        · rintro ⟨_, rfl, rfl⟩; exact ⟨rfl, rfl⟩
    · by_cases h2 : ∃ v w, splitWs (dropPairs s) = [v, w]
      · obtain ⟨v, w, e⟩ := h2
        obtain ⟨e1, e2⟩ := htwo v w e
        unfold Amount.parse
        rw [e1, e2, e]
        simp only [hmag, hsym]
        cases Mag.parse (M := M) (spelled dec (v ++ ' ' :: w)) with
        | none => simp [fail]
        | some m' =>
          simp only [Except.ok.injEq, Amount.mk.injEq, Option.some.injEq]
          have e3 : symbolOf dec [v ++ ' ' :: w] = symbolOf dec [v, w] := by
            unfold symbolOf
            simp [joinWith]
          rw [e3]
          constructor
          · rintro ⟨rfl, rfl⟩; exact ⟨Or.inr ⟨v, w, rfl⟩, rfl, rfl⟩
          · rintro ⟨_, rfl, rfl⟩; exact ⟨rfl, rfl⟩
      · constructor
        · intro h
          exfalso
          unfold Amount.parse at h
          rw [amountClump_eq] at h
          split at h
          · cases h
          · rename_i he
            split at he
            · rename_i e; exact h1 ⟨_, e⟩
            · rename_i e; exact h2 ⟨_, _, e⟩
            · cases he
        · rintro ⟨h | h, _⟩
          · exact absurd h h1
          · exact absurd h h2
  · intro h
    unfold Amount.parse at h ⊢
    cases hc : amountClump s with
    | none => rfl
    | some clump =>
      rw [hc] at h
      simp only at h ⊢
      cases hp : Mag.parse (M := M) (rawMag dec clump) with
      | none => rfl
      | some m' =>
        rw [hp] at h
        exact absurd ⟨_, rfl⟩ h

/-- C06. The amounts, in the arithmetic of the program: after deleting every `--`, one or two words whose
digits, decimal symbols and dashes spell a numeral; the value is the double nearest to it. -/
theorem C06_accepted {dec : Char} (hdec : isWs dec = false) (s : Str) (x : F64) (y : Option Str) :
    Amount.parse s dec = .ok (⟨x, y⟩ : Amount F64) ↔ OneOrTwoWords (dropPairs s) ∧
      (∃ neg d k, IsNumeral (spelled dec (dropPairs s)) neg d k ∧ x = F64.mkRound neg (d * F64.unit) (10 ^ k)) ∧
      y = symbolOf dec (splitWs (dropPairs s)) := by
  rw [(Amount.parse_iff hdec s x y).1]
  have : Mag.parse (spelled dec (dropPairs s)) = some x ↔
      ∃ neg d k, IsNumeral (spelled dec (dropPairs s)) neg d k ∧ x = F64.mkRound neg (d * F64.unit) (10 ^ k) := by
    show F64.parse _ = _ ↔ _
    unfold F64.parse
    constructor
    · intro h
      obtain ⟨⟨neg, d, k⟩, h1, h2⟩ := Option.map_eq_some_iff.1 h
      exact ⟨neg, d, k, (parseNumeral_iff _ _ _ _).1 h1, h2.symm⟩
    · rintro ⟨neg, d, k, h1, rfl⟩
      rw [(parseNumeral_iff _ _ _ _).2 h1]
      rfl
  rw [this]

/-- C06, with exact numbers. -/
theorem C06_accepted_exact {dec : Char} (hdec : isWs dec = false) (s : Str) (x : Rat) (y : Option Str) :
    Amount.parse s dec = .ok (⟨x, y⟩ : Amount Rat) ↔ OneOrTwoWords (dropPairs s) ∧
      (∃ neg d k, IsNumeral (spelled dec (dropPairs s)) neg d k ∧
        x = (if neg then -1 else 1) * ((d : Rat) / 10 ^ k)) ∧
      y = symbolOf dec (splitWs (dropPairs s)) := by
  rw [(Amount.parse_iff hdec s x y).1]
  have : Mag.parse (spelled dec (dropPairs s)) = some x ↔
      ∃ neg d k, IsNumeral (spelled dec (dropPairs s)) neg d k ∧
        x = (if neg then -1 else 1) * ((d : Rat) / 10 ^ k) := by
    show ratParse _ = _ ↔ _
    unfold ratParse
    constructor
    · intro h
      obtain ⟨⟨neg, d, k⟩, h1, h2⟩ := Option.map_eq_some_iff.1 h
      refine ⟨neg, d, k, (parseNumeral_iff _ _ _ _).1 h1, ?_⟩
      rw [← h2]
      cases neg <;> simp
    · rintro ⟨neg, d, k, h1, rfl⟩
      rw [(parseNumeral_iff _ _ _ _).2 h1]
      cases neg <;> simp
  rw [this]

/-- C06. Everything else is a parse error; no text aborts. -/
theorem C06_rejected (dec : Char) (s : Str) (h : ¬ ∃ a : Amount M, Amount.parse s dec = .ok a) :
    Amount.parse s dec = (fail .parse : Res (Amount M)) := by
  unfold Amount.parse at h ⊢
  cases hc : amountClump s with
  | none => rfl
  | some clump =>
    rw [hc] at h
    simp only at h ⊢
    cases hp : Mag.parse (M := M) (rawMag dec clump) with
    | none => rfl
    | some m' =>
      rw [hp] at h
      exact absurd ⟨_, rfl⟩ h

example : (Amount.parse s%"1-2" '.' : Res (Amount Rat)) = fail .parse ∧
    (Amount.parse s%"5 $ x" '.' : Res (Amount Rat)) = fail .parse ∧
    (Amount.parse s%"--a7b--.--2c" '.' : Res (Amount Rat)) = .ok ⟨36 / 5, some s%"abc"⟩ := by decide +kernel

/-! ### C07 -/

/-- Two lists of words that differ only in characters outside `P`. -/
def SameMod (P : Char → Bool) (a b : List Str) : Prop := a.map (List.filter P) = b.map (List.filter P)

theorem sameMod_consHead {P : Char → Bool} {a b : List Str} (c : Char) (h : SameMod P a b) :
    SameMod P (consHead c a) (consHead c b) := by
  unfold SameMod at h ⊢
  cases a with
  | nil =>
    cases b with
    | nil => rfl
    | cons v b => simp at h
  | cons u a =>
    cases b with
    | nil => simp at h
    | cons v b =>
      simp only [List.map_cons, List.cons.injEq] at h
      simp only [consHead, List.map_cons, List.filter_cons, h.1, h.2]

/-- A character put next to ink in a word. -/
theorem splitWs_insert (P : Char → Bool) {x : Char} (hx : isWs x = false) (hP : P x = false) (A B : Str)
    (h : (∃ r c, A = r ++ [c] ∧ isWs c = false) ∨ ∃ c r, B = c :: r ∧ isWs c = false) :
    SameMod P (splitWs (A ++ x :: B)) (splitWs (A ++ B)) := by
  induction A with
  | nil =>
    rcases h with ⟨r, c, e, _⟩ | ⟨c, r, rfl, hc⟩
    · simp at e
    · simp only [List.nil_append]
      have hc' : startsInk (c :: r) = true := by simp [startsInk, hc]
      conv => lhs; unfold splitWs
      rw [if_neg (by simp [hx]), if_pos hc']
      have hne : splitWs (c :: r) ≠ [] := by
        intro e
        have := splitWs_eq_nil.1 e c (by simp)
        rw [hc] at this; cases this
      obtain ⟨w, ts, e⟩ := List.exists_cons_of_ne_nil hne
      rw [e]
      simp [SameMod, consHead, hP]
  | cons d A ih =>
    by_cases hA : A = []
    · subst hA
      -- the only character of `A`
      simp only [List.nil_append, List.cons_append, List.nil_append]
      by_cases hd : isWs d = true
      · rw [splitWs_ws_cons hd, splitWs_ws_cons hd]
        apply ih
        rcases h with ⟨r, c, e, hc⟩ | h
        · have : r = [] ∧ c = d := by
            cases r with
            | nil => simp at e; exact ⟨rfl, e.symm⟩
            | cons q r => simp at e
          rw [this.2, hd] at hc; cases hc
        · exact Or.inr h
      · conv => lhs; unfold splitWs
        conv => rhs; unfold splitWs
        rw [if_neg hd, if_neg hd, if_pos (by simp [startsInk, hx])]
        by_cases hB : startsInk B = true
        · rw [if_pos hB]
          apply sameMod_consHead
          apply ih
          right
          cases B with
          | nil => cases hB
          | cons c r => exact ⟨c, r, rfl, by simpa [startsInk] using hB⟩
        · rw [if_neg hB]
          conv => lhs; unfold splitWs
          rw [if_neg (by simp [hx]), if_neg hB]
          simp [SameMod, consHead, List.filter_cons, hP]
    · have h' : (∃ r c, A = r ++ [c] ∧ isWs c = false) ∨ ∃ c r, B = c :: r ∧ isWs c = false := by
        rcases h with ⟨r, c, e, hc⟩ | h
        · left
          cases r with
          | nil => simp at e; exact absurd e.2 hA
          | cons q r => simp at e; exact ⟨r, c, e.2, hc⟩
        · exact Or.inr h
      have hih := ih h'
      obtain ⟨c, A', rfl⟩ := List.exists_cons_of_ne_nil hA
      simp only [List.cons_append] at hih ⊢
      conv => lhs; unfold splitWs
      conv => rhs; unfold splitWs
      by_cases hd : isWs d = true
      · rw [if_pos hd, if_pos hd]; exact hih
      · rw [if_neg hd, if_neg hd]
        have e1 : startsInk (c :: (A' ++ x :: B)) = startsInk (c :: (A' ++ B)) := rfl
        rw [e1]
        split
        · exact sameMod_consHead _ hih
        · unfold SameMod at hih ⊢
          simp only [List.map_cons, hih]

/-- Two texts whose words differ only in ignored characters read as the same amount. -/
theorem Amount.parse_sameMod {dec x : Char} (hm : isMagChar dec x = false) (hs : isSymbolChar dec x = false)
    {s t : Str}
    (h : ∀ P : Char → Bool, P x = false → SameMod P (splitWs (dropPairs s)) (splitWs (dropPairs t))) :
    Amount.parse s dec = (Amount.parse t dec : Res (Amount M)) := by
  have h1 := h _ hm
  have h2 := h _ hs
  have hlen : (splitWs (dropPairs s)).length = (splitWs (dropPairs t)).length := by
    have := congrArg List.length h1
    simpa [SameMod] using this
  have fin : ∀ a b : Str, a.filter (isMagChar dec) = b.filter (isMagChar dec) →
      a.filter (isSymbolChar dec) = b.filter (isSymbolChar dec) →
      (match Mag.parse (M := M) (rawMag dec a) with
        | none => (fail .parse : Res (Amount M))
        | some m => .ok ⟨m, rawSym dec a⟩) =
      (match Mag.parse (M := M) (rawMag dec b) with
        | none => fail .parse
        | some m => .ok ⟨m, rawSym dec b⟩) := by
    intro a b e1 e2
    rw [rawMag_congr e1]
    have : rawSym dec a = rawSym dec b := by unfold rawSym; simp only [e2]
    rw [this]
  unfold Amount.parse
  rw [amountClump_eq, amountClump_eq]
  unfold SameMod at h1 h2
  generalize splitWs (dropPairs s) = u at *
  generalize splitWs (dropPairs t) = v at *
  match u, v, hlen with
  | [], [], _ => rfl
  | [a], [b], _ =>
    simp at h1 h2
    exact fin a b h1 h2
  | [a, a'], [b, b'], _ =>
    simp at h1 h2
    simp only
    apply fin
    · simp [List.filter_append, List.filter_cons, h1.1, h1.2]
    · simp [List.filter_append, List.filter_cons, h2.1, h2.2]
  | a :: a' :: a'' :: u, b :: b' :: b'' :: v, _ => rfl

/-- C07. A comma, or a dot if it is not the decimal symbol, put into an amount next to a digit (or to
any character but whitespace and dash) changes nothing, whether the text is an amount or not.
Missing from the claim: a separator that stands alone between spaces, and one inside a double dash;
there the claim is false (`C07_stray_separator`). -/
theorem C07_separator_partial {dec x : Char} (hx : x = '.' ∨ x = ',') (hdec : x ≠ dec) (a b : Str)
    (h : (∃ r c, a = r ++ [c] ∧ isWs c = false ∧ c ≠ '-') ∨ ∃ c r, b = c :: r ∧ isWs c = false ∧ c ≠ '-') :
    Amount.parse (a ++ x :: b) dec = (Amount.parse (a ++ b) dec : Res (Amount M)) := by
  have hx1 : isWs x = false := by rcases hx with rfl | rfl <;> decide
  have hx2 : x ≠ '-' := by rcases hx with rfl | rfl <;> decide
  have hx3 : isDigit x = false := by rcases hx with rfl | rfl <;> decide
  have hm : isMagChar dec x = false := by simp [isMagChar, hx2, hx3, hdec]
  have hs : isSymbolChar dec x = false := by rcases hx with rfl | rfl <;> simp [isSymbolChar]
  apply Amount.parse_sameMod hm hs
  intro P hP
  rw [dropPairs_ink_append _ hx2]
  have hab : dropPairs (a ++ b) = dropPairs a ++ dropPairs b := by
    rcases h with ⟨r, c, rfl, hc, hd⟩ | ⟨c, r, rfl, hc, hd⟩
    · rw [List.append_assoc, List.singleton_append, dropPairs_ink_append _ hd,
        show r ++ [c] = r ++ c :: [] from rfl, dropPairs_ink_append _ hd]
      simp [dropPairs]
    · exact dropPairs_append _ _ (by simpa using hd)
  rw [hab]
  apply splitWs_insert P hx1 hP
  rcases h with ⟨r, c, rfl, hc, hd⟩ | ⟨c, r, rfl, hc, hd⟩
  · left
    refine ⟨dropPairs r, c, ?_, hc⟩
    rw [show r ++ [c] = r ++ c :: [] from rfl, dropPairs_ink_append _ hd]
    simp [dropPairs]
  · right
    exact ⟨c, dropPairs r, dropPairs_cons hd r, hc⟩

/-- C07, any number of separators at such places. -/
inductive Separated (dec : Char) : Str → Str → Prop
  | refl (s : Str) : Separated dec s s
  | insert {x : Char} {s a b : Str} (hx : x = '.' ∨ x = ',') (hdec : x ≠ dec)
      (h : (∃ r c, a = r ++ [c] ∧ isWs c = false ∧ c ≠ '-') ∨ ∃ c r, b = c :: r ∧ isWs c = false ∧ c ≠ '-')
      (hs : Separated dec s (a ++ b)) : Separated dec s (a ++ x :: b)

theorem C07_separators_partial {dec : Char} {s t : Str} (h : Separated dec s t) :
    Amount.parse t dec = (Amount.parse s dec : Res (Amount M)) := by
  induction h with
  | refl => rfl
  | insert hx hdec h _ ih => rw [C07_separator_partial hx hdec _ _ h, ih]

/-- C07 is false of a comma that stands alone, and of one between two dashes. -/
theorem C07_stray_separator :
    (Amount.parse s%"$ 5" '.' = .ok (⟨5, some s%"$"⟩ : Amount Rat) ∧
      Amount.parse s%"$ , 5" '.' = (fail .parse : Res (Amount Rat))) ∧
    (Amount.parse s%"--5" '.' = .ok (⟨5, none⟩ : Amount Rat) ∧
      Amount.parse s%"-,-5" '.' = (fail .parse : Res (Amount Rat))) := by decide +kernel

example : Separated '.' s%"$1234567" s%"$1,234,567" :=
  .insert (x := ',') (a := s%"$1") (b := s%"234,567") (Or.inr rfl) (by decide)
    (Or.inl ⟨s%"$", '1', rfl, by decide, by decide⟩)
    (.insert (x := ',') (a := s%"$1234") (b := s%"567") (Or.inr rfl) (by decide)
      (Or.inl ⟨s%"$123", '4', rfl, by decide, by decide⟩) (.refl _))

/-! ### C08 -/

/-- C08, in the arithmetic of the program. `round8 m` is the double `(m * 1e8).round() / 1e8`. -/
theorem C08_round_trip (a : Amount F64) (h : (round8 a.mag).finite = true)
    (hs : ∀ s, a.sym = some s → ValidSymbol '.' s) :
    Amount.parse a.display '.' = .ok ⟨round8 a.mag, a.sym⟩ :=
  Amount.parse_display (fmtOk_f64 h) hs

/-- C08, exact numbers: the amount read is within half a hundred-millionth of the amount printed and has
at most 8 decimals. -/
theorem C08_round_trip_exact (a : Amount Rat) (hs : ∀ s, a.sym = some s → ValidSymbol '.' s) :
    ∃ q : Rat, Amount.parse a.display '.' = .ok ⟨q, a.sym⟩ ∧ (∃ i : Int, q = (i : Rat) / 100000000) ∧
      |q - a.mag| ≤ 1 / 200000000 := by
  refine ⟨_, Amount.parse_display (fmtOk_rat _) hs, ?_, ?_⟩
  · rw [round8_rat]; exact ⟨_, rfl⟩
  · rw [round8_rat]
    have key : ∀ q : Rat, |((ratRound q : Int) : Rat) - q| ≤ 1 / 2 := by
      intro q
      have fl : ∀ p : Rat, |((p + 1 / 2).floor : Rat) - p| ≤ 1 / 2 := by
        intro p
        have h1 := Rat.floor_le (p + 1 / 2)
        have h2 := Rat.lt_floor_add_one (p + 1 / 2)
        push_cast at h2
        rw [abs_le]
        constructor <;> linarith
      unfold ratRound
      split
      · have := fl (-q)
        push_cast
        rw [abs_le] at this ⊢
        constructor <;> linarith [this.1, this.2]
      · exact fl q
    have := key (a.mag * 100000000)
    rw [abs_le] at this ⊢
    constructor
    · have := this.1
      rw [le_sub_iff_add_le, le_div_iff₀ (by norm_num)]
      linarith
    · have := this.2
      rw [sub_le_iff_le_add, div_le_iff₀ (by norm_num)]
      linarith

/-- C08, exact numbers: an amount of at most 8 decimals is read back unchanged. -/
theorem C08_exact_decimals (a : Amount Rat) (hs : ∀ s, a.sym = some s → ValidSymbol '.' s)
    (h : ∃ i : Int, a.mag = (i : Rat) / 100000000) : Amount.parse a.display '.' = .ok a := by
  rw [Amount.parse_display (fmtOk_rat _) hs, round8_rat]
  obtain ⟨i, hi⟩ := h
  have : a.mag * 100000000 = i := by rw [hi]; field_simp
  rw [this, ratRound_int, ← hi]

/-- C08 is false of a symbol with an inner space, although such symbols are read: `a b5` is the amount 5 of
`a b`, printed ` 5 a b`, which is refused. -/
theorem C08_symbol_with_space :
    (Amount.parse s%"a b5" '.' = .ok (⟨5, some s%"a b"⟩ : Amount Rat)) ∧
      (⟨5, some s%"a b"⟩ : Amount Rat).display = s%" 5 a b" ∧
      Amount.parse s%" 5 a b" '.' = (fail .parse : Res (Amount Rat)) := by decide +kernel

/-- C08 needs the finite rounding: 1e301 is a finite double, printed as infinity. -/
theorem C08_overflow :
    (F64.ofInt (10 ^ 301)).finite = true ∧ (⟨F64.ofInt (10 ^ 301), none⟩ : Amount F64).display = s%" inf" ∧
      Amount.parse s%" inf" '.' = (fail .parse : Res (Amount F64)) := by decide +kernel

/-- C08 needs the decimal dot: amounts are always printed with a dot, which another decimal symbol makes a
group separator. -/
theorem C08_other_decimal_symbol :
    Amount.parse s%"5,5" ',' = .ok (⟨11 / 2, none⟩ : Amount Rat) ∧
      (⟨11 / 2, none⟩ : Amount Rat).display = s%" 5.5" ∧
      Amount.parse s%" 5.5" ',' = .ok (⟨55, none⟩ : Amount Rat) := by decide +kernel

example : (round8 (F64.div (F64.ofInt 1) (F64.ofInt 3))).finite = true ∧
    (⟨F64.div (F64.ofInt (-1)) (F64.ofInt 3), some s%"$"⟩ : Amount F64).display = s%"$-0.33333333" := by
  decide +kernel

end Silverfox
