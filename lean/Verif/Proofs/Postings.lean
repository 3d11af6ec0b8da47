import Verif.Model.Posting
import Verif.Proofs.Amounts
import Mathlib.Data.List.Perm.Basic

/-
Lemmas on reading and printing postings.
-/

namespace Silverfox

set_option linter.unusedSectionVars false

variable {M : Type} [Mag M]

/-! ### Texts without comment marks -/

/-- Specification: no semicolon, no two slashes in a row. -/
def NoComment (s : Str) : Prop := ';' ∉ s ∧ ¬ s%"//" <:+: s

instance (s : Str) : Decidable (NoComment s) := by unfold NoComment; infer_instance

theorem noComment_iff (s : Str) : NoComment s ↔ rc s = s := by
  induction s with
  | nil => simp [NoComment, rc]
  | cons c s ih =>
    rw [rc, startsMark_cons]
    by_cases h1 : c = ';'
    · subst h1; simp [NoComment]
    · by_cases h2 : c = '/' ∧ s.head? = some '/'
      · obtain ⟨rfl, h2⟩ := h2
        have : ¬ NoComment ('/' :: s) := by
          intro h
          apply h.2
          cases s with
          | nil => cases h2
          | cons d r =>
            simp at h2
            subst h2
            exact ⟨[], r, rfl⟩
        simp [this, h2]
      · have hb : (decide (c = ';') || (decide (c = '/') && decide (s.head? = some '/'))) = false := by
          simp only [h1, decide_false, Bool.false_or]
          simpa using h2
        rw [hb]
        simp only [Bool.false_eq_true, if_false, List.cons.injEq, true_and]
        rw [← ih]
        unfold NoComment
        have h3 : s%"//" <:+: c :: s ↔ s%"//" <:+: s := by
          rw [List.infix_cons_iff]
          constructor
          · rintro (h | h)
            · exfalso
              apply h2
              obtain ⟨r, hr⟩ := h
              simp only [List.cons_append, List.nil_append, List.cons.injEq] at hr
              exact ⟨hr.1.symm, by rw [← hr.2]; rfl⟩
            · exact h
          · exact Or.inr
        rw [h3]
        simp [Ne.symm h1]

theorem rc_append {a b : Str} (ha : rc a = a) (h : b.head? ≠ some '/') : rc (a ++ b) = a ++ rc b := by
  induction a with
  | nil => rfl
  | cons c a ih =>
    have hm : startsMark (c :: a) = false := by
      cases hs : startsMark (c :: a) with
      | false => rfl
      | true => rw [rc, hs] at ha; simp at ha
    have ha' : rc a = a := by
      rw [rc, hm] at ha
      simpa using ha
    have hm' : startsMark (c :: (a ++ b)) = false := by
      rw [startsMark_cons] at hm ⊢
      cases a with
      | nil =>
        simp only [List.nil_append]
        simp only [Bool.or_eq_false_iff, Bool.and_eq_false_iff, decide_eq_false_iff_not] at hm ⊢
        exact ⟨hm.1, Or.inr h⟩
      | cons d a => simpa using hm
    rw [List.cons_append, rc, hm', ih ha']
    rfl

theorem rc_append_cons {a : Str} (ha : rc a = a) {c : Char} (h1 : c ≠ ';') (h2 : c ≠ '/') (b : Str) :
    rc (a ++ c :: b) = a ++ c :: rc b := by
  rw [rc_append ha (by simpa using h2), rc, startsMark_cons]
  simp [h1, h2]

theorem rc_space {a : Str} (ha : rc a = a) (b : Str) : rc (a ++ ' ' :: b) = a ++ ' ' :: rc b :=
  rc_append_cons ha (by decide) (by decide) b

theorem rc_space_cons (b : Str) : rc (' ' :: b) = ' ' :: rc b := rc_space (a := []) rfl b

theorem rc_spaces (n : Nat) (b : Str) : rc (List.replicate n ' ' ++ b) = List.replicate n ' ' ++ rc b := by
  induction n with
  | zero => rfl
  | succ n ih => rw [List.replicate_succ, List.cons_append, rc_space_cons, ih]; rfl

theorem rc_none {s : Str} (h : ∀ c ∈ s, c ≠ ';' ∧ c ≠ '/') : rc s = s := by
  induction s with
  | nil => rfl
  | cons c s ih =>
    rw [rc, startsMark_cons, ih fun d hd => h d (by simp [hd])]
    simp [h c (by simp)]

/-! ### Tokens -/

theorem allWs_replicate (n : Nat) : allWs (List.replicate n ' ') := by
  intro c hc
  rw [List.eq_of_mem_replicate hc]; exact isWs_space

theorem splitWs_cons_gap {w g r : Str} (hw : isWord w) (hg : allWs g) (hne : g ≠ []) :
    splitWs (w ++ g ++ r) = w :: splitWs r := by
  obtain ⟨c, g', rfl⟩ := List.exists_cons_of_ne_nil hne
  rw [List.append_assoc, List.cons_append, splitWs_append_ws _ (hg c (by simp)), splitWs_word hw,
    splitWs_ws_left fun d hd => hg d (by simp [hd])]
  rfl

theorem splitWs_pad {w : Str} (hw : isWord w) (n : Nat) (r : Str) :
    splitWs (padRight n w ++ ' ' :: r) = w :: splitWs r := by
  unfold padRight
  rw [List.append_assoc, show List.replicate (n - w.length) ' ' ++ ' ' :: r =
    (List.replicate (n - w.length) ' ' ++ [' ']) ++ r by simp, ← List.append_assoc]
  apply splitWs_cons_gap hw
  · rw [allWs_append]; exact ⟨allWs_replicate _, allWs_replicate 1⟩
  · simp

theorem splitWs_pad2 {v w : Str} (hv : isWord v) (hw : isWord w) (n : Nat) (r : Str) :
    splitWs (padRight n (v ++ ' ' :: w) ++ ' ' :: r) = v :: w :: splitWs r := by
  unfold padRight
  rw [show v ++ ' ' :: w ++ List.replicate (n - (v ++ ' ' :: w).length) ' ' ++ ' ' :: r =
    v ++ [' '] ++ (w ++ (List.replicate (n - (v ++ ' ' :: w).length) ' ' ++ [' ']) ++ r) by simp]
  rw [splitWs_cons_gap (g := [' ']) hv (allWs_replicate 1) (by simp), splitWs_cons_gap hw]
  · rw [allWs_append]; exact ⟨allWs_replicate _, allWs_replicate 1⟩
  · simp

theorem rc_pad {w : Str} (h : rc w = w) (n : Nat) (r : Str) :
    rc (padRight n w ++ ' ' :: r) = padRight n w ++ ' ' :: rc r := by
  apply rc_space
  unfold padRight
  have hh : (List.replicate (n - w.length) ' ').head? ≠ some '/' := by
    cases n - w.length with
    | zero => simp
    | succ k => simp [List.replicate_succ]
  rw [rc_append h hh]
  have := rc_spaces (n - w.length) []
  simp only [List.append_nil, rc] at this
  rw [this]

/-! ### Clauses -/

/-- The tokens of a list of clauses, each an operator and its words. -/
def clauseToks : List (Str × List Str) → List Str
  | [] => []
  | c :: cs => c.1 :: (c.2 ++ clauseToks cs)

/-- The operators that are read. -/
def opStrs : List Str := [s%"!", s%"@", s%"="]

/-- Operators are distinct and proper; words are no operators. -/
structure Clauses (amt : List Str) (cs : List (Str × List Str)) : Prop where
  amt : ∀ t ∈ amt, isOp t = false
  ops : ∀ c ∈ cs, c.1 ∈ opStrs
  distinct : (cs.map Prod.fst).Nodup
  words : ∀ c ∈ cs, ∀ t ∈ c.2, isOp t = false

theorem isOp_of_mem {o : Str} (h : o ∈ opStrs) : isOp o = true := by
  simp only [opStrs, List.mem_cons, List.not_mem_nil, or_false] at h
  rcases h with rfl | rfl | rfl <;> decide

theorem clauses_takeWhile {amt : List Str} {cs : List (Str × List Str)} (h : Clauses amt cs) :
    (amt ++ clauseToks cs).takeWhile (fun t => !isOp t) = amt := by
  rw [List.takeWhile_append_of_pos (fun t ht => by simp [h.amt t ht])]
  cases cs with
  | nil => simp [clauseToks]
  | cons c cs =>
    have := isOp_of_mem (h.ops c (by simp))
    simp [clauseToks, this]

theorem Clauses.tail {amt : List Str} {c : Str × List Str} {cs : List (Str × List Str)}
    (h : Clauses amt (c :: cs)) : Clauses c.2 cs :=
  ⟨h.words c (by simp), fun d hd => h.ops d (by simp [hd]),
    (List.nodup_cons.1 (by simpa using h.distinct)).2, fun d hd => h.words d (by simp [hd])⟩

/-- What a clause reader finds. -/
theorem extractAmount_clauses {amt : List Str} {cs : List (Str × List Str)} (h : Clauses amt cs) (dec : Char)
    {want : Str} (hw : want ∈ opStrs) {stop : Str → Bool}
    (hs1 : ∀ t, isOp t = false → stop t = false) (hs2 : ∀ o ∈ opStrs, o ≠ want → stop o = true) :
    extractAmount (amt ++ clauseToks cs) dec want stop =
      match cs.find? (fun c => c.1 == want) with
      | none => (.ok none : Res (Option (Amount M)))
      | some c => (Amount.parse (joinWith [' '] c.2) dec).map some := by
  induction cs generalizing amt with
  | nil =>
    unfold extractAmount
    have hd : (amt ++ clauseToks []).dropWhile (fun t => t != want) = [] := by
      rw [clauseToks, List.append_nil]
      have : ∀ l : List Str, (∀ t ∈ l, isOp t = false) → l.dropWhile (fun t => t != want) = [] := by
        intro l hl
        induction l with
        | nil => rfl
        | cons t l ih =>
          have hne : t ≠ want := fun e => by
            have := hl t (by simp)
            rw [e, isOp_of_mem hw] at this; cases this
          simp [hne, ih fun u hu => hl u (by simp [hu])]
      exact this amt h.amt
    rw [hd]
    rfl
  | cons c cs ih =>
    have hamt : ∀ t ∈ amt, (t != want) = true := by
      intro t ht
      have : t ≠ want := fun e => by
        have := h.amt t ht
        rw [e, isOp_of_mem hw] at this; cases this
      simpa using this
    by_cases hc : c.1 = want
    · unfold extractAmount
      rw [List.dropWhile_append_of_pos hamt, clauseToks]
      simp only [List.dropWhile_cons, hc, bne_self_eq_false, Bool.false_eq_true, if_false]
      have htake : (c.2 ++ clauseToks cs).takeWhile (fun t => !stop t) = c.2 := by
        rw [List.takeWhile_append_of_pos (fun t ht => by simp [hs1 t (h.words c (by simp) t ht)])]
        cases cs with
        | nil => simp [clauseToks]
        | cons d cs =>
          have hd : d.1 ≠ want := by
            intro e
            have := h.distinct
            rw [List.map_cons, List.nodup_cons] at this
            apply this.1
            simp [hc, e]
          have := hs2 d.1 (h.ops d (by simp)) hd
          simp [clauseToks, this]
      rw [htake]
      simp only [List.find?_cons, hc, beq_self_eq_true]
      cases Amount.parse (M := M) (joinWith [' '] c.2) dec <;> rfl
    · have hx : extractAmount (amt ++ clauseToks (c :: cs)) dec want stop =
          (extractAmount (c.2 ++ clauseToks cs) dec want stop : Res (Option (Amount M))) := by
        unfold extractAmount
        rw [List.dropWhile_append_of_pos hamt, clauseToks, List.dropWhile_cons]
        simp [hc]
      have hf : (c :: cs).find? (fun c => c.1 == want) = cs.find? (fun c => c.1 == want) := by
        simp [hc]
      rw [hx, ih h.tail, hf]

/-- The clause with an operator does not depend on the order. -/
theorem find_perm {cs cs' : List (Str × List Str)} (hp : cs.Perm cs') (h : (cs.map Prod.fst).Nodup) (o : Str) :
    cs.find? (fun c => c.1 == o) = cs'.find? (fun c => c.1 == o) := by
  have h' : (cs'.map Prod.fst).Nodup := (hp.map Prod.fst).nodup_iff.1 h
  have key : ∀ (l : List (Str × List Str)), (l.map Prod.fst).Nodup → ∀ c ∈ l, c.1 = o →
      l.find? (fun c => c.1 == o) = some c := by
    intro l
    induction l with
    | nil => intro _ c hc; cases hc
    | cons d l ih =>
      intro hn c hc hco
      rw [List.map_cons, List.nodup_cons] at hn
      rcases List.mem_cons.1 hc with rfl | hc
      · simp [hco]
      · have : d.1 ≠ o := by
          intro e
          apply hn.1
          rw [e, ← hco]
          exact List.mem_map_of_mem hc
        simp [this, ih hn.2 c hc hco]
  cases hf : cs.find? (fun c => c.1 == o) with
  | none =>
    symm
    rw [List.find?_eq_none] at hf ⊢
    intro c hc
    exact hf c (hp.mem_iff.2 hc)
  | some c =>
    have h1 := List.find?_some hf
    have h2 := List.mem_of_find?_eq_some hf
    simp only [beq_iff_eq] at h1
    rw [key cs' h' c (hp.mem_iff.1 h2) h1]

theorem Clauses.perm {amt : List Str} {cs cs' : List (Str × List Str)} (h : Clauses amt cs) (hp : cs.Perm cs') :
    Clauses amt cs' :=
  ⟨h.amt, fun c hc => h.ops c (hp.mem_iff.2 hc), (hp.map Prod.fst).nodup_iff.1 h.distinct,
    fun c hc => h.words c (hp.mem_iff.2 hc)⟩

/-- The reading of one clause. -/
def clauseAmount (cs : List (Str × List Str)) (dec : Char) (o : Str) : Res (Option (Amount M)) :=
  match cs.find? (fun c => c.1 == o) with
  | none => .ok none
  | some c => (Amount.parse (joinWith [' '] c.2) dec).map some

/-- The reading of the words before the clauses. -/
def firstAmount (amt : List Str) (dec : Char) : Res (Option (Amount M)) :=
  if (trim (joinWith [' '] amt)).isEmpty then .ok none else (Amount.parse (joinWith [' '] amt) dec).map some

/-- The reading of the cost: the price, or else the total. -/
def clauseCost (cs : List (Str × List Str)) (dec : Char) : Res (Option (Cost M)) :=
  match (clauseAmount cs dec s%"@" : Res (Option (Amount M))) with
  | .error f => .error f
  | .ok (some a) => .ok (some (Cost.unit a))
  | .ok none => (clauseAmount cs dec s%"=").map (Option.map Cost.total)

theorem Classic.parse_clauses {line : Str} {acc : Str} {amt : List Str} {cs : List (Str × List Str)}
    (hline : splitWs (trim (removeComments line)) = acc :: (amt ++ clauseToks cs)) (h : Clauses amt cs)
    (dec : Char) (accs : List Str) :
    (Classic.parse line dec accs : Res (Classic M)) = (do
      let amount ← firstAmount amt dec
      let balance ← clauseAmount cs dec s%"!"
      let cost ← clauseCost cs dec
      if accs.contains acc then pure ⟨acc, amount, cost, balance⟩ else fail .validation) := by
  have hop : ∀ t, isOp t = false → t ≠ s%"!" ∧ t ≠ s%"!!" ∧ t ≠ s%"@" ∧ t ≠ s%"=" := by
    intro t ht
    simp only [isOp, Bool.or_eq_false_iff, beq_eq_false_iff_ne] at ht
    exact ⟨ht.1.1.2, ht.2, ht.1.1.1, ht.1.2⟩
  have e1 : (Classic.parseAmount (amt ++ clauseToks cs) dec : Res (Option (Amount M))) =
      firstAmount amt dec := by
    unfold Classic.parseAmount firstAmount
    rw [clauses_takeWhile h]
    simp only
    split
    · rfl
    · cases Amount.parse (M := M) (joinWith [' '] amt) dec <;> rfl
  have e2 : (Classic.parseBalance (amt ++ clauseToks cs) dec : Res (Option (Amount M))) =
      clauseAmount cs dec s%"!" := by
    unfold Classic.parseBalance clauseAmount
    apply extractAmount_clauses h dec (by decide)
    · intro t ht
      have := hop t ht
      simp [this]
    · intro o ho hne
      simp only [opStrs, List.mem_cons, List.not_mem_nil, or_false] at ho
      rcases ho with rfl | rfl | rfl
      · exact absurd rfl hne
      · decide
      · decide
  have e3 : (Classic.parsePrice (amt ++ clauseToks cs) dec : Res (Option (Cost M))) =
      (clauseAmount cs dec s%"@").map (Option.map Cost.unit) := by
    unfold Classic.parsePrice clauseAmount
    rw [extractAmount_clauses h dec (by decide)]
    · split
      · rfl
      · rename_i c _
        cases Amount.parse (M := M) (joinWith [' '] c.2) dec <;> rfl
    · intro t ht
      have := hop t ht
      simp [this]
    · intro o ho hne
      simp only [opStrs, List.mem_cons, List.not_mem_nil, or_false] at ho
      rcases ho with rfl | rfl | rfl
      · decide
      · exact absurd rfl hne
      · decide
  have e4 : (Classic.parseTotal (amt ++ clauseToks cs) dec : Res (Option (Cost M))) =
      (clauseAmount cs dec s%"=").map (Option.map Cost.total) := by
    unfold Classic.parseTotal clauseAmount
    rw [extractAmount_clauses h dec (by decide)]
    · split
      · rfl
      · rename_i c _
        cases Amount.parse (M := M) (joinWith [' '] c.2) dec <;> rfl
    · intro t ht
      have := hop t ht
      simp [this]
    · intro o ho hne
      simp only [opStrs, List.mem_cons, List.not_mem_nil, or_false] at ho
      rcases ho with rfl | rfl | rfl
      · decide
      · decide
      · exact absurd rfl hne
  have e5 : (Classic.parseCost (amt ++ clauseToks cs) dec : Res (Option (Cost M))) = clauseCost cs dec := by
    unfold Classic.parseCost clauseCost
    rw [e3, e4]
    cases clauseAmount (M := M) cs dec s%"@" with
    | error f => rfl
    | ok x => cases x <;> rfl
  unfold Classic.parse
  rw [hline]
  simp only [e1, e2, e5]

/-! ### Printed amounts -/

/-- An amount that can be printed and read back inside a posting. -/
structure Printable (a : Amount M) : Prop where
  fmt : FmtOk (round8 a.mag)
  sym : ∀ s, a.sym = some s → ValidSymbol '.' s ∧ NoComment s ∧ isOp s = false

/-- The amount rounded to 8 decimals. -/
def Amount.rounded (a : Amount M) : Amount M := ⟨round8 a.mag, a.sym⟩

theorem isOp_digit {t : Str} {c : Char} (hc : c ∈ t) (hd : isDigit c = true) : isOp t = false := by
  have key : ∀ o ∈ [s%"@", s%"!", s%"=", s%"!!"], t ≠ o := by
    intro o ho e
    rw [e] at hc
    simp only [List.mem_cons, List.not_mem_nil, or_false] at ho
    rcases ho with rfl | rfl | rfl | rfl <;>
      · simp at hc
        subst hc
        revert hd; decide
  unfold isOp
  simp only [Bool.or_eq_false_iff, beq_eq_false_iff_ne]
  exact ⟨⟨⟨key _ (by simp), key _ (by simp)⟩, key _ (by simp)⟩, key _ (by simp)⟩

theorem IsNumeral.digit {w : Str} {neg : Bool} {d k : Nat} (h : IsNumeral w neg d k) :
    ∃ c ∈ w, isDigit c = true := by
  obtain ⟨ip, fp, h1, h2, h3, _, _, h4⟩ := h
  obtain ⟨c, r, e⟩ := List.exists_cons_of_ne_nil h3
  have hc : c ∈ ip ∨ c ∈ fp := List.mem_append.1 (by rw [e]; simp)
  have hd : isDigit c = true := hc.elim (h1 c) (h2 c)
  refine ⟨c, ?_, hd⟩
  rcases h4 with rfl | ⟨rfl, rfl⟩
  · simp only [List.mem_append, List.mem_cons]
    rcases hc with hc | hc
    · exact Or.inl (Or.inr hc)
    · exact Or.inr (Or.inr hc)
  · rcases hc with hc | hc
    · exact List.mem_append_right _ hc
    · cases hc

theorem IsNumeral.clean {w : Str} {neg : Bool} {d k : Nat} (h : IsNumeral w neg d k) :
    rc w = w ∧ w.head? ≠ some '/' := by
  obtain ⟨_, r, hr, hc⟩ := h.chars
  have hall : ∀ c ∈ w, c ≠ ';' ∧ c ≠ '/' := by
    intro c h1
    rw [hr] at h1
    rcases List.mem_append.1 h1 with h1 | h1
    · cases neg <;> simp at h1
      rw [h1]; decide
    · rcases hc c h1 with h | h
      · constructor <;> · rintro rfl; revert h; decide
      · rw [h]; decide
  refine ⟨rc_none hall, ?_⟩
  cases w with
  | nil => simp
  | cons c w => simpa using (hall c (by simp)).2

/-- The words of a printed amount: they are no operators, and put together with or without spaces they
read as the rounded amount. -/
theorem Printable.toks {a : Amount M} (h : Printable a) :
    (∀ t ∈ splitWs a.display, isOp t = false) ∧
      Amount.parse (joinWith [' '] (splitWs a.display)) '.' = .ok a.rounded ∧
      Amount.parse (splitWs a.display).flatten '.' = .ok a.rounded ∧ rc a.display = a.display ∧
      splitWs a.display ≠ [] := by
  obtain ⟨⟨⟨neg, d, k, hn⟩, hp⟩, hs⟩ := h
  obtain ⟨m, y⟩ := a
  simp only at hs hn hp ⊢
  unfold Amount.rounded
  simp only
  have h0 : Amount.parse (Mag.fmt (round8 m)) '.' = .ok (⟨round8 m, none⟩ : Amount M) :=
    Amount.parse_numeral hn hp
  generalize hw : Mag.fmt (round8 m) = w at h0 hn
  obtain ⟨c, hc, hd⟩ := hn.digit
  obtain ⟨hcl, hhd⟩ := hn.clean
  have hword : isWord w := ⟨hn.chars.1, hn.noWs⟩
  have hsp : ∀ t : Str, rc t = t → rc (' ' :: t) = ' ' :: t := fun t ht => by rw [rc_space_cons, ht]
  cases y with
  | none =>
    have e1 : splitWs (Amount.display (⟨m, none⟩ : Amount M)) = [w] := by
      unfold Amount.display magText
      simp only [hw]
      split
      · exact splitWs_word hword
      · rw [splitWs_ws_cons isWs_space, splitWs_word hword]
    rw [e1]
    refine ⟨?_, by simpa [joinWith] using h0, by simpa using h0, ?_, by simp⟩
    · intro t ht
      simp at ht
      subst ht
      exact isOp_digit hc hd
    · unfold Amount.display magText
      simp only [hw]
      split
      · exact hcl
      · exact hsp _ hcl
  | some sym =>
    obtain ⟨hv, hcom, hop⟩ := hs sym rfl
    have hrc := (noComment_iff sym).1 hcom
    obtain ⟨p1, p2, p3, p4⟩ := Amount.parse_spellings (by decide) hn.noWs hv h0
    have hw1 : isWord (sym ++ w) :=
      ⟨by simp [hv.1], fun c hc => (List.mem_append.1 hc).elim (hv.word.2 c) (hword.2 c)⟩
    unfold Amount.display magText
    simp only [hw]
    by_cases hl : utf8Len sym ≤ 2
    · rw [if_pos hl]
      by_cases hm : Mag.lt m (Mag.zero : M) = true
      · rw [if_pos hm, splitWs_word hw1]
        refine ⟨?_, by simpa [joinWith] using p1, by simpa using p1, ?_, by simp⟩
        · intro t ht
          simp at ht
          subst ht
          exact isOp_digit (List.mem_append_right _ hc) hd
        · rw [rc_append hrc hhd, hcl]
      · rw [if_neg hm, splitWs_words2 hv.word hword]
        refine ⟨?_, by simpa [joinWith] using p3, by simpa using p1, ?_, by simp⟩
        · intro t ht
          simp at ht
          rcases ht with rfl | rfl
          · exact hop
          · exact isOp_digit hc hd
        · rw [rc_space hrc, hcl]
    · rw [if_neg hl]
      by_cases hm : Mag.lt m (Mag.zero : M) = true
      · rw [if_pos hm, splitWs_words2 hword hv.word]
        refine ⟨?_, by simpa [joinWith] using p4, by simpa using p2, ?_, by simp⟩
        · intro t ht
          simp at ht
          rcases ht with rfl | rfl
          · exact isOp_digit hc hd
          · exact hop
        · rw [rc_space hcl, hrc]
      · rw [if_neg hm, List.cons_append, splitWs_ws_cons isWs_space, splitWs_words2 hword hv.word]
        refine ⟨?_, by simpa [joinWith] using p4, by simpa using p2, ?_, by simp⟩
        · intro t ht
          simp at ht
          rcases ht with rfl | rfl
          · exact isOp_digit hc hd
          · exact hop
        · rw [rc_space_cons, rc_space hcl, hrc]

end Silverfox
