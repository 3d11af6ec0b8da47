import Verif.Codec
import Verif.Proofs.Numerals
import Verif.Proofs.Postings

/-
Dates written with a format and read with it, in the concrete environment `stdEnv`.
-/

namespace Silverfox

theorem natStrGo_length (f n w : Nat) (acc : Str) (hf : n < f) (hw : 0 < w) (h : n < 10 ^ w) :
    (natStrGo f n acc).length ≤ acc.length + w := by
  induction f generalizing n w acc with
  | zero => omega
  | succ f ih =>
    simp only [natStrGo]
    split
    · simp only [List.length_cons]; omega
    · rename_i h0
      cases w with
      | zero => omega
      | succ w =>
        cases w with
        | zero => simp at h; omega
        | succ w =>
          have h1 : n / 10 < 10 ^ (w + 1) := by
            rw [Nat.pow_succ] at h
            omega
          have := ih (n / 10) (w + 1) (Char.ofNat (48 + n % 10) :: acc) (by omega) (by omega) h1
          simp only [List.length_cons] at this
          omega

theorem zpad_spec (w n : Nat) (hw : 0 < w) (h : n < 10 ^ w) :
    (Date.zpad w n).length = w ∧ (∀ c ∈ Date.zpad w n, isDigit c = true) ∧ digitsVal (Date.zpad w n) = n := by
  obtain ⟨_, h2, h3⟩ := natStr_spec n
  have hl : (natStr n).length ≤ w := by
    have := natStrGo_length (n + 1) n w [] (by omega) hw h
    simpa [natStr] using this
  unfold Date.zpad
  refine ⟨by simp only [List.length_append, List.length_replicate]; omega, ?_, by rw [digitsVal_zeros, h3]⟩
  intro c hc
  rcases List.mem_append.1 hc with hc | hc
  · rw [List.eq_of_mem_replicate hc]; decide
  · exact h2 c hc

theorem scanDigits_exact {ds : Str} (r : Str) (hd : ∀ c ∈ ds, isDigit c = true) (hne : ds ≠ []) :
    scanDigits ds.length (ds ++ r) = some (digitsVal ds, r) := by
  unfold scanDigits
  have h1 : (ds ++ r).take ds.length = ds := by simp
  have h2 : ds.takeWhile isDigit = ds := by
    have := (takeWhile_digits (b := []) hd (Or.inl rfl)).1
    rwa [List.append_nil] at this
  simp only [h1, h2]
  rw [if_neg (by simpa using hne)]
  simp

theorem isDigit_notWs {c : Char} (h : isDigit c = true) : isWs c = false := by
  cases hw : isWs c with
  | false => rfl
  | true =>
    unfold isDigit at h
    unfold isWs at hw
    simp only [decide_eq_true_eq, Bool.and_eq_true, Bool.or_eq_true, beq_iff_eq] at h hw
    omega

theorem trimStart_digits {ds : Str} (r : Str) (hd : ∀ c ∈ ds, isDigit c = true) (hne : ds ≠ []) :
    trimStart (ds ++ r) = ds ++ r := by
  cases ds with
  | nil => exact absurd rfl hne
  | cons c ds =>
    have := isDigit_notWs (hd c (by simp))
    simp [trimStart, this]

theorem scanYear_digits {s : Str} (r : Str) (hd : ∀ c ∈ s, isDigit c = true) (hl : s.length = 4) :
    scanYear (s ++ r) = some ((digitsVal s : Int), r) := by
  have hne : s ≠ [] := by rintro rfl; cases hl
  have h4 : scanYear (s ++ r) = (scanDigits 4 (s ++ r)).map fun (n, t) => ((n : Int), t) := by
    cases s with
    | nil => exact absurd rfl hne
    | cons c s =>
      have hc := hd c (by simp)
      have h1 : c ≠ '-' := by rintro rfl; revert hc; decide
      have h2 : c ≠ '+' := by rintro rfl; revert hc; decide
      unfold scanYear
      split
      · rename_i heq; exact absurd (List.cons.inj heq).1 h1
      · rename_i heq; exact absurd (List.cons.inj heq).1 h2
      · rfl
  rw [h4, ← hl, scanDigits_exact r hd hne]
  rfl

/-- The fields agree with a date. -/
def DateFields.agrees (f : DateFields) (a : Date) : Prop :=
  (f.y = none ∨ f.y = some a.y) ∧ (f.m = none ∨ f.m = some a.m) ∧ (f.d = none ∨ f.d = some a.d)

theorem parseItems_written (a : Date) (hy : 0 ≤ a.y ∧ a.y ≤ 9999) (is : List DateItem) (r : Str) (f : DateFields)
    (hf : f.agrees a) : ∃ f', parseItems is ((is.map (fmtItem a)).flatten ++ r) f = some (f', r) ∧ f'.agrees a ∧
      (f.y = some a.y ∨ DateItem.year ∈ is → f'.y = some a.y) ∧
      (f.m = some a.m ∨ DateItem.month ∈ is → f'.m = some a.m) ∧
      (f.d = some a.d ∨ DateItem.day ∈ is → f'.d = some a.d) := by
  have hok := a.ok
  unfold validYmd at hok
  simp only [Bool.and_eq_true, decide_eq_true_eq] at hok
  have hml : monthLen a.y a.m ≤ 31 := by
    unfold monthLen
    split <;> (try split) <;> omega
  obtain ⟨y1, y2, y3⟩ := zpad_spec 4 a.y.natAbs (by omega) (by omega)
  obtain ⟨m1, m2, m3⟩ := zpad_spec 2 a.m (by omega) (by omega)
  obtain ⟨d1, d2, d3⟩ := zpad_spec 2 a.d (by omega) (by omega)
  have ny : Date.zpad 4 a.y.natAbs ≠ [] := by intro e; rw [e] at y1; cases y1
  have nm : Date.zpad 2 a.m ≠ [] := by intro e; rw [e] at m1; cases m1
  have nd : Date.zpad 2 a.d ≠ [] := by intro e; rw [e] at d1; cases d1
  have hyz : ((a.y.natAbs : Nat) : Int) = a.y := by omega
  induction is generalizing f with
  | nil =>
    refine ⟨f, rfl, hf, ?_, ?_, ?_⟩ <;>
    · rintro (h | h)
      · exact h
      · cases h
  | cons i is ih =>
    rw [List.map_cons, List.flatten_cons, List.append_assoc]
    cases i with
    | lit c =>
      obtain ⟨f', h1, h2, h3, h4, h5⟩ := ih f hf
      refine ⟨f', ?_, h2, ?_, ?_, ?_⟩
      · simp only [fmtItem, List.cons_append, List.nil_append, parseItems, if_true]
        exact h1
      · simpa using h3
      · simpa using h4
      · simpa using h5
    | year =>
      obtain ⟨f', h1, h2, h3, h4, h5⟩ := ih { f with y := some a.y } ⟨Or.inr rfl, hf.2⟩
      have hset : setField f.y a.y = some a.y := by
        rcases hf.1 with h | h <;> simp [h, setField]
      refine ⟨f', ?_, h2, fun _ => h3 (Or.inl rfl), ?_, ?_⟩
      · simp only [fmtItem, Date.yearStr, hy, and_self, if_true, parseItems]
        rw [trimStart_digits _ y2 ny, scanYear_digits _ y2 y1, y3]
        simp only [hyz, hset]
        exact h1
      · simpa using h4
      · simpa using h5
    | month =>
      obtain ⟨f', h1, h2, h3, h4, h5⟩ := ih { f with m := some a.m } ⟨hf.1, Or.inr rfl, hf.2.2⟩
      have hset : setField f.m a.m = some a.m := by
        rcases hf.2.1 with h | h <;> simp [h, setField]
      refine ⟨f', ?_, h2, ?_, fun _ => h4 (Or.inl rfl), ?_⟩
      · have hs := scanDigits_exact ((is.map (fmtItem a)).flatten ++ r) m2 nm
        rw [m1, m3] at hs
        simp only [fmtItem, parseItems]
        rw [trimStart_digits _ m2 nm, hs]
        simp only [hset]
        exact h1
      · simpa using h3
      · simpa using h5
    | day =>
      obtain ⟨f', h1, h2, h3, h4, h5⟩ := ih { f with d := some a.d } ⟨hf.1, hf.2.1, Or.inr rfl⟩
      have hset : setField f.d a.d = some a.d := by
        rcases hf.2.2 with h | h <;> simp [h, setField]
      refine ⟨f', ?_, h2, ?_, ?_, fun _ => h5 (Or.inl rfl)⟩
      · have hs := scanDigits_exact ((is.map (fmtItem a)).flatten ++ r) d2 nd
        rw [d1, d3] at hs
        simp only [fmtItem, parseItems]
        rw [trimStart_digits _ d2 nd, hs]
        simp only [hset]
        exact h1
      · simpa using h3
      · simpa using h4

/-- With a format of `%Y`, `%m`, `%d` and other characters, a date of the years 0 to 9999 reads back. -/
theorem std_date_round_trip (a : Date) (hy : 0 ≤ a.y ∧ a.y ≤ 9999) (fmt : Str) (is : List DateItem)
    (hi : dateItems fmt = some is) (h : DateItem.year ∈ is ∧ DateItem.month ∈ is ∧ DateItem.day ∈ is) :
    ∃ s, stdFmtDate a fmt = some s ∧ stdParseDate s fmt = some a := by
  obtain ⟨f', h1, _, h3, h4, h5⟩ := parseItems_written a hy is [] {} ⟨Or.inl rfl, Or.inl rfl, Or.inl rfl⟩
  rw [List.append_nil] at h1
  refine ⟨_, by rw [stdFmtDate, hi]; rfl, ?_⟩
  unfold stdParseDate
  rw [hi]
  simp only [h1]
  have e1 := h3 (Or.inr h.1)
  have e2 := h4 (Or.inr h.2.1)
  have e3 := h5 (Or.inr h.2.2)
  cases f' with
  | mk y m d =>
    simp only at e1 e2 e3
    subst e1 e2 e3
    simp only
    unfold Date.ofYmd?
    rw [dif_pos a.ok]

/-- The text in the default format. -/
theorem std_date_default (a : Date) (hy : 0 ≤ a.y ∧ a.y ≤ 9999) :
    ∃ s, stdFmtDate a s%"%Y/%m/%d" = some s ∧ stdParseDate s s%"%Y/%m/%d" = some a ∧ isWord s ∧ NoComment s ∧
      ∃ c r, s = c :: r ∧ isDigit c = true := by
  obtain ⟨s, h1, h2⟩ := std_date_round_trip a hy s%"%Y/%m/%d" [.year, .lit '/', .month, .lit '/', .day] rfl (by decide)
  refine ⟨s, h1, h2, ?_⟩
  have hok := a.ok
  unfold validYmd at hok
  simp only [Bool.and_eq_true, decide_eq_true_eq] at hok
  have hml : monthLen a.y a.m ≤ 31 := by
    unfold monthLen
    split <;> (try split) <;> omega
  obtain ⟨y1, y2, y3⟩ := zpad_spec 4 a.y.natAbs (by omega) (by omega)
  obtain ⟨m1, m2, m3⟩ := zpad_spec 2 a.m (by omega) (by omega)
  obtain ⟨d1, d2, d3⟩ := zpad_spec 2 a.d (by omega) (by omega)
  have hs : s = Date.zpad 4 a.y.natAbs ++ '/' :: (Date.zpad 2 a.m ++ '/' :: Date.zpad 2 a.d) := by
    have : some ((([.year, .lit '/', .month, .lit '/', .day] : List DateItem).map (fmtItem a)).flatten) = some s := h1
    rw [← Option.some.inj this]
    simp [fmtItem, Date.yearStr, hy]
  have hdig : ∀ {d : Str} (t : Str), (∀ c ∈ d, isDigit c = true) → d ≠ [] → rc (d ++ t) = d ++ rc t := by
    intro d t hd hne
    clear hs h1 h2
    induction d with
    | nil => exact absurd rfl hne
    | cons c d ih =>
      have hc := hd c (by simp)
      have hm : startsMark (c :: (d ++ t)) = false := by
        unfold startsMark
        split
        · rename_i heq; cases (List.cons.inj heq).1; revert hc; decide
        · rename_i heq; cases (List.cons.inj heq).1; revert hc; decide
        · rfl
      simp only [List.cons_append, rc, hm, Bool.false_eq_true, if_false]
      cases d with
      | nil => rfl
      | cons e d => rw [ih (fun x hx => hd x (by simp [hx])) (by simp)]
  have hsl : ∀ {d : Str} (t : Str), (∀ c ∈ d, isDigit c = true) → d ≠ [] →
      rc ('/' :: (d ++ t)) = '/' :: rc (d ++ t) := by
    intro d t hd hne
    obtain ⟨c, e, rfl⟩ := List.exists_cons_of_ne_nil hne
    have hc := hd c (by simp)
    have hm : startsMark ('/' :: (c :: e ++ t)) = false := by
      unfold startsMark
      split
      · rename_i heq; cases (List.cons.inj heq).1
      · rename_i heq; cases (List.cons.inj (List.cons.inj heq).2).1; revert hc; decide
      · rfl
    rw [rc, hm]
    rfl
  have ny : Date.zpad 4 a.y.natAbs ≠ [] := by intro e; rw [e] at y1; cases y1
  have nm : Date.zpad 2 a.m ≠ [] := by intro e; rw [e] at m1; cases m1
  have nd : Date.zpad 2 a.d ≠ [] := by intro e; rw [e] at d1; cases d1
  refine ⟨⟨?_, ?_⟩, ?_, ?_⟩
  · rw [hs]; simp
  · intro c hc
    rw [hs] at hc
    simp only [List.mem_append, List.mem_cons] at hc
    rcases hc with hc | rfl | hc | rfl | hc
    · exact isDigit_notWs (y2 c hc)
    · decide
    · exact isDigit_notWs (m2 c hc)
    · decide
    · exact isDigit_notWs (d2 c hc)
  · rw [noComment_iff, hs, hdig _ y2 ny, hsl _ m2 nm, hdig _ m2 nm]
    have := hsl [] d2 nd
    rw [List.append_nil] at this
    rw [this]
    have := hdig [] d2 nd
    rw [List.append_nil] at this
    rw [this]
    simp [rc]
  · obtain ⟨c, e, he⟩ := List.exists_cons_of_ne_nil ny
    exact ⟨c, e ++ '/' :: (Date.zpad 2 a.m ++ '/' :: Date.zpad 2 a.d), by rw [hs, he]; rfl, y2 c (by rw [he]; simp)⟩

end Silverfox
