import Verif.Props.BooksApart

/-
C151: an entry with all signs reversed undoes an entry.
-/

namespace Silverfox

set_option linter.unusedSectionVars false

/-! ### Specification -/

/-- The opposite amount. -/
def opposite (v : Rat × Option Str) : Rat × Option Str := (-v.1, v.2)

/-- Specification: the entry `e'` is the entry `e` with the opposite amounts; what is behind the amounts is the same, and a
line without amount has none. Date, mark and title may differ, and the order of the lines. -/
def QEntry.Reversed (e e' : QEntry) : Prop :=
  ∃ ls : List QLine, ls.Perm e'.lines ∧
    List.Forall₂ (fun l l' : QLine => l'.account = l.account ∧ l'.value = l.value.map opposite ∧ l'.clauses = l.clauses) e.lines ls

/-! ### Proofs -/

theorem reversed_given {e e' : QEntry} (h : e.Reversed e') : (e.given.map opposite).Perm e'.given := by
  obtain ⟨ls, hp, h⟩ := h
  have : ls.filterMap (fun l => l.value) = (e.lines.filterMap fun l => l.value).map opposite := by
    generalize e.lines = L at h
    clear hp
    induction h with
    | nil => rfl
    | @cons l l' _ _ hd _ ih =>
      rw [List.filterMap_cons, List.filterMap_cons, hd.2.1, ih]
      cases l.value <;> rfl
  unfold QEntry.given
  rw [← this]
  exact hp.filterMap _

theorem reversed_homes {e e' : QEntry} (h : e.Reversed e') (ht : ∀ l ∈ e.lines, l.clause s%"=" = none) :
    (e'.lines.filterMap QLine.home).sum = -(e.lines.filterMap QLine.home).sum := by
  obtain ⟨ls, hp, h⟩ := h
  rw [← (hp.filterMap QLine.home).sum_eq]
  generalize e.lines = L at h ht
  clear hp
  induction h with
  | nil => simp
  | @cons l l' _ _ hd _ ih =>
    have hl := ht l (by simp)
    have : l'.home = l.home.map fun q => -q := by
      unfold QLine.home
      have c1 : ∀ op, l'.clause op = l.clause op := fun op => by unfold QLine.clause; rw [hd.2.2]
      rw [hd.2.1, c1, c1, hl]
      cases l.value with
      | none => rfl
      | some v =>
        obtain ⟨q, _ | s⟩ := v
        · rfl
        · show (match l.clause s%"@", (none : Option (Rat × Option Str)) with
            | some (p, none), _ => some (-q * p)
            | some (_, some _), _ => none
            | none, some (t, none) => some t
            | none, _ => none) = _
          cases hc : l.clause s%"@" with
          | none => rfl
          | some v =>
            obtain ⟨p, _ | s⟩ := v
            · show some (-q * p) = some (-(q * p))
              rw [neg_mul]
            · rfl
    rw [List.filterMap_cons, List.filterMap_cons, this]
    have ih := ih fun l hl => ht l (List.mem_cons_of_mem _ hl)
    cases l.home with
    | none => exact ih
    | some q => simp only [Option.map_some, List.sum_cons, ih]; ring

theorem reversed_in {e e' : QEntry} (h : e.Reversed e') (s : Option Str) : e'.In s ↔ e.In s := by
  unfold QEntry.In
  have hg := reversed_given h
  constructor
  · intro hi v hv
    exact hi (opposite v) (hg.mem_iff.1 (List.mem_map_of_mem hv))
  · intro hi v hv
    obtain ⟨u, hu, rfl⟩ := List.mem_map.1 (hg.mem_iff.2 hv)
    exact hi u hu

theorem sum_opposite (L : List (Rat × Option Str)) : ((L.map opposite).map Prod.fst).sum = -(L.map Prod.fst).sum := by
  induction L with
  | nil => simp
  | cons v L ih => simp only [List.map_cons, List.sum_cons, ih, opposite]; ring

theorem head_in {e : QEntry} {s : Option Str} (h : e.In s) (hne : e.given ≠ []) : (e.given.head?.map Prod.snd).getD none = s := by
  unfold QEntry.In at h
  cases hg : e.given with
  | nil => exact absurd hg hne
  | cons v L => rw [hg] at h; exact h v (by simp)

theorem reversed_booked {e e' : QEntry} (h : e.Reversed e') (ht : ∀ l ∈ e.lines, l.clause s%"=" = none) :
    e'.booked = opposite e.booked := by
  have hg := reversed_given h
  unfold QEntry.booked opposite
  by_cases hs : ∃ s, e.In s
  · obtain ⟨s, hs⟩ := hs
    have hs' := (reversed_in h s).2 hs
    rw [if_pos ⟨s, hs'⟩, if_pos ⟨s, hs⟩]
    have e1 : (e'.given.map Prod.fst).sum = -(e.given.map Prod.fst).sum := by
      rw [← (hg.map _).sum_eq, sum_opposite]
    rw [e1]
    by_cases hne : e.given = []
    · have hne' : e'.given = [] := by
        rw [hne] at hg
        exact hg.symm.eq_nil
      rw [hne, hne']
    · have hne' : e'.given ≠ [] := by
        intro hc
        rw [hc] at hg
        exact hne (List.map_eq_nil_iff.1 hg.eq_nil)
      rw [head_in hs hne, head_in hs' hne']
  · have hs' : ¬ ∃ s, e'.In s := fun ⟨s, hc⟩ => hs ⟨s, (reversed_in h s).1 hc⟩
    rw [if_neg hs', if_neg hs, reversed_homes h ht]

theorem reversed_lines {e e' : QEntry} (h : e.Reversed e')
    (ht : (∃ l ∈ e.lines, l.value = none) → ∀ l ∈ e.lines, l.clause s%"=" = none) :
    (everyLine QEntry.booked [e']).Perm ((everyLine QEntry.booked [e]).map fun p => (p.1, opposite p.2)) := by
  have hb : (∃ l ∈ e.lines, l.value = none) → e'.booked = opposite e.booked := fun hc => reversed_booked h (ht hc)
  obtain ⟨ls, hp, h⟩ := h
  unfold everyLine
  simp only [List.flatMap_cons, List.flatMap_nil, List.append_nil]
  refine (hp.symm.map _).trans (List.Perm.of_eq ?_)
  generalize e.booked = b at hb
  generalize e'.booked = b' at hb
  generalize e.lines = L at h hb
  clear hp ht
  induction h with
  | nil => rfl
  | @cons l l' _ _ hd _ ih =>
    rw [List.map_cons, List.map_cons, List.map_cons, ih fun ⟨m, hm, hv⟩ => hb ⟨m, List.mem_cons_of_mem _ hm, hv⟩, hd.1, hd.2.1]
    cases hv : l.value with
    | none => rw [hb ⟨l, by simp, hv⟩]; rfl
    | some v => rfl

/-- **C151.** An entry with the opposite amounts undoes an entry: with both of them written anywhere in a journal, the balance
report says of every account, and of any accounts together, in every currency what it says without them; and it lists the
accounts that occur. Partial: if a line is left blank, no line may have a total behind `=`; such an entry is not undone
(`C151_totals_are_not_undone`). -/
theorem C151_undone_partial (env env' : Env) (o o' : Outside) (w w' : World) (args args' : List Str) (e e' : QEntry)
    (es es' : List QEntry) (h : BooksOf env o w args es) (h' : BooksOf env' o' w' args' es')
    (hall : es'.Perm (es ++ [e, e'])) (hr : e.Reversed e')
    (ht : (∃ l ∈ e.lines, l.value = none) → ∀ l ∈ e.lines, l.clause s%"=" = none) :
    ∃ out out', (mainProgram F64 env o args w).2 = .ok out ∧ (mainProgram F64 env' o' args' w').2 = .ok out' ∧
      (∀ k, k ∈ (readReport out').map Prod.fst ↔ k ∈ (readReport out).map Prod.fst ∨ ∃ l ∈ e.lines, l.account = k) ∧
      ∀ (P : Str → Prop) [DecidablePred P] s, saidOf (readReport out') P s = saidOf (readReport out) P s := by
  obtain ⟨_, out, a1, a2⟩ := h.report
  obtain ⟨_, out', b1, b2⟩ := h'.report
  refine ⟨out, out', by rw [a1], by rw [b1], fun k => ?_, fun P _ s => ?_⟩
  · rw [a2.accounts, b2.accounts]
    have hk : (∃ l ∈ e'.lines, l.account = k) ↔ ∃ l ∈ e.lines, l.account = k := by
      have e1 := (reversed_lines hr ht).map Prod.fst
      rw [List.map_map] at e1
      have e2 := e1.mem_iff (a := k)
      simpa [everyLine, Function.comp_def] using e2
    constructor
    · rintro ⟨d, hd, hl⟩
      have := hall.mem_iff.1 hd
      simp only [List.mem_append, List.mem_cons, List.not_mem_nil, or_false] at this
      rcases this with h | rfl | rfl
      · exact Or.inl ⟨d, h, hl⟩
      · exact Or.inr hl
      · exact Or.inr (hk.1 hl)
    · rintro (⟨d, hd, hl⟩ | hl)
      · exact ⟨d, hall.mem_iff.2 (by simp [hd]), hl⟩
      · exact ⟨e, hall.mem_iff.2 (by simp), hl⟩
  · rw [said_sum a2, said_sum b2]
    rw [((everyLine_perm (r := QEntry.booked) hall).map _).sum_eq]
    have e1 : everyLine QEntry.booked (es ++ [e, e']) = everyLine QEntry.booked es ++ (everyLine QEntry.booked [e] ++
        everyLine QEntry.booked [e']) := by
      unfold everyLine
      simp only [List.flatMap_append, List.flatMap_cons, List.flatMap_nil, List.append_nil]
    rw [e1, List.map_append, List.map_append, List.sum_append, List.sum_append, ((reversed_lines hr ht).map _).sum_eq, List.map_map]
    have e2 : ∀ L : List (Str × (Rat × Option Str)), (L.map ((fun p : Str × (Rat × Option Str) =>
        if P p.1 then (if p.2.2 = s then p.2.1 else 0) else 0) ∘ fun p => (p.1, opposite p.2))).sum =
        -(L.map fun p => if P p.1 then (if p.2.2 = s then p.2.1 else 0) else 0).sum := by
      intro L
      induction L with
      | nil => simp
      | cons p L ih =>
        rw [List.map_cons, List.sum_cons, ih, List.map_cons, List.sum_cons]
        show (if P p.1 then (if p.2.2 = s then -p.2.1 else 0) else 0) + _ = _
        by_cases c1 : P p.1
        · by_cases c2 : p.2.2 = s
          · rw [if_pos c1, if_pos c1, if_pos c2, if_pos c2]; ring
          · rw [if_pos c1, if_pos c1, if_neg c2, if_neg c2]; ring
        · rw [if_neg c1, if_neg c1]; ring
    rw [e2]
    ring

/-! ### Journals -/

/-- Three accounts, and money in the bank. -/
def exStartText : String := "account bank\naccount shares\naccount equity\naccount fee\n2025/01/01 * start\n bank 100\n shares 0 XYZ\n equity -100\n"

def exBoughtText : String := exStartText ++ "2025/01/02 * buy\n shares 5 XYZ = 17.5\n fee 1\n bank\n"

def exUnboughtText : String := exBoughtText ++ "2025/01/03 * undo\n shares -5 XYZ = 17.5\n fee -1\n bank\n"

/-- C151. Where the cost is given as a total behind `=` and the other line is left blank, the opposite entry does not undo the
entry: what is bought is paid for, and when it is given back it is paid for again. -/
theorem C151_totals_are_not_undone :
    ([exStartText, exBoughtText, exUnboughtText].map fun t =>
      match (mainProgram F64 (stdEnv june15) exOutside [s%"balance", s%"-f", s%"j"] (disk [("j", t)])).2 with
      | .ok out => readReport out
      | .error _ => []) =
      [[(s%"bank", [s%" 100"]), (s%"equity", [s%"-100"]), (s%"shares", [s%" 0 XYZ"])],
       [(s%"bank", [s%" 81.5"]), (s%"equity", [s%"-100"]), (s%"fee", [s%" 1"]), (s%"shares", [s%" 5 XYZ"])],
       [(s%"bank", [s%" 65"]), (s%"equity", [s%"-100"]), (s%"fee", [s%" 0"]), (s%"shares", [s%" 0 XYZ"])]] := by
  decide +kernel

/-- Shares are bought, at a price; what the bank pays is left open. -/
def exSharesIn : QEntry where
  date := s%"2025/01/02"
  mark := s%"*"
  title := s%"buy"
  day := ⟨2025, 1, 2, by decide⟩
  lines := [⟨⟨s%" ", s%"assets:shares", s%" ", s%"5 XYZ", some (5, some s%"XYZ")⟩, [⟨s%"@", s%"3.5", (7 / 2, none)⟩]⟩,
    ⟨⟨s%" ", s%"fee", s%" ", s%"1", some (1, none)⟩, []⟩, ⟨⟨s%" ", s%"assets:bank", [], [], none⟩, []⟩]

/-- That was a mistake. -/
def exSharesBack : QEntry where
  date := s%"2025/01/03"
  mark := s%"*"
  title := s%"undo"
  day := ⟨2025, 1, 3, by decide⟩
  lines := [⟨⟨s%" ", s%"assets:bank", [], [], none⟩, []⟩,
    ⟨⟨s%" ", s%"assets:shares", s%" ", s%"-5 XYZ", some (-5, some s%"XYZ")⟩, [⟨s%"@", s%"3.5", (7 / 2, none)⟩]⟩,
    ⟨⟨s%" ", s%"fee", s%" ", s%"-1", some (-1, none)⟩, []⟩]

theorem exSharesIn_ok : exSharesIn.Ok (stdEnv june15) s%"%Y/%m/%d" [s%"fee", s%"assets:shares", s%"assets:bank"] := by
  obtain ⟨_, _, a3, a4, a5, _⟩ := exAmounts
  refine ⟨by decide +kernel, by decide, ⟨s%"buy", none, Or.inl ⟨by decide, by decide, rfl⟩⟩, by decide +kernel, ?_, by decide, ?_⟩
  · intro l hl
    simp only [exSharesIn, List.mem_cons, List.not_mem_nil, or_false] at hl
    rcases hl with rfl | rfl | rfl
    · refine exQLine _ _ (by decide) (by decide) (by decide) (by decide) (by decide +kernel) (by simp) ?_ (by decide) (by decide) ?_
      · intro q s h; cases h; exact ⟨by decide, by decide +kernel, a3⟩
      · intro c hc
        simp only [List.mem_cons, List.not_mem_nil, or_false] at hc
        subst hc; exact ⟨by decide +kernel, a4⟩
    · refine exQLine _ _ (by decide) (by decide) (by decide) (by decide) (by decide +kernel) (by simp) ?_ (by decide) (by decide) (by simp)
      intro q s h; cases h; exact ⟨by decide, by decide +kernel, a5⟩
    · exact exQLine _ _ (by decide) (by decide) (by decide) (by decide) (by decide +kernel) (by simp) (by simp) (by decide) (by decide)
        (by simp)
  · intro _
    exact ⟨by decide, Or.inr ⟨by decide +kernel, s%"XYZ", by decide⟩⟩

theorem exSharesBack_ok : exSharesBack.Ok (stdEnv june15) s%"%Y/%m/%d" [s%"fee", s%"assets:shares", s%"assets:bank"] := by
  obtain ⟨_, _, _, a4, _, _⟩ := exAmounts
  have a3 : WrittenAmount s%"-5 XYZ" (-5) (some s%"XYZ") := ⟨s%"-5", true, 5, 0,
    ⟨s%"5", [], by decide, by decide, by decide, by decide, by decide, by decide⟩, by norm_num, by decide⟩
  have a5 : WrittenAmount s%"-1" (-1) none := ⟨s%"-1", true, 1, 0,
    ⟨s%"1", [], by decide, by decide, by decide, by decide, by decide, by decide⟩, by norm_num, Or.inl ⟨rfl, rfl⟩⟩
  refine ⟨by decide +kernel, by decide, ⟨s%"undo", none, Or.inl ⟨by decide, by decide, rfl⟩⟩, by decide +kernel, ?_, by decide, ?_⟩
  · intro l hl
    simp only [exSharesBack, List.mem_cons, List.not_mem_nil, or_false] at hl
    rcases hl with rfl | rfl | rfl
    · exact exQLine _ _ (by decide) (by decide) (by decide) (by decide) (by decide +kernel) (by simp) (by simp) (by decide) (by decide)
        (by simp)
    · refine exQLine _ _ (by decide) (by decide) (by decide) (by decide) (by decide +kernel) (by simp) ?_ (by decide) (by decide) ?_
      · intro q s h; cases h; exact ⟨by decide, by decide +kernel, a3⟩
      · intro c hc
        simp only [List.mem_cons, List.not_mem_nil, or_false] at hc
        subst hc; exact ⟨by decide +kernel, a4⟩
    · refine exQLine _ _ (by decide) (by decide) (by decide) (by decide) (by decide +kernel) (by simp) ?_ (by decide) (by decide) (by simp)
      intro q s h; cases h; exact ⟨by decide, by decide +kernel, a5⟩
  · intro _
    exact ⟨by decide, Or.inr ⟨by decide +kernel, s%"XYZ", by decide⟩⟩

theorem exSharesIn_reversed : exSharesIn.Reversed exSharesBack :=
  ⟨[⟨⟨s%" ", s%"assets:shares", s%" ", s%"-5 XYZ", some (-5, some s%"XYZ")⟩, [⟨s%"@", s%"3.5", (7 / 2, none)⟩]⟩,
    ⟨⟨s%" ", s%"fee", s%" ", s%"-1", some (-1, none)⟩, []⟩, ⟨⟨s%" ", s%"assets:bank", [], [], none⟩, []⟩],
    (List.Perm.cons _ (.swap _ _ _)).trans (.swap _ _ _),
    .cons ⟨rfl, rfl, rfl⟩ (.cons ⟨rfl, rfl, rfl⟩ (.cons ⟨rfl, rfl, rfl⟩ .nil))⟩

def exUndone : World :=
  disk [("k", "account assets:bank\naccount assets:shares\naccount fee\n2025/01/01 * opening\n assets:bank 81.5\n assets:shares 5 XYZ @ 3.5\n fee -99\n2025/01/02 * buy\n assets:shares 5 XYZ @ 3.5\n fee 1\n assets:bank\n2025/01/03 * undo\n assets:bank\n assets:shares -5 XYZ @ 3.5\n fee -1\n")]

def exUndoneAll : List QItem := [.account s%"assets:bank", .account s%"assets:shares", .account s%"fee", .entry (exBooks s%"fee"),
  .entry exSharesIn, .entry exSharesBack]

theorem fine_of (e : QEntry) (G : List (Rat × Option Str)) (hg : e.given = G) (h1 : ∀ v ∈ G, v.1 = 5 ∨ v.1 = 1 ∨ v.1 = -5 ∨ v.1 = -1)
    (hc : ∀ l ∈ e.lines, ∀ c ∈ l.clauses, c.value.1 = 7 / 2)
    (hh : ∀ l ∈ e.lines, l.home = some (35 / 2) ∨ l.home = some (-(35 / 2)) ∨ l.home = some 1 ∨ l.home = some (-1) ∨ l.home = none) :
    e.Fine := by
  subst hg
  refine ⟨?_, fun _ => ?_, fun _ => ?_, fun _ => ?_⟩
  · intro v hv
    rcases h1 v hv with h | h | h | h <;> rw [h]
    · exact ⟨500000000, by norm_num⟩
    · exact ⟨100000000, by norm_num⟩
    · exact ⟨-500000000, by norm_num⟩
    · exact ⟨-100000000, by norm_num⟩
  · intro v hv
    rcases h1 v hv with h | h | h | h <;> rw [h] <;> norm_num
  · intro l hl c hc'
    rw [hc l hl c hc']; exact ⟨⟨350000000, by norm_num⟩, by norm_num⟩
  · intro l hl q hq
    rcases hh l hl with h | h | h | h | h <;> rw [h] at hq <;> cases hq
    · exact ⟨1750000000, by norm_num⟩
    · exact ⟨-1750000000, by norm_num⟩
    · exact ⟨100000000, by norm_num⟩
    · exact ⟨-100000000, by norm_num⟩

theorem exUndone_books : BooksOf (stdEnv june15) exOutside exUndone [s%"balance", s%"-f", s%"k"]
    ([exBooks s%"fee"] ++ [exSharesIn, exSharesBack]) := by
  refine ⟨fun _ l => List.Perm.refl l, ⟨s%"balance", [s%"-f", s%"k"], [.file s%"k"], s%"k", rfl, by decide, .cons (.fileShort _) .nil,
    by decide, exUndoneAll, exUndoneAll, 0, ⟨_, rfl, by decide +kernel⟩,
    .own (by simp) (.own (by simp) (.own (by simp) (.own (by simp) (.own (by simp) (.own (by simp) .nil))))), by decide,
    ⟨by decide +kernel, by decide +kernel, by decide +kernel, exBooks_ok _ (by simp), exSharesIn_ok, exSharesBack_ok, trivial⟩, rfl⟩,
    ?_, ?_, ?_⟩
  · intro e he
    simp only [List.mem_append, List.mem_cons, List.not_mem_nil, or_false] at he
    rcases he with rfl | rfl | rfl
    · exact (exBooks_of [s%"fee"] (by simp)).fine _ (by simp)
    · exact fine_of _ _ rfl (by decide +kernel) (by decide +kernel) (by decide +kernel)
    · exact fine_of _ _ rfl (by decide +kernel) (by decide +kernel) (by decide +kernel)
  · intro k e he ⟨l, hl, hk, hv⟩
    have h1 : PricedBefore s%"assets:bank" ([exBooks s%"fee"] ++ [exSharesIn, exSharesBack]) := by unfold PricedBefore; decide +kernel
    have h2 : ∀ e ∈ [exBooks s%"fee"] ++ [exSharesIn, exSharesBack], ∀ l ∈ e.lines, l.value = none → l.account = s%"assets:bank" := by
      decide +kernel
    have h3 := h2 e he l hl hv
    rw [← hk, h3]
    exact h1 e he ⟨l, hl, h3, hv⟩
  · intro k
    apply little_of_all
    by_cases h1 : k = s%"assets:bank"
    · subst h1; decide +kernel
    · by_cases h2 : k = s%"fee"
      · subst h2; decide +kernel
      · by_cases h3 : k = s%"assets:shares"
        · subst h3; decide +kernel
        · have : ∀ e ∈ [exBooks s%"fee"] ++ [exSharesIn, exSharesBack], ∀ l ∈ e.lines,
              l.account = s%"assets:bank" ∨ l.account = s%"fee" ∨ l.account = s%"assets:shares" := by decide +kernel
          have e : (([exBooks s%"fee"] ++ [exSharesIn, exSharesBack]).flatMap fun e => e.lines.filterMap fun l =>
              if l.account = k then some (e.weight l) else none) = [] := by
            rw [List.flatMap_eq_nil_iff]
            intro e he
            rw [List.filterMap_eq_nil_iff]
            intro l hl
            refine if_neg ?_
            rcases this e he l hl with h | h | h <;> rw [h] <;> exact Ne.symm ‹_›
          rw [e]; norm_num

/-- All conditions of C151 hold of a journal with opening balances and the one with the purchase and its opposite; and what the
two reports say. -/
example : BooksOf (stdEnv june15) exOutside (exBooksDisk [s%"fee"]) [s%"balance", s%"-f", s%"k"] [exBooks s%"fee"] ∧
    BooksOf (stdEnv june15) exOutside exUndone [s%"balance", s%"-f", s%"k"] ([exBooks s%"fee"] ++ [exSharesIn, exSharesBack]) ∧
    exSharesIn.Reversed exSharesBack ∧ (∀ l ∈ exSharesIn.lines, l.clause s%"=" = none) ∧
    (∃ out, (mainProgram F64 (stdEnv june15) exOutside [s%"balance", s%"-f", s%"k"] (exBooksDisk [s%"fee"])).2 = .ok out ∧
      readReport out = [(s%"assets:bank", [s%" 81.5"]), (s%"assets:shares", [s%" 5 XYZ"]), (s%"fee", [s%"-99"])]) ∧
    ∃ out, (mainProgram F64 (stdEnv june15) exOutside [s%"balance", s%"-f", s%"k"] exUndone).2 = .ok out ∧
      readReport out = [(s%"assets:bank", [s%" 81.5"]), (s%"assets:shares", [s%" 5 XYZ"]), (s%"fee", [s%"-99"])] :=
  ⟨exBooks_of _ (by simp), exUndone_books, exSharesIn_reversed, by decide +kernel, by decide +kernel, by decide +kernel⟩

end Silverfox
