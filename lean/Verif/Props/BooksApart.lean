import Verif.Props.Agree

/-
C148: the reports of books kept apart add up. C149: booking to other accounts moves the figures there.
-/

namespace Silverfox

set_option linter.unusedSectionVars false

/-! ### Specification -/

/-- Specification: the command asks for the balance report of a journal, kept in any number of files, in which the entries
`es` are written (as in C129: at most eight decimals, and not so much that rounding could show). -/
structure BooksOf (env : Env) (o : Outside) (w : World) (args : List Str) (es : List QEntry) : Prop where
  fair : FairOrder env.ord
  command : ∃ c args' fs path, args = c :: args' ∧ c.head? = some 'b' ∧ Spelled fs args' ∧ journalFor o fs = some path ∧
    ∃ items all n, Holds w path items ∧ Spread (w.cdParent path) n items all ∧ n < o.fuel ∧
      WellWritten env s%"%Y/%m/%d" [] all ∧ QItem.entries all = es
  fine : ∀ e ∈ es, e.Fine
  seen : ∀ k, PricedBefore k es
  small : ∀ k, LittleIn QEntry.booked k es

/-- Specification: the entry `e'` is the entry `e`, booked to the accounts that `ρ` says. Date, mark and title may differ. -/
def QEntry.Rebooked (ρ : Str → Str) (e e' : QEntry) : Prop :=
  List.Forall₂ (fun l l' : QLine => l'.account = ρ l.account ∧ l'.value = l.value ∧ l'.clauses = l.clauses) e.lines e'.lines

/-! ### Proofs -/

theorem BooksOf.report {env : Env} {o : Outside} {w : World} {args : List Str} {es : List QEntry} (h : BooksOf env o w args es) :
    ∃ w' out, mainProgram F64 env o args w = (w', .ok out) ∧ ExactReport QEntry.booked es (readReport out) := by
  obtain ⟨c, args', fs, path, rfl, hc, ha, hj, items, all, n, h1, h2, h3, h4, rfl⟩ := h.command
  obtain ⟨w', out, b1, _, b3⟩ := C129_exact_rule env h.fair o w path items all n h1 h2 h4 h3 h.fine h.seen h.small c args' fs hc ha hj
  exact ⟨w', out, b1, b3⟩

theorem everyLine_perm {r : QEntry → Rat × Option Str} {es es' : List QEntry} (h : es.Perm es') :
    (everyLine r es).Perm (everyLine r es') := h.flatMap_right _

/-- **C148.** The reports of books kept apart add up: if all entries of two journals are written in a third, in any order and in
any number of files, its balance report lists the accounts that the two reports list, and says of every account, and of any accounts
together, in every currency what the two say, added. -/
theorem C148_reports_add_up (env env' env'' : Env) (o o' o'' : Outside) (w w' w'' : World) (args args' args'' : List Str)
    (es es' es'' : List QEntry) (h : BooksOf env o w args es) (h' : BooksOf env' o' w' args' es')
    (h'' : BooksOf env'' o'' w'' args'' es'') (hall : es''.Perm (es ++ es')) :
    ∃ out out' out'', (mainProgram F64 env o args w).2 = .ok out ∧ (mainProgram F64 env' o' args' w').2 = .ok out' ∧
      (mainProgram F64 env'' o'' args'' w'').2 = .ok out'' ∧
      (∀ k, k ∈ (readReport out'').map Prod.fst ↔ k ∈ (readReport out).map Prod.fst ∨ k ∈ (readReport out').map Prod.fst) ∧
      ∀ (P : Str → Prop) [DecidablePred P] s,
        saidOf (readReport out'') P s = saidOf (readReport out) P s + saidOf (readReport out') P s := by
  obtain ⟨_, out, a1, a2⟩ := h.report
  obtain ⟨_, out', b1, b2⟩ := h'.report
  obtain ⟨_, out'', c1, c2⟩ := h''.report
  refine ⟨out, out', out'', by rw [a1], by rw [b1], by rw [c1], fun k => ?_, fun P _ s => ?_⟩
  · rw [a2.accounts, b2.accounts, c2.accounts]
    constructor
    · rintro ⟨e, he, hk⟩
      rcases List.mem_append.1 (hall.mem_iff.1 he) with h | h
      · exact Or.inl ⟨e, h, hk⟩
      · exact Or.inr ⟨e, h, hk⟩
    · rintro (⟨e, he, hk⟩ | ⟨e, he, hk⟩)
      · exact ⟨e, hall.mem_iff.2 (by simp [he]), hk⟩
      · exact ⟨e, hall.mem_iff.2 (by simp [he]), hk⟩
  · rw [said_sum a2, said_sum b2, said_sum c2, ← List.sum_append, ← List.map_append]
    refine List.Perm.sum_eq (List.Perm.map _ ?_)
    have := everyLine_perm (r := QEntry.booked) hall
    unfold everyLine at this ⊢
    rwa [List.flatMap_append] at this

theorem rebooked_given {ρ : Str → Str} {e e' : QEntry} (h : e.Rebooked ρ e') : e'.given = e.given := by
  unfold QEntry.given
  unfold QEntry.Rebooked at h
  generalize e.lines = L at h
  generalize e'.lines = L' at h
  induction h with
  | nil => rfl
  | cons hd _ ih => simp only [List.filterMap_cons, hd.2.1, ih]

theorem rebooked_homes {ρ : Str → Str} {e e' : QEntry} (h : e.Rebooked ρ e') :
    e'.lines.filterMap QLine.home = e.lines.filterMap QLine.home := by
  unfold QEntry.Rebooked at h
  generalize e.lines = L at h
  generalize e'.lines = L' at h
  induction h with
  | nil => rfl
  | @cons l l' _ _ hd _ ih =>
    have : l'.home = l.home := by
      unfold QLine.home QLine.clause
      rw [hd.2.1, hd.2.2]
    simp only [List.filterMap_cons, this, ih]

theorem rebooked_booked {ρ : Str → Str} {e e' : QEntry} (h : e.Rebooked ρ e') : e'.booked = e.booked := by
  unfold QEntry.booked QEntry.In
  rw [rebooked_given h, rebooked_homes h]

theorem rebooked_lines {ρ : Str → Str} {es es' : List QEntry} (h : List.Forall₂ (QEntry.Rebooked ρ) es es') :
    everyLine QEntry.booked es' = (everyLine QEntry.booked es).map fun p => (ρ p.1, p.2) := by
  unfold everyLine
  induction h with
  | nil => rfl
  | @cons e e' es es' hd _ ih =>
    rw [List.flatMap_cons, List.flatMap_cons, List.map_append, ih]
    congr 1
    rw [rebooked_booked hd]
    generalize e.booked = b
    unfold QEntry.Rebooked at hd
    generalize e.lines = L at hd
    generalize e'.lines = L' at hd
    induction hd with
    | nil => rfl
    | cons hd _ ih => simp only [List.map_cons, hd.1, hd.2.1, ih]

/-- **C149.** If the entries of a journal are booked to other accounts, the balance report says of each account what it said of
the accounts booked there. So an account may be given another name, or several accounts may be made one. -/
theorem C149_other_accounts (env env' : Env) (o o' : Outside) (w w' : World) (args args' : List Str) (ρ : Str → Str)
    (es es' : List QEntry) (h : BooksOf env o w args es) (h' : BooksOf env' o' w' args' es')
    (hall : List.Forall₂ (QEntry.Rebooked ρ) es es') :
    ∃ out out', (mainProgram F64 env o args w).2 = .ok out ∧ (mainProgram F64 env' o' args' w').2 = .ok out' ∧
      (∀ k, k ∈ (readReport out').map Prod.fst ↔ ∃ j ∈ (readReport out).map Prod.fst, ρ j = k) ∧
      ∀ (P : Str → Prop) [DecidablePred P] s, saidOf (readReport out') P s = saidOf (readReport out) (fun j => P (ρ j)) s := by
  obtain ⟨_, out, a1, a2⟩ := h.report
  obtain ⟨_, out', b1, b2⟩ := h'.report
  have hl := rebooked_lines hall
  have acc : ∀ (es : List QEntry) (k : Str), (∃ e ∈ es, ∃ l ∈ e.lines, l.account = k) ↔
      k ∈ (everyLine QEntry.booked es).map Prod.fst := by
    intro es k
    unfold everyLine
    simp only [List.mem_map, List.mem_flatMap]
    constructor
    · rintro ⟨e, he, l, hl, rfl⟩
      exact ⟨_, ⟨e, he, l, hl, rfl⟩, rfl⟩
    · rintro ⟨_, ⟨e, he, l, hl, rfl⟩, rfl⟩
      exact ⟨e, he, l, hl, rfl⟩
  refine ⟨out, out', by rw [a1], by rw [b1], fun k => ?_, fun P _ s => ?_⟩
  · rw [b2.accounts, acc, hl, List.map_map]
    constructor
    · intro hk
      obtain ⟨p, hp, rfl⟩ := List.mem_map.1 hk
      exact ⟨p.1, (a2.accounts _).2 ((acc _ _).2 (List.mem_map_of_mem hp)), rfl⟩
    · rintro ⟨j, hj, rfl⟩
      obtain ⟨p, hp, rfl⟩ := List.mem_map.1 ((acc _ _).1 ((a2.accounts _).1 hj))
      exact List.mem_map.2 ⟨p, hp, rfl⟩
  · rw [said_sum b2, said_sum a2, hl, List.map_map]
    rfl

/-! ### Examples -/

/-- One entry with opening balances, the last line booked to `f`. -/
def exBooks (f : Str) : QEntry where
  date := s%"2025/01/01"
  mark := s%"*"
  title := s%"opening"
  day := ⟨2025, 1, 1, by decide⟩
  lines := [⟨⟨s%" ", s%"assets:bank", s%" ", s%"81.5", some (163 / 2, none)⟩, []⟩,
    ⟨⟨s%" ", s%"assets:shares", s%" ", s%"5 XYZ", some (5, some s%"XYZ")⟩, [⟨s%"@", s%"3.5", (7 / 2, none)⟩]⟩,
    ⟨⟨s%" ", f, s%" ", s%"-99", some (-99, none)⟩, []⟩]

def exBooksAll (fs : List Str) : List QItem :=
  [.account s%"assets:bank", .account s%"assets:shares", .account s%"fee"] ++ fs.map fun f => .entry (exBooks f)

def exBooksDisk (fs : List Str) : World :=
  disk [("k", "account assets:bank\naccount assets:shares\naccount fee\n" ++ String.ofList (fs.flatMap fun f =>
    s%"2025/01/01 * opening\n assets:bank 81.5\n assets:shares 5 XYZ @ 3.5\n " ++ f ++ s%" -99\n"))]

theorem exBooks_ok (f : Str) (hf : f ∈ [s%"fee", s%"assets:bank"]) :
    (exBooks f).Ok (stdEnv june15) s%"%Y/%m/%d" [s%"fee", s%"assets:shares", s%"assets:bank"] := by
  have hc : exClosing = exBooks s%"fee" := rfl
  have h := exClosing_ok
  rw [hc] at h
  simp only [List.mem_cons, List.not_mem_nil, or_false] at hf
  rcases hf with rfl | rfl
  · exact h
  · have a2 : WrittenAmount s%"-99" (-99) none := ⟨s%"-99", true, 99, 0,
      ⟨s%"99", [], by decide, by decide, by decide, by decide, by decide, by decide⟩, by norm_num, Or.inl ⟨rfl, rfl⟩⟩
    refine ⟨h.date, h.mark, h.title, h.plain, ?_, by decide, ?_⟩
    · intro l hl
      simp only [exBooks, List.mem_cons, List.not_mem_nil, or_false] at hl
      rcases hl with rfl | rfl | rfl
      · exact h.lines _ (by simp [exBooks])
      · exact h.lines _ (by simp [exBooks])
      · refine exQLine _ _ (by decide) (by decide) (by decide) (by decide) (by decide +kernel) (by simp) ?_ (by decide) (by decide) (by simp)
        intro q s h; cases h; exact ⟨by decide, by decide +kernel, a2⟩
    · rintro ⟨l, hl, hv⟩
      simp only [exBooks, List.mem_cons, List.not_mem_nil, or_false] at hl
      rcases hl with rfl | rfl | rfl <;> cases hv

theorem exBooks_of (fs : List Str) (hfs : fs ∈ [[s%"fee"], [s%"assets:bank"], [s%"fee", s%"assets:bank"]]) :
    BooksOf (stdEnv june15) exOutside (exBooksDisk fs) [s%"balance", s%"-f", s%"k"] (fs.map exBooks) := by
  have hin : ∀ f ∈ fs, f ∈ [s%"fee", s%"assets:bank"] := by
    intro f hf
    simp only [List.mem_cons, List.not_mem_nil, or_false] at hfs
    rcases hfs with rfl | rfl | rfl <;> simp_all
  have hno : ∀ f, ¬ ∃ l ∈ (exBooks f).lines, l.value = none := by
    rintro f ⟨l, hl, hv⟩
    simp only [exBooks, List.mem_cons, List.not_mem_nil, or_false] at hl
    rcases hl with rfl | rfl | rfl <;> cases hv
  refine ⟨fun _ l => List.Perm.refl l, ⟨s%"balance", [s%"-f", s%"k"], [.file s%"k"], s%"k", rfl, by decide, .cons (.fileShort _) .nil,
    by decide, exBooksAll fs, exBooksAll fs, 0, ?_, ?_, by decide, ?_, ?_⟩, ?_, ?_, ?_⟩
  · simp only [List.mem_cons, List.not_mem_nil, or_false] at hfs
    rcases hfs with rfl | rfl | rfl <;> exact ⟨_, rfl, by decide +kernel⟩
  · simp only [List.mem_cons, List.not_mem_nil, or_false] at hfs
    rcases hfs with rfl | rfl | rfl
    · exact .own (by simp) (.own (by simp) (.own (by simp) (.own (by simp) .nil)))
    · exact .own (by simp) (.own (by simp) (.own (by simp) (.own (by simp) .nil)))
    · exact .own (by simp) (.own (by simp) (.own (by simp) (.own (by simp) (.own (by simp) .nil))))
  · simp only [List.mem_cons, List.not_mem_nil, or_false] at hfs
    rcases hfs with rfl | rfl | rfl
    · exact ⟨by decide +kernel, by decide +kernel, by decide +kernel, exBooks_ok _ (by simp), trivial⟩
    · exact ⟨by decide +kernel, by decide +kernel, by decide +kernel, exBooks_ok _ (by simp), trivial⟩
    · exact ⟨by decide +kernel, by decide +kernel, by decide +kernel, exBooks_ok _ (by simp), exBooks_ok _ (by simp), trivial⟩
  · simp only [List.mem_cons, List.not_mem_nil, or_false] at hfs
    rcases hfs with rfl | rfl | rfl <;> rfl
  · intro e he
    obtain ⟨f, _, rfl⟩ := List.mem_map.1 he
    refine ⟨?_, fun h => absurd h (hno f), fun h => absurd h (hno f), fun h => absurd h (hno f)⟩
    intro v hv
    change v ∈ [((163 / 2 : Rat), (none : Option Str)), (5, some s%"XYZ"), (-99, none)] at hv
    simp only [List.mem_cons, List.not_mem_nil, or_false] at hv
    rcases hv with rfl | rfl | rfl
    · exact ⟨8150000000, by norm_num⟩
    · exact ⟨500000000, by norm_num⟩
    · exact ⟨-9900000000, by norm_num⟩
  · intro k e he ⟨l, hl, _, hv⟩
    obtain ⟨f, _, rfl⟩ := List.mem_map.1 he
    exact absurd ⟨l, hl, hv⟩ (hno f)
  · intro k
    apply little_of_all
    by_cases h1 : k = s%"assets:bank"
    · subst h1
      simp only [List.mem_cons, List.not_mem_nil, or_false] at hfs
      rcases hfs with rfl | rfl | rfl <;> decide +kernel
    · by_cases h2 : k = s%"fee"
      · subst h2
        simp only [List.mem_cons, List.not_mem_nil, or_false] at hfs
        rcases hfs with rfl | rfl | rfl <;> decide +kernel
      · by_cases h3 : k = s%"assets:shares"
        · subst h3
          simp only [List.mem_cons, List.not_mem_nil, or_false] at hfs
          rcases hfs with rfl | rfl | rfl <;> decide +kernel
        · have e : ((fs.map exBooks).flatMap fun e => e.lines.filterMap fun l =>
              if l.account = k then some (e.weight l) else none) = [] := by
            rw [List.flatMap_eq_nil_iff]
            intro e he
            obtain ⟨f, hf, rfl⟩ := List.mem_map.1 he
            rw [List.filterMap_eq_nil_iff]
            intro l hl
            refine if_neg ?_
            have := hin f hf
            simp only [exBooks, List.mem_cons, List.not_mem_nil, or_false] at hl this
            rcases hl with rfl | rfl | rfl
            · exact Ne.symm h1
            · exact Ne.symm h3
            · rcases this with rfl | rfl
              · exact Ne.symm h2
              · exact Ne.symm h1
          rw [e]; norm_num

/-- Two journals, and one with the entries of both: all conditions of C148 hold, and the reports add up. -/
example : BooksOf (stdEnv june15) exOutside (exBooksDisk [s%"fee"]) [s%"balance", s%"-f", s%"k"] [exBooks s%"fee"] ∧
    BooksOf (stdEnv june15) exOutside (exBooksDisk [s%"assets:bank"]) [s%"balance", s%"-f", s%"k"] [exBooks s%"assets:bank"] ∧
    BooksOf (stdEnv june15) exOutside (exBooksDisk [s%"fee", s%"assets:bank"]) [s%"balance", s%"-f", s%"k"]
      [exBooks s%"fee", exBooks s%"assets:bank"] ∧
    [exBooks s%"fee", exBooks s%"assets:bank"].Perm ([exBooks s%"fee"] ++ [exBooks s%"assets:bank"]) ∧
    (∃ out, (mainProgram F64 (stdEnv june15) exOutside [s%"balance", s%"-f", s%"k"] (exBooksDisk [s%"fee"])).2 = .ok out ∧
      readReport out = [(s%"assets:bank", [s%" 81.5"]), (s%"assets:shares", [s%" 5 XYZ"]), (s%"fee", [s%"-99"])]) ∧
    (∃ out, (mainProgram F64 (stdEnv june15) exOutside [s%"balance", s%"-f", s%"k"] (exBooksDisk [s%"assets:bank"])).2 = .ok out ∧
      readReport out = [(s%"assets:bank", [s%"-17.5"]), (s%"assets:shares", [s%" 5 XYZ"])]) ∧
    ∃ out, (mainProgram F64 (stdEnv june15) exOutside [s%"balance", s%"-f", s%"k"] (exBooksDisk [s%"fee", s%"assets:bank"])).2 = .ok out ∧
      readReport out = [(s%"assets:bank", [s%" 64"]), (s%"assets:shares", [s%" 10 XYZ"]), (s%"fee", [s%"-99"])] :=
  ⟨exBooks_of _ (by simp), exBooks_of _ (by simp), exBooks_of _ (by simp), .refl _, by decide +kernel, by decide +kernel,
    by decide +kernel⟩

/-- The fee booked to the bank: the conditions of C149 hold for the first two of these journals (the reports: see above). -/
example : List.Forall₂ (QEntry.Rebooked fun k => if k = s%"fee" then s%"assets:bank" else k) [exBooks s%"fee"]
    [exBooks s%"assets:bank"] :=
  .cons (.cons ⟨by decide, rfl, rfl⟩ (.cons ⟨by decide, rfl, rfl⟩ (.cons ⟨by decide, rfl, rfl⟩ .nil))) .nil

end Silverfox
