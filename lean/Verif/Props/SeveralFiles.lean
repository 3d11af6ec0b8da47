import Verif.Props.Priced
import Verif.Props.Include

/-
C128: a journal kept in several files, with its own date format, from text to the text of the balance report.
-/

namespace Silverfox

set_option linter.unusedSectionVars false

/-! ### Specification -/

/-- What can stand in a file. -/
inductive QItem where
  | account (name : Str)
  | currency (symbol : Str)
  | dateFormat (format : Str)
  | entry (e : QEntry)
  | incl (file : Str)

/-- How it is written. -/
def QItem.head : QItem → Str
  | .account k => s%"account " ++ k
  | .currency v => s%"currency " ++ v
  | .dateFormat v => s%"date_format " ++ v
  | .entry e => e.header
  | .incl f => s%"include " ++ f

def QItem.rest : QItem → List Str
  | .entry e => e.lines.map QLine.text
  | _ => []

/-- Specification: a file in the directory with these items; there may be blank lines anywhere. -/
def Holds (w : World) (file : Str) (items : List QItem) : Prop :=
  ∃ text, w.read file = some text ∧ inked (lines text) = items.flatMap fun i => i.head :: i.rest

/-- Specification: the items of a file, with those of the files it includes in the places of the `include` lines, to any
depth up to `n`. -/
inductive Spread (w : World) : Nat → List QItem → List QItem → Prop where
  | nil {n} : Spread w n [] []
  | own {n i is ps} : (∀ f, i ≠ .incl f) → Spread w n is ps → Spread w n (i :: is) (i :: ps)
  | incl {n f sub sub' is ps} : isWord f ∧ NoComment (s%"include " ++ f) → bare f → Holds w f sub →
      Spread w n sub sub' → Spread w (n + 1) is ps → Spread w (n + 1) (.incl f :: is) (sub' ++ ps)

/-- Specification: every item is written well. Dates are in the format that was set last, and accounts are declared above
the entry, be it in another file. -/
def WellWritten (env : Env) : Str → List Str → List QItem → Prop
  | _, _, [] => True
  | fmt, accs, .account k :: is => (isWord k ∧ NoComment (s%"account " ++ k)) ∧ WellWritten env fmt (k :: accs) is
  | fmt, accs, .currency v :: is => (isWord v ∧ NoComment (s%"currency " ++ v)) ∧ WellWritten env fmt accs is
  | _, accs, .dateFormat v :: is => (isWord v ∧ NoComment (s%"date_format " ++ v)) ∧ WellWritten env v accs is
  | fmt, accs, .entry e :: is => e.Ok env fmt accs ∧ WellWritten env fmt accs is
  | _, _, .incl _ :: _ => False

/-- The entries among the items. -/
def QItem.entries (is : List QItem) : List QEntry := is.filterMap fun i => match i with | .entry e => some e | _ => none

/-! ### Reading -/

variable {M : Type} [Mag M]

/-- What the scanner hands to the parser. -/
def QItem.chunk (i : QItem) : Str := effective i.head ++ restOf i.rest

/-- A line of a keyword and a word. -/
theorem directive_text {kw v : Str} (hk : isWord kw) (hv : isWord v) (hn : NoComment (kw ++ ' ' :: v)) :
    effective (kw ++ ' ' :: v) ++ restOf [] = kw ++ ' ' :: v ∧ splitWs (kw ++ ' ' :: v) = [kw, v] := by
  have hi : ¬ allWs v := by
    intro ha
    obtain ⟨c, r, hc⟩ := List.exists_cons_of_ne_nil hv.1
    have h1 := ha c (by simp [hc])
    rw [hv.2 c (by simp [hc])] at h1; cases h1
  have e : kw ++ ' ' :: v = (kw ++ s%" ") ++ v := by simp
  constructor
  · have : trimEnd v = v := by
      obtain ⟨b, hb, he, _⟩ := trimEnd_spec v
      cases b with
      | nil => rw [List.append_nil] at he; exact he.symm
      | cons c b =>
        have h1 := hb c (by simp)
        rw [hv.2 c (by rw [he]; simp)] at h1; cases h1
    rw [effective_plain hn, e, trimEnd_ink _ hi, this]
    show _ ++ [] = _
    rw [List.append_nil]
  · exact splitWs_words2 hk hv

theorem directive_start {kw v : Str} (hk : isWord kw) (hv : isWord v) (hn : NoComment (kw ++ ' ' :: v)) :
    ∃ c r, effective (kw ++ ' ' :: v) = c :: r ∧ isWs c = false := by
  have h := (directive_text hk hv hn).1
  obtain ⟨c, r, hc⟩ := List.exists_cons_of_ne_nil hk.1
  refine ⟨c, r ++ ' ' :: v, ?_, hk.2 c (by simp [hc])⟩
  rw [show effective (kw ++ ' ' :: v) ++ restOf [] = effective (kw ++ ' ' :: v) from List.append_nil _] at h
  rw [h, hc]; rfl

theorem account_read_book (env : Env) {k fmt : Str} (hk : isWord k ∧ NoComment (s%"account " ++ k)) {accs : List Str}
    {l : Ledger M} (hl : BookLedger fmt accs l) :
    ∃ l', Reading env (effective (s%"account " ++ k) ++ restOf []) l l' ∧ BookLedger fmt (k :: accs) l' ∧
      l'.entries = l.entries := by
  obtain ⟨htext, hw⟩ := directive_text (kw := s%"account") ⟨by simp, by decide⟩ hk.1 hk.2
  change effective (s%"account " ++ k) ++ _ = s%"account " ++ k at htext
  change splitWs (s%"account " ++ k) = _ at hw
  have hp : (Account.parse env (s%"account " ++ k) l.decimal l.dateFormat : Res (Account M)) = .ok ⟨k, [], [], []⟩ := by
    unfold Account.parse
    have hlines : lines (s%"account " ++ k) = [s%"account " ++ k] :=
      lines_last _ (noNl_append.2 ⟨by decide, word_noNl hk.1⟩) (by simp)
    rw [hlines]
    simp only [Account.parseHeader, removeComments_eq_rc, (noComment_iff _).1 hk.2, hw, bind, Except.bind,
      Account.parseLines, Account.flush]
    rfl
  rw [htext]
  refine ⟨_, Reading.account _ (by rw [hw]; rfl) hp, ⟨hl.decimal, hl.dateFormat, ?_, ?_⟩, rfl⟩
  · intro j hj
    show j ∈ (mapInsert l.accounts k _).map Prod.fst
    rw [mapInsert_keys]
    rcases List.mem_cons.1 hj with rfl | hj
    · split
      · assumption
      · simp
    · have := hl.names j hj
      split
      · exact this
      · exact List.mem_append_left _ this
  · intro j a hm
    rcases mapInsert_mem _ _ _ _ hm with hm | hm
    · cases hm; exact ⟨rfl, rfl⟩
    · exact hl.bare j a hm

/-- The format and the accounts after some items. -/
def QItem.after : List QItem → Str × List Str → Str × List Str
  | [], s => s
  | .account k :: is, s => QItem.after is (s.1, k :: s.2)
  | .dateFormat v :: is, s => QItem.after is (v, s.2)
  | .currency _ :: is, s => QItem.after is s
  | .entry _ :: is, s => QItem.after is s
  | .incl _ :: is, s => QItem.after is s

theorem wellWritten_append (env : Env) (is js : List QItem) (fmt : Str) (accs : List Str) :
    WellWritten env fmt accs (is ++ js) ↔ WellWritten env fmt accs is ∧
      WellWritten env (QItem.after is (fmt, accs)).1 (QItem.after is (fmt, accs)).2 js := by
  induction is generalizing fmt accs with
  | nil => simp [WellWritten, QItem.after]
  | cons i is ih => cases i <;> simp [WellWritten, QItem.after, ih, and_assoc]

theorem QItem.entries_append (is js : List QItem) : QItem.entries (is ++ js) = QItem.entries is ++ QItem.entries js :=
  List.filterMap_append ..

theorem wellWritten_entries (env : Env) (is : List QItem) (fmt : Str) (accs : List Str) (h : WellWritten env fmt accs is) :
    ∀ e ∈ QItem.entries is, ∃ fmt accs, e.Ok env fmt accs := by
  induction is generalizing fmt accs with
  | nil => simp [QItem.entries]
  | cons i is ih =>
    intro e he
    cases i with
    | account k => exact ih _ _ h.2 e he
    | currency k => exact ih _ _ h.2 e he
    | dateFormat k => exact ih _ _ h.2 e he
    | incl f => exact h.elim
    | entry x =>
      rcases List.mem_cons.1 (show e ∈ x :: QItem.entries is from he) with rfl | he
      · exact ⟨_, _, h.1⟩
      · exact ih _ _ h.2 e he

/-- An item begins a line, and the rest is set in. -/
def QItem.Shaped (i : QItem) : Prop := Continuing i.rest ∧ ∃ c r, effective i.head = c :: r ∧ isWs c = false

theorem spread_shaped {env : Env} {w : World} {n : Nat} {is ps : List QItem} (h : Spread w n is ps) {fmt : Str} {accs : List Str}
    (hw : WellWritten env fmt accs ps) : ∀ i ∈ is, i.Shaped := by
  induction h generalizing fmt accs with
  | nil => simp
  | @own n i is ps hno _ ih =>
    intro j hj
    rcases List.mem_cons.1 hj with rfl | hj'
    · cases j with
      | account k => exact ⟨by simp [QItem.rest, Continuing], directive_start (kw := s%"account") ⟨by simp, by decide⟩ hw.1.1 hw.1.2⟩
      | currency k => exact ⟨by simp [QItem.rest, Continuing], directive_start (kw := s%"currency") ⟨by simp, by decide⟩ hw.1.1 hw.1.2⟩
      | dateFormat k =>
        exact ⟨by simp [QItem.rest, Continuing], directive_start (kw := s%"date_format") ⟨by simp, by decide⟩ hw.1.1 hw.1.2⟩
      | incl f => exact absurd rfl (hno f)
      | entry e =>
        obtain ⟨x, _, hb⟩ := hw.1.block (M := Rat)
        refine ⟨?_, hb.start⟩
        intro t ht c hc
        obtain ⟨c', r, h1, h2⟩ := hb.rest t ht
        rw [h1] at hc
        cases hc; exact h2
    · cases i with
      | account k => exact ih hw.2 j hj'
      | currency k => exact ih hw.2 j hj'
      | dateFormat k => exact ih hw.2 j hj'
      | incl f => exact absurd rfl (hno f)
      | entry e => exact ih hw.2 j hj'
  | @incl n f sub sub' is ps hf _ _ _ _ _ ih2 =>
    rw [wellWritten_append] at hw
    intro j hj
    rcases List.mem_cons.1 hj with rfl | hj
    · exact ⟨by simp [QItem.rest, Continuing], directive_start (kw := s%"include") ⟨by simp, by decide⟩ hf.1 hf.2⟩
    · exact ih2 hw.2 j hj

/-- A file is read item by item. -/
theorem file_items (env : Env) (fuel : Nat) (l : Ledger M) (w : World) (file : Str) (items : List QItem)
    (hh : Holds w file items) (hs : ∀ i ∈ items, i.Shaped) :
    Ledger.addFromFile env (fuel + 1) (l, w) file =
      readItems env (Ledger.addFromFile env fuel) (items.map QItem.chunk) (l, w.cdParent file) := by
  obtain ⟨text, hr, ht⟩ := hh
  rw [Ledger.addFromFile]
  simp only [hr]
  rw [addLinesFrom_inked, ht]
  have := addLinesFrom_items env (Ledger.addFromFile (M := M) env fuel) (items.map fun i => (i.head, i.rest)) (by
    intro b hb
    obtain ⟨i, hi, rfl⟩ := List.mem_map.1 hb
    exact hs i hi) [] (by simp [Continuing]) (l, w.cdParent file) []
  rw [List.nil_append, List.flatMap_map] at this
  rw [this, readItems, show ([] : Str) ++ restOf [] = [] from rfl, parseChunk_of_nothing env _ _ [] rfl, List.map_map]
  rfl

theorem spread_read [ReadsNumerals M] {env : Env} (hord : FairOrder env.ord) {w : World} {n : Nat} {is ps : List QItem}
    (h : Spread w n is ps) {fmt : Str} {accs : List Str} (hw : WellWritten env fmt accs ps)
    (fuel : Nat) (hfuel : n ≤ fuel)
    (l : Ledger M) (hl : BookLedger fmt accs l) (xs0 : List (Entry M)) (h0 : DateOrdered xs0 l.entries) :
    ∃ xs l', List.Forall₂ QEntry.ReadAs (QItem.entries ps) xs ∧
      BookLedger (QItem.after ps (fmt, accs)).1 (QItem.after ps (fmt, accs)).2 l' ∧ DateOrdered (xs0 ++ xs) l'.entries ∧
      readItems env (Ledger.addFromFile env fuel) (is.map QItem.chunk) (l, w) = .ok (l', w) := by
  induction h generalizing fmt accs fuel l xs0 with
  | nil => exact ⟨[], l, .nil, hl, by simpa using h0, rfl⟩
  | @own n i is ps hno _ ih =>
    cases i with
    | incl f => exact absurd rfl (hno f)
    | account k =>
      obtain ⟨l1, h1, h2, h3⟩ := account_read_book env hw.1 hl
      obtain ⟨xs, l', g1, g2, g3, g4⟩ := ih hw.2 fuel hfuel l1 h2 xs0 (by rw [h3]; exact h0)
      refine ⟨xs, l', g1, g2, g3, ?_⟩
      rw [List.map_cons, readItems, show QItem.chunk (.account k) = effective (s%"account " ++ k) ++ restOf [] from rfl,
        parseChunk_of_reading env _ _ _ _ _ h1]
      exact g4
    | currency k =>
      obtain ⟨e1, e2⟩ := directive_text (kw := s%"currency") ⟨by simp, by decide⟩ hw.1.1 hw.1.2
      obtain ⟨xs, l', g1, g2, g3, g4⟩ := ih hw.2 fuel hfuel { l with currency := k }
        ⟨hl.decimal, hl.dateFormat, hl.names, hl.bare⟩ xs0 h0
      refine ⟨xs, l', g1, g2, g3, ?_⟩
      rw [List.map_cons, readItems, show QItem.chunk (.currency k) = s%"currency" ++ ' ' :: k from e1,
        parseChunk_of_reading env _ l { l with currency := k } _ _ (Reading.currency k [] e2)]
      exact g4
    | dateFormat k =>
      obtain ⟨e1, e2⟩ := directive_text (kw := s%"date_format") ⟨by simp, by decide⟩ hw.1.1 hw.1.2
      obtain ⟨xs, l', g1, g2, g3, g4⟩ := ih hw.2 fuel hfuel { l with dateFormat := k }
        ⟨hl.decimal, rfl, hl.names, hl.bare⟩ xs0 h0
      refine ⟨xs, l', g1, g2, g3, ?_⟩
      rw [List.map_cons, readItems, show QItem.chunk (.dateFormat k) = s%"date_format" ++ ' ' :: k from e1,
        parseChunk_of_reading env _ l { l with dateFormat := k } _ _ (Reading.dateFormat k [] e2)]
      exact g4
    | entry e =>
      obtain ⟨x, hx, hb⟩ := hw.1.block (M := M)
      obtain ⟨l1, h1, h2, h3⟩ := hb.reading hord hl
      obtain ⟨xs, l', g1, g2, g3, g4⟩ := ih hw.2 fuel hfuel l1 h2
        (xs0 ++ [x]) (by rw [h3]; exact h0.snoc x)
      refine ⟨x :: xs, l', .cons hx g1, g2, by simpa using g3, ?_⟩
      rw [List.map_cons, readItems]
      rw [show QItem.chunk (.entry e) = (⟨e.header, e.lines.map QLine.text, x⟩ : EBlock M).chunk from rfl,
        parseChunk_of_reading env _ _ _ _ _ h1]
      exact g4
  | @incl n f sub sub' is ps hf hb hh hsub _ ih1 ih2 =>
    rw [wellWritten_append] at hw
    obtain ⟨e1, e2⟩ := directive_text (kw := s%"include") ⟨by simp, by decide⟩ hf.1 hf.2
    obtain ⟨fuel, rfl⟩ : ∃ m, fuel = m + 1 := ⟨fuel - 1, by omega⟩
    obtain ⟨xs, l1, g1, g2, g3, g4⟩ := ih1 hw.1 fuel (by omega) l hl xs0 h0
    obtain ⟨ys, l', k1, k2, k3, k4⟩ := ih2 hw.2 (fuel + 1) hfuel l1 g2
      (xs0 ++ xs) g3
    refine ⟨xs ++ ys, l', ?_, ?_, by simpa using k3, ?_⟩
    · rw [QItem.entries_append]
      exact List.rel_append g1 k1
    · have : ∀ (a b : List QItem) s, QItem.after (a ++ b) s = QItem.after b (QItem.after a s) := by
        intro a
        induction a with
        | nil => intro b s; rfl
        | cons i a ih => intro b s; cases i <;> exact ih _ _
      rw [this]; exact k2
    · rw [List.map_cons, readItems, show QItem.chunk (.incl f) = s%"include" ++ ' ' :: f from e1,
        parseChunk_of_include env _ _ _ f [] e2,
        file_items env fuel l w f sub hh (spread_shaped hsub hw.1),
        hb.cdParent, g4]
      exact k4

theorem spread_load [ReadsNumerals M] {env : Env} (hord : FairOrder env.ord) {w : World} {path : Str}
    {items all : List QItem} {n fuel : Nat} (hroot : Holds w path items) (h : Spread (w.cdParent path) n items all)
    (hw : WellWritten env s%"%Y/%m/%d" [] all) (hfuel : n < fuel) :
    ∃ (xs : List (Entry M)) (l : Ledger M), List.Forall₂ QEntry.ReadAs (QItem.entries all) xs ∧
      (∀ k a, (k, a) ∈ l.accounts → a.expenses = [] ∧ a.goals = []) ∧ DateOrdered xs l.entries ∧
      Ledger.fromFile env fuel w path = .ok (l, w.cdParent path) ∧ l.dateFormat = (QItem.after all (s%"%Y/%m/%d", [])).1 := by
  obtain ⟨fuel, rfl⟩ : ∃ m, fuel = m + 1 := ⟨fuel - 1, by omega⟩
  obtain ⟨xs, l, g1, g2, g3, g4⟩ := spread_read (M := M) hord h hw fuel (by omega) (Ledger.new path)
    ⟨rfl, rfl, by simp, by simp [Ledger.new]⟩ [] ⟨List.Pairwise.nil, .refl _, fun _ => rfl⟩
  refine ⟨xs, l, g1, g2.bare, by simpa using g3, ?_, g2.dateFormat⟩
  unfold Ledger.fromFile
  rw [file_items env fuel _ w path items hroot (spread_shaped h hw)]
  exact g4

/-! ### C128 -/

/-- C128. What the report on every such journal is, also where entries are paid for in kind (`C126_exact_rule`). -/
theorem C128_exact_rule (env : Env) (hord : FairOrder env.ord) (o : Outside) (w : World) (path : Str)
    (items all : List QItem) (n : Nat) (hroot : Holds w path items) (h : Spread (w.cdParent path) n items all)
    (hw : WellWritten env s%"%Y/%m/%d" [] all) (hfuel : n < o.fuel)
    (c : Str) (args : List Str) (fs : List Flag) (hc : c.head? = some 'b') (ha : Spelled fs args)
    (hj : journalFor o fs = some path) :
    ∃ w' out, mainProgram Rat env o (c :: args) w = (w', .ok out) ∧ w'.file = w.file ∧
      BalanceReport QEntry.booked (QItem.entries all) (readReport out) := by
  obtain ⟨xs, l, g1, g2, g3, g4, _⟩ := spread_load (M := Rat) hord hroot h hw hfuel
  have hes := wellWritten_entries env all _ _ hw
  obtain ⟨w', out, r1, r2, r3, r4, r5⟩ := qentries_report env hord o w _ xs g1 hes l path g4 g2 g3 c args fs hc ha hj
    (Or.inl fmtOk_rat)
  exact ⟨w', out, r1, r2, exact_report hes r3 r4 r5⟩

/-- **C128, in part.** `silverfox balance` on a journal kept in several files of one directory, which include each other in
any places and to any depth, declare accounts, set date formats and name currencies anywhere: the report is that on all the
entries of all the files. Accounts count from where they are declared on, in whatever file that is, and so does a date
format: an included file takes over the format of the one that includes it, and sets it for what comes after. Missing:
what C126 is missing, and files in other directories. -/
theorem C128_several_files_partial (env : Env) (hord : FairOrder env.ord) (o : Outside) (w : World) (path : Str)
    (items all : List QItem) (n : Nat) (hroot : Holds w path items) (h : Spread (w.cdParent path) n items all)
    (hw : WellWritten env s%"%Y/%m/%d" [] all) (hkind : ∀ e ∈ QItem.entries all, ¬ e.PaidForInKind) (hfuel : n < o.fuel)
    (c : Str) (args : List Str) (fs : List Flag) (hc : c.head? = some 'b') (ha : Spelled fs args)
    (hj : journalFor o fs = some path) :
    ∃ w' out, mainProgram Rat env o (c :: args) w = (w', .ok out) ∧ w'.file = w.file ∧
      BalanceReport QEntry.rest (QItem.entries all) (readReport out) := by
  obtain ⟨w', out, h1, h2, h3⟩ := C128_exact_rule env hord o w path items all n hroot h hw hfuel c args fs hc ha hj
  refine ⟨w', out, h1, h2, h3.congr fun e he hb => ?_⟩
  obtain ⟨_, _, hok⟩ := wellWritten_entries env all _ _ hw e he
  exact QEntry.booked_eq_rest hb (hok.known hb).1 (hkind e he)

/-! ### A journal in three files -/

def exDotted : QEntry := { exBuying with date := s%"02.01.2024" }

theorem exDotted_ok : exDotted.Ok (stdEnv june15) s%"%d.%m.%Y" [s%"shares", s%"fee", s%"bank"] :=
  ⟨by decide +kernel, exBuying_ok.mark, exBuying_ok.title, by decide +kernel, exBuying_ok.lines, exBuying_ok.blanks,
    exBuying_ok.known⟩

/-- The accounts are declared in a file that is included by the one with the first entry; the main file sets a date format
for the rest, below. -/
def exThree : World :=
  disk [("j", "include b\n\ndate_format %d.%m.%Y\n02.01.2024 ~ buy [Broker & Co]\n shares 5 XYZ @ 3.5\n fee 1\n bank ! 0\n"),
    ("b", "include a\n2024/01/01 * open\n bank 100 ! 100\n fee -100\n"),
    ("a", "account bank\naccount fee\ncurrency USD\naccount shares\n")]

def exThreeItems : List QItem := [.incl s%"b", .dateFormat s%"%d.%m.%Y", .entry exDotted]

def exThreeAll : List QItem := [.account s%"bank", .account s%"fee", .currency s%"USD", .account s%"shares",
  .entry exOpening, .dateFormat s%"%d.%m.%Y", .entry exDotted]

example : Holds exThree s%"j" exThreeItems ∧ Spread (exThree.cdParent s%"j") 2 exThreeItems exThreeAll ∧
    WellWritten (stdEnv june15) s%"%Y/%m/%d" [] exThreeAll ∧ (∀ e ∈ QItem.entries exThreeAll, ¬ e.PaidForInKind) ∧
    ∃ out, (mainProgram Rat (stdEnv june15) exOutside [s%"balance", s%"-f", s%"j"] exThree).2 = .ok out ∧
      readReport out = [(s%"bank", [s%" 81.5"]), (s%"fee", [s%"-99"]), (s%"shares", [s%" 5 XYZ"])] := by
  refine ⟨⟨_, rfl, by decide +kernel⟩, ?_, ?_, ?_, by decide +kernel⟩
  · have ha : Spread (exThree.cdParent s%"j") 0 [.account s%"bank", .account s%"fee", .currency s%"USD", .account s%"shares"]
        [.account s%"bank", .account s%"fee", .currency s%"USD", .account s%"shares"] :=
      .own (by simp) (.own (by simp) (.own (by simp) (.own (by simp) .nil)))
    have hb : Spread (exThree.cdParent s%"j") 1 [.incl s%"a", .entry exOpening]
        ([.account s%"bank", .account s%"fee", .currency s%"USD", .account s%"shares"] ++ [.entry exOpening]) :=
      .incl (by decide +kernel) (by decide) ⟨_, rfl, by decide +kernel⟩ ha (.own (by simp) .nil)
    exact .incl (by decide +kernel) (by decide) ⟨_, rfl, by decide +kernel⟩ hb (.own (by simp) (.own (by simp) .nil))
  · exact ⟨by decide +kernel, by decide +kernel, by decide +kernel, by decide +kernel, exOpening_ok, by decide +kernel,
      exDotted_ok, trivial⟩
  · intro e he hp
    change e ∈ [exOpening, exDotted] at he
    simp only [List.mem_cons, List.not_mem_nil, or_false] at he
    obtain ⟨_, ⟨s, hs⟩, _⟩ := hp
    rcases he with rfl | rfl
    · exact absurd (hs (100, none) (by decide)) (by simp)
    · exact absurd (hs (1, none) (by decide)) (by simp)

end Silverfox
