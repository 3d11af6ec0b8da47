import Verif.Props.Spending

/-
C150: what comes in is available, and what is set aside is in the envelope that is named.
-/

namespace Silverfox

set_option linter.unusedSectionVars false

/-! ### Specification -/

/-- Specification: what the lines of an entry that name an envelope put into it. -/
def BEntry.puts (b : BEntry) (k name : Str) : Rat :=
  (b.moves.map fun m => if m.account = k ∧ m.envelope = name then m.value.1 else 0).sum

/-- Specification: what the ordinary lines of an entry bring to an account in a currency. -/
def BEntry.brings (b : BEntry) (k : Str) (s : Option Str) : Rat :=
  ((b.plain.moves k).map fun v => if v.2 = s then v.1 else 0).sum

/-- Specification: how many envelopes of an account have that name. -/
def ofName (p : DeclAccount) (name : Str) : Nat := (p.2.filter fun x => x.1.name = name).length

/-- Specification: what the lines of an entry that name envelopes of the account take from what is available, in a currency:
as often as there are envelopes of that name. -/
def BEntry.takes (b : BEntry) (p : DeclAccount) (s : Option Str) : Rat :=
  (b.moves.map fun m => if m.account = p.1 ∧ m.value.2 = s then (ofName p m.envelope : Rat) * m.value.1 else 0).sum

/-- Specification: all that is set aside in an account, in a currency. -/
def BEntry.setsAside (b : BEntry) (k : Str) (s : Option Str) : Rat :=
  (b.moves.map fun m => if m.account = k ∧ m.value.2 = s then m.value.1 else 0).sum

/-! ### Sums -/

theorem sum_filter_map {α : Type} (l : List α) (f : α → Prop) [DecidablePred f] (g : α → Rat) :
    ((l.filter fun x => decide (f x)).map g).sum = (l.map fun x => if f x then g x else 0).sum := by
  induction l with
  | nil => rfl
  | cons x l ih =>
    by_cases e : f x
    · simp [e, ih]
    · simp [e, ih]

theorem puts_eq (b : BEntry) (h : b.moves ≠ []) (k : Str) (x : MeantDecl Rat) : (b.movesIn k x).sum = b.puts k x.1.name := by
  unfold BEntry.movesIn BEntry.puts
  rw [if_pos h, sum_filter_map]

theorem sum_swap {α β : Type} (xs : List α) (ms : List β) (f : α → β → Rat) :
    (xs.map fun x => (ms.map fun m => f x m).sum).sum = (ms.map fun m => (xs.map fun x => f x m).sum).sum := by
  induction xs with
  | nil => simp
  | cons x xs ih => simp only [List.map_cons, List.sum_cons, ih, sum_map_plus]

theorem sum_count {α : Type} (xs : List α) (f : α → Prop) [DecidablePred f] (q : Rat) :
    (xs.map fun x => if f x then q else 0).sum = (xs.filter fun x => decide (f x)).length * q := by
  induction xs with
  | nil => simp
  | cons x xs ih =>
    by_cases e : f x
    · simp only [List.map_cons, List.sum_cons, ih, e, if_true, decide_true, List.filter_cons_of_pos, List.length_cons]
      push_cast
      ring
    · simp [e, ih]

theorem takes_eq (b : BEntry) (h : b.moves ≠ []) (p : DeclAccount) (s : Option Str)
    (hn : ∀ x ∈ p.2, ∀ m ∈ b.moves, m.account = p.1 → m.envelope = x.1.name → m.value.2 = x.target.sym) :
    ((p.2.filter fun x => x.target.sym = s).map fun x => (b.movesIn p.1 x).sum).sum = b.takes p s := by
  simp only [puts_eq b h]
  rw [sum_filter_map]
  have e : (p.2.map fun x => if x.target.sym = s then b.puts p.1 x.1.name else 0) =
      p.2.map fun x => (b.moves.map fun m => if m.account = p.1 ∧ m.value.2 = s ∧ x.1.name = m.envelope then m.value.1 else 0).sum := by
    refine List.map_congr_left fun x hx => ?_
    have : (b.moves.map fun m => if m.account = p.1 ∧ m.value.2 = s ∧ x.1.name = m.envelope then m.value.1 else 0) =
        b.moves.map fun m => if x.target.sym = s then (if m.account = p.1 ∧ m.envelope = x.1.name then m.value.1 else 0) else 0 := by
      refine List.map_congr_left fun m hm => ?_
      by_cases h1 : m.account = p.1 ∧ m.envelope = x.1.name
      · have := hn x hx m hm h1.1 h1.2
        simp [h1.1, h1.2, this]
      · rw [if_neg fun hc => h1 ⟨hc.1, hc.2.2.symm⟩, if_neg h1, ite_self]
    rw [this]
    unfold BEntry.puts
    by_cases hs : x.target.sym = s
    · simp only [if_pos hs]
    · simp only [if_neg hs, List.map_const', List.sum_replicate, nsmul_zero]
  rw [e, sum_swap]
  unfold BEntry.takes
  congr 1
  refine List.map_congr_left fun m _ => ?_
  by_cases h1 : m.account = p.1 ∧ m.value.2 = s
  · simp only [h1.1, h1.2, true_and, and_self, if_true]
    exact sum_count p.2 (fun x => x.1.name = m.envelope) m.value.1
  · rw [if_neg h1]
    have : ∀ x : MeantDecl Rat, ¬ (m.account = p.1 ∧ m.value.2 = s ∧ x.1.name = m.envelope) := fun x hc => h1 ⟨hc.1, hc.2.1⟩
    simp only [this, if_false, List.map_const', List.sum_replicate, nsmul_zero]

/-! ### Setting aside -/

/-- C150. What one more entry that names envelopes does to the envelope report, exactly, with doubles, as the program has them
(journals as in C142, with and without the entry, anywhere in the journal). The paragraphs and the envelopes are the same.
Every envelope has exactly what is written for it in the entry more. There is available what the ordinary lines of the entry
bring to the account, less what is set aside, taken once for every envelope of the name; and the currencies are kept apart. -/
theorem C150_exact_rule (env : Env) (hord : FairOrder env.ord) (o : Outside) (w w' : World)
    (accs : List DeclAccount) (es fs : List BEntry) (b : BEntry) (text text' path : Str)
    (h : EnvelopeJournal env accs (es ++ fs) text) (h' : EnvelopeJournal env accs (es ++ b :: fs) text')
    (hf : EnvelopesFit env.today accs (es ++ b :: fs)) (hr : w.read path = some text) (hr' : w'.read path = some text')
    (hfuel : o.fuel ≠ 0) (c : Str) (args : List Str) (gs : List Flag) (hc : c.head? = some 'e') (ha : Spelled gs args)
    (hj : journalFor o gs = some path) (hn : Flag.noMove ∈ gs) (hs : SmallBooks accs (es ++ fs))
    (hs' : SmallBooks accs (es ++ b :: fs)) (hd : Decided accs (es ++ fs)) (hd' : Decided accs (es ++ b :: fs))
    (hslash : ∀ p ∈ accs, ∀ x ∈ p.2, ∀ y, x.target.sym = some y → '/' ∉ y) (hb : b.moves ≠ []) :
    ∃ w1 out w2 out', mainProgram F64 env o (c :: args) w = (w1, .ok out) ∧ mainProgram F64 env o (c :: args) w' = (w2, .ok out') ∧
      (readEnvelopes out').map (·.account) = (readEnvelopes out).map (·.account) ∧
      ∀ p ∈ accs, p.2 ≠ [] → ∃ r ∈ readEnvelopes out, ∃ r' ∈ readEnvelopes out',
        Differs p (fun x => b.puts p.1 x.1.name) (fun s => b.brings p.1 s - b.takes p s) r r' := by
  obtain ⟨w1, out, w2, out', m1, m2, hacc, hall⟩ := one_more env hord o w w' accs es fs b text text' path h h' hf hr hr' hfuel c args
    gs hc ha hj hn hs hs' hd hd' hslash
  refine ⟨w1, out, w2, out', m1, m2, hacc, fun p hp hne => ?_⟩
  obtain ⟨r, hr1, r', hr2, k1⟩ := hall p hp hne
  refine ⟨r, hr1, r', hr2, ?_⟩
  have e : (fun s => ((b.plain.moves p.1).map fun v => if v.2 = s then v.1 else 0).sum -
      ((p.2.filter fun x => x.target.sym = s).map fun x => (b.movesIn p.1 x).sum).sum) = fun s => b.brings p.1 s - b.takes p s := by
    funext s
    rw [takes_eq b hb p s fun x hx m hm => hf.named p hp x hx b (by simp) m hm]
    rfl
  rw [e] at k1
  simpa only [puts_eq b hb] using k1

/-- C150. With doubles: what is set aside is in the envelope that is named, and is not available any more (journals as in
C142): with one more entry that names envelopes, anywhere in the journal, every envelope has exactly what the entry puts
into it more, and in every currency what is available is what the entry brings to the account less what it sets aside there.
Partial: each line must name an envelope of its account, and the account must have only one of that name. Money set aside
in an envelope that is not there stays available (`C150_no_such_envelope`); where an expense and a goal have the same name,
it goes into both, and is taken twice (`C150_two_of_the_name`). -/
theorem C150_set_aside_partial (env : Env) (hord : FairOrder env.ord) (o : Outside) (w w' : World)
    (accs : List DeclAccount) (es fs : List BEntry) (b : BEntry) (text text' path : Str)
    (h : EnvelopeJournal env accs (es ++ fs) text) (h' : EnvelopeJournal env accs (es ++ b :: fs) text')
    (hf : EnvelopesFit env.today accs (es ++ b :: fs)) (hr : w.read path = some text) (hr' : w'.read path = some text')
    (hfuel : o.fuel ≠ 0) (c : Str) (args : List Str) (gs : List Flag) (hc : c.head? = some 'e') (ha : Spelled gs args)
    (hj : journalFor o gs = some path) (hn : Flag.noMove ∈ gs) (hs : SmallBooks accs (es ++ fs))
    (hs' : SmallBooks accs (es ++ b :: fs)) (hd : Decided accs (es ++ fs)) (hd' : Decided accs (es ++ b :: fs))
    (hslash : ∀ p ∈ accs, ∀ x ∈ p.2, ∀ y, x.target.sym = some y → '/' ∉ y) (hb : b.moves ≠ [])
    (hone : ∀ p ∈ accs, ∀ m ∈ b.moves, m.account = p.1 → ofName p m.envelope = 1) :
    ∃ w1 out w2 out', mainProgram F64 env o (c :: args) w = (w1, .ok out) ∧ mainProgram F64 env o (c :: args) w' = (w2, .ok out') ∧
      (readEnvelopes out').map (·.account) = (readEnvelopes out).map (·.account) ∧
      ∀ p ∈ accs, p.2 ≠ [] → ∃ r ∈ readEnvelopes out, ∃ r' ∈ readEnvelopes out',
        Differs p (fun x => b.puts p.1 x.1.name) (fun s => b.brings p.1 s - b.setsAside p.1 s) r r' := by
  obtain ⟨w1, out, w2, out', m1, m2, hacc, hall⟩ := C150_exact_rule env hord o w w' accs es fs b text text' path h h' hf hr hr' hfuel c
    args gs hc ha hj hn hs hs' hd hd' hslash hb
  refine ⟨w1, out, w2, out', m1, m2, hacc, fun p hp hne => ?_⟩
  obtain ⟨r, hr1, r', hr2, k1⟩ := hall p hp hne
  refine ⟨r, hr1, r', hr2, ?_⟩
  have e : ∀ s, b.takes p s = b.setsAside p.1 s := by
    intro s
    unfold BEntry.takes BEntry.setsAside
    congr 1
    refine List.map_congr_left fun m hm => ?_
    by_cases h1 : m.account = p.1 ∧ m.value.2 = s
    · rw [if_pos h1, if_pos h1, hone p hp m hm h1.1]; simp
    · rw [if_neg h1, if_neg h1]
  simpa only [e] using k1

/-- C150. With doubles: what comes in is available, and nothing else differs (journals as in C142): with one more entry of two
lines, anywhere in the journal, by which an account gets an amount from an account that none of its envelopes is for, exactly
that much more is available in the currency of the amount, and as much as before in the others; every envelope has what it
had, and everything that is said of accounts other than the two is as before. -/
theorem C150_what_comes_in (env : Env) (hord : FairOrder env.ord) (o : Outside) (w w' : World)
    (accs : List DeclAccount) (es fs : List BEntry) (b : BEntry) (text text' path : Str)
    (h : EnvelopeJournal env accs (es ++ fs) text) (h' : EnvelopeJournal env accs (es ++ b :: fs) text')
    (hf : EnvelopesFit env.today accs (es ++ b :: fs)) (hr : w.read path = some text) (hr' : w'.read path = some text')
    (hfuel : o.fuel ≠ 0) (c : Str) (args : List Str) (gs : List Flag) (hc : c.head? = some 'e') (ha : Spelled gs args)
    (hj : journalFor o gs = some path) (hn : Flag.noMove ∈ gs) (hs : SmallBooks accs (es ++ fs))
    (hs' : SmallBooks accs (es ++ b :: fs)) (hd : Decided accs (es ++ fs)) (hd' : Decided accs (es ++ b :: fs))
    (hslash : ∀ p ∈ accs, ∀ x ∈ p.2, ∀ y, x.target.sym = some y → '/' ∉ y)
    (k payer : Str) (q : Rat) (cur : Option Str) (hb : b.Pays payer k q cur)
    (hnone : ∀ p ∈ accs, p.1 = k → ∀ x ∈ p.2, payer ∉ x.fors) :
    ∃ w1 out w2 out', mainProgram F64 env o (c :: args) w = (w1, .ok out) ∧ mainProgram F64 env o (c :: args) w' = (w2, .ok out') ∧
      (readEnvelopes out').map (·.account) = (readEnvelopes out).map (·.account) ∧
      ∀ p ∈ accs, p.2 ≠ [] → p.1 ≠ payer → ∃ r ∈ readEnvelopes out, ∃ r' ∈ readEnvelopes out',
        Differs p (fun _ => 0) (fun s => if p.1 = k ∧ s = cur then q else 0) r r' := by
  obtain ⟨w1, out, w2, out', m1, m2, hacc, hall⟩ := C146_exact_rule env hord o w w' accs es fs b text text' path h h' hf hr hr' hfuel c
    args gs hc ha hj hn hs hs' hd hd' hslash payer k q cur hb
  refine ⟨w1, out, w2, out', m1, m2, hacc, fun p hp hne hpay => ?_⟩
  obtain ⟨r, hr1, r', hr2, _, k1, k2⟩ := hall p hp hne
  refine ⟨r, hr1, r', hr2, ?_⟩
  by_cases e : p.1 = k
  · have e1 : (p.2.filter fun x => payer ∈ x.fors) = [] := List.filter_eq_nil_iff.2 fun x hx => by simpa using hnone p hp e x hx
    have e2 := k1 e
    refine ⟨e2.account, e2.names, ?_, fun s => ?_⟩
    · have e3 := e2.envelopes
      generalize hl : ofKind .expense p.2 ++ ofKind .goal p.2 = l at e3 ⊢
      have hin : ∀ x ∈ l, x ∈ p.2 := by
        intro x hx
        rw [← hl] at hx
        simp only [ofKind, List.mem_append, List.mem_filter] at hx
        tauto
      clear hl
      generalize r.envelopes.zip r'.envelopes = z at e3 ⊢
      induction e3 with
      | nil => exact .nil
      | @cons x y l z h1 _ ih =>
        refine .cons ?_ (ih fun x hx => hin x (List.mem_cons_of_mem _ hx))
        rw [h1, if_neg (hnone p hp e x (hin x (by simp)))]
    · rw [e2.available s, e1]
      simp only [e, true_and, List.length_nil, Nat.cast_zero, zero_add, one_mul]
  · simpa only [e, false_and, if_false] using k2 hpay e

/-! ### Journals -/

/-- A salary, and an account with one envelope. -/
def exPaidText : Str := s%"account bank\n  expense food due every 10th\n    amount $40\n    for shop\naccount shop\naccount pay\n\n2024/06/01 * salary\n bank $100\n pay -100 $\n"

def exMisspelled : Str := exPaidText ++ s%"2024/06/12 * set aside\n envelope bank foods $30\n"

/-- C150. Money that is set aside in an envelope that is not there is in no envelope, and still available; there is no error. -/
theorem C150_no_such_envelope :
    (∃ out, (mainProgram F64 (stdEnv june15) exOutside [s%"envelopes", s%"-f", s%"j", s%"-n"]
        (disk [("j", String.ofList exPaidText)])).2 = .ok out ∧
      (readEnvelopes out).map (fun r => (sumIn (some s%"$") r.available, r.envelopes.map fun e => (e.1, saidIn (some s%"$") e))) =
        [(100, [(s%"food", 0)])]) ∧
    ∃ out, (mainProgram F64 (stdEnv june15) exOutside [s%"envelopes", s%"-f", s%"j", s%"-n"]
        (disk [("j", String.ofList exMisspelled)])).2 = .ok out ∧
      (readEnvelopes out).map (fun r => (sumIn (some s%"$") r.available, r.envelopes.map fun e => (e.1, saidIn (some s%"$") e))) =
        [(100, [(s%"food", 0)])] := by
  constructor <;> decide +kernel

/-- An expense and a goal of the same name. -/
def exSameName : Str := s%"account bank\n  expense trip due every 10th\n    amount $40\n  goal trip by 2024/09/01\n    amount $400\naccount pay\n\n2024/06/01 * salary\n bank $100\n pay -100 $\n"

def exSameNameAside : Str := exSameName ++ s%"2024/06/12 * set aside\n envelope bank trip $30\n"

/-- C150. Where an expense and a goal have the same name, money that is set aside once is in both of them, and is taken twice. -/
theorem C150_two_of_the_name :
    (∃ out, (mainProgram F64 (stdEnv june15) exOutside [s%"envelopes", s%"-f", s%"j", s%"-n"]
        (disk [("j", String.ofList exSameName)])).2 = .ok out ∧
      (readEnvelopes out).map (fun r => (sumIn (some s%"$") r.available, r.envelopes.map fun e => (e.1, saidIn (some s%"$") e))) =
        [(100, [(s%"trip", 0), (s%"trip", 0)])]) ∧
    ∃ out, (mainProgram F64 (stdEnv june15) exOutside [s%"envelopes", s%"-f", s%"j", s%"-n"]
        (disk [("j", String.ofList exSameNameAside)])).2 = .ok out ∧
      (readEnvelopes out).map (fun r => (sumIn (some s%"$") r.available, r.envelopes.map fun e => (e.1, saidIn (some s%"$") e))) =
        [(40, [(s%"trip", 30), (s%"trip", 30)])] := by
  constructor <;> decide +kernel

/-- The journal of C113 before the last entry is written in it. -/
def exUnsavedText : Str := s%"account bank\n  expense food due every 10th\n    amount $40\n    for shop\naccount shop\naccount pay\n\n2024/06/01 * salary\n bank $100\n pay -100 $\n envelope bank food $30.50\n2024/06/12 * shopping\n shop 12.25$\n bank"

theorem exUnsavedText_ok : EnvelopeJournal (stdEnv june15) exGroceriesAccounts ([exSalaryIn, exShopping] ++ []) exUnsavedText := by
  refine ⟨.of (by decide +kernel), exGroceriesText_ok.once, exGroceriesText_ok.names, exGroceriesText_ok.envelopes,
    exGroceriesText_ok.distinct, ?_⟩
  intro e he
  refine exGroceriesText_ok.entries e ?_
  simp only [List.mem_append, List.mem_cons, List.not_mem_nil, or_false] at he ⊢
  tauto

/-- The last entry brings $5 and sets $8 aside: the envelope has $8 more, and $3 less are available. -/
example : ∃ w1 out w2 out', mainProgram F64 (stdEnv june15) exOutside [s%"envelopes", s%"-f", s%"j", s%"-n"]
      (disk [("j", String.ofList exUnsavedText)]) = (w1, .ok out) ∧
    mainProgram F64 (stdEnv june15) exOutside [s%"envelopes", s%"-f", s%"j", s%"-n"]
      (disk [("j", String.ofList exGroceriesText)]) = (w2, .ok out') ∧
    ∃ r ∈ readEnvelopes out, ∃ r' ∈ readEnvelopes out', Differs (s%"bank", [exGroceries]) (fun _ => 8)
      (fun s => if s = some s%"$" then -3 else 0) r r' := by
  obtain ⟨w1, out, w2, out', h1, h2, _, h3⟩ := C150_set_aside_partial (stdEnv june15) (fun _ l => List.Perm.refl l) exOutside
    (disk [("j", String.ofList exUnsavedText)]) (disk [("j", String.ofList exGroceriesText)]) exGroceriesAccounts [exSalaryIn, exShopping] []
    exSaving exUnsavedText exGroceriesText s%"j" exUnsavedText_ok exGroceriesText_ok exGroceries_fits (by decide +kernel)
    (by decide +kernel) (by decide) s%"envelopes" [s%"-f", s%"j", s%"-n"] [.file s%"j", .noMove] rfl
    (.cons (.fileShort _) (.cons .noMoveShort .nil)) rfl (by simp)
    (small_books_of_all (by decide +kernel) (by decide +kernel) (by decide +kernel) (by decide +kernel))
    (small_books_of_all (by decide +kernel) (by decide +kernel) (by decide +kernel) (by decide +kernel))
    (by unfold Decided; decide +kernel) (by unfold Decided; decide +kernel)
    (by
      intro p hp x hx y hy
      simp only [exGroceriesAccounts, List.mem_cons, List.not_mem_nil, or_false] at hp
      rcases hp with rfl | rfl | rfl
      · simp only [List.mem_cons, List.not_mem_nil, or_false] at hx
        subst hx
        cases hy
        decide
      · cases hx
      · cases hx) (by decide) (by
      intro p hp m hm
      simp only [exSaving, BEntry.moves, List.filterMap_cons, List.filterMap_nil, List.mem_cons, List.not_mem_nil, or_false] at hm
      subst hm
      simp only [exGroceriesAccounts, List.mem_cons, List.not_mem_nil, or_false] at hp
      rcases hp with rfl | rfl | rfl
      · intro _; decide +kernel
      · intro h; cases h
      · intro h; cases h)
  obtain ⟨r, hr, r', hr', h4⟩ := h3 (s%"bank", [exGroceries]) (by simp [exGroceriesAccounts]) (by simp)
  refine ⟨w1, out, w2, out', h1, h2, r, hr, r', hr', h4.account, h4.names, ?_, fun s => ?_⟩
  · have e : ofKind .expense [exGroceries] ++ ofKind .goal [exGroceries] = [exGroceries] := rfl
    have h5 := h4.envelopes
    simp only [e] at h5 ⊢
    generalize r.envelopes.zip r'.envelopes = l at h5
    cases h5 with
    | cons h6 h7 =>
      refine .cons ?_ (by cases h7; exact .nil)
      have e8 : exSaving.puts s%"bank" exGroceries.1.name = 8 := by decide +kernel
      rw [h6]
      show _ + exSaving.puts s%"bank" exGroceries.1.name = _
      rw [e8]
  · have e0 : exSaving.brings s%"bank" s - exSaving.setsAside s%"bank" s = if s = some s%"$" then -3 else 0 := by
      by_cases e : s = some s%"$"
      · subst e; decide +kernel
      · have e1 : exSaving.brings s%"bank" s = 0 := by
          have : exSaving.plain.moves s%"bank" = [(5, some s%"$")] := by decide +kernel
          unfold BEntry.brings
          rw [this]; simp [Ne.symm e]
        have e2 : exSaving.setsAside s%"bank" s = 0 := by
          unfold BEntry.setsAside
          simp [exSaving, BEntry.moves, Ne.symm e]
        rw [e1, e2, if_neg e, sub_zero]
    rw [← e0]
    exact h4.available s

/-- Money that comes in, without setting aside. -/
def exMorePay : BEntry where
  date := s%"2024/06/13"
  mark := s%"*"
  title := s%"save"
  day := ⟨2024, 6, 13, by decide⟩
  lines := [.posting ⟨s%" ", s%"bank", s%" ", s%"$5", some (5, some s%"$")⟩,
    .posting ⟨s%" ", s%"pay", s%" ", s%"$-5", some (-5, some s%"$")⟩]

theorem exMorePay_pays : exMorePay.Pays s%"pay" s%"bank" 5 (some s%"$") :=
  ⟨by norm_num, by decide, rfl, ⟨s%" ", s%"pay", s%" ", s%"$-5", some (-5, some s%"$")⟩,
    ⟨s%" ", s%"bank", s%" ", s%"$5", some (5, some s%"$")⟩, Or.inr rfl, rfl, rfl, rfl, rfl⟩

def exMorePayText : Str := exUnsavedText ++ s%"\n2024/06/13 * save\n bank $5\n pay $-5"

theorem exMorePayText_ok : EnvelopeJournal (stdEnv june15) exGroceriesAccounts ([exSalaryIn, exShopping] ++ [exMorePay]) exMorePayText := by
  refine ⟨.of (by decide +kernel), exGroceriesText_ok.once, exGroceriesText_ok.names, exGroceriesText_ok.envelopes,
    exGroceriesText_ok.distinct, ?_⟩
  intro e he
  simp only [List.mem_append, List.mem_cons, List.not_mem_nil, or_false] at he
  rcases he with (rfl | rfl) | rfl
  · exact exGroceriesText_ok.entries _ (by simp)
  · exact exGroceriesText_ok.entries _ (by simp)
  · exact ⟨(exGroceriesText_ok.entries exSaving (by simp)).plain, (fun m hm => nomatch hm), fun h => absurd rfl h⟩

/-- The last entry brings $5: $5 more are available, and the envelope has what it had. -/
example : ∃ w1 out w2 out', mainProgram F64 (stdEnv june15) exOutside [s%"envelopes", s%"-f", s%"j", s%"-n"]
      (disk [("j", String.ofList exUnsavedText)]) = (w1, .ok out) ∧
    mainProgram F64 (stdEnv june15) exOutside [s%"envelopes", s%"-f", s%"j", s%"-n"]
      (disk [("j", String.ofList exMorePayText)]) = (w2, .ok out') ∧
    ∃ r ∈ readEnvelopes out, ∃ r' ∈ readEnvelopes out', Differs (s%"bank", [exGroceries]) (fun _ => 0)
      (fun s => if s%"bank" = s%"bank" ∧ s = some s%"$" then 5 else 0) r r' := by
  obtain ⟨w1, out, w2, out', h1, h2, _, h3⟩ := C150_what_comes_in (stdEnv june15) (fun _ l => List.Perm.refl l) exOutside
    (disk [("j", String.ofList exUnsavedText)]) (disk [("j", String.ofList exMorePayText)]) exGroceriesAccounts [exSalaryIn, exShopping] []
    exMorePay exUnsavedText exMorePayText s%"j" exUnsavedText_ok exMorePayText_ok
    ⟨june15_inner, exGroceries_fits.schedule, by decide +kernel, by decide +kernel⟩ (by decide +kernel)
    (by decide +kernel) (by decide) s%"envelopes" [s%"-f", s%"j", s%"-n"] [.file s%"j", .noMove] rfl
    (.cons (.fileShort _) (.cons .noMoveShort .nil)) rfl (by simp)
    (small_books_of_all (by decide +kernel) (by decide +kernel) (by decide +kernel) (by decide +kernel))
    (small_books_of_all (by decide +kernel) (by decide +kernel) (by decide +kernel) (by decide +kernel))
    (by unfold Decided; decide +kernel) (by unfold Decided; decide +kernel)
    (by
      intro p hp x hx y hy
      simp only [exGroceriesAccounts, List.mem_cons, List.not_mem_nil, or_false] at hp
      rcases hp with rfl | rfl | rfl
      · simp only [List.mem_cons, List.not_mem_nil, or_false] at hx
        subst hx
        cases hy
        decide
      · cases hx
      · cases hx) s%"bank" s%"pay" 5 (some s%"$") exMorePay_pays (by decide +kernel)
  exact ⟨w1, out, w2, out', h1, h2, h3 (s%"bank", [exGroceries]) (by simp [exGroceriesAccounts]) (by simp) (by decide)⟩

end Silverfox
