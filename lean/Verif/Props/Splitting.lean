import Verif.Props.Renaming

/-
C157: an entry written as two.
-/

namespace Silverfox

set_option linter.unusedSectionVars false

/-! ### Specification -/

/-- Specification: the lines of an entry are divided between two entries of the same day; no line is blank. -/
structure BEntry.SplitInto (b b1 b2 : BEntry) : Prop where
  days : b1.day = b.day ∧ b2.day = b.day
  lines : b.plain.lines.Perm (b1.plain.lines ++ b2.plain.lines)
  moves : b.moves.Perm (b1.moves ++ b2.moves)
  full : ∀ l ∈ b.plain.lines, l.value ≠ none

/-- Specification: nothing is moved in envelopes but by the lines that name them: the entry has such a line, or there is no envelope
for it to come out of. -/
def BEntry.Quiet (accs : List DeclAccount) (b : BEntry) : Prop :=
  b.moves ≠ [] ∨ ∀ p ∈ accs, ∀ x ∈ p.2, ¬ b.Touches p.1 x

/-! ### Sums -/

theorem quiet_movesIn {accs : List DeclAccount} {b : BEntry} (h : b.Quiet accs) {p : DeclAccount} (hp : p ∈ accs) {x : MeantDecl Rat}
    (hx : x ∈ p.2) :
    b.movesIn p.1 x = (b.moves.filter fun m => decide (m.account = p.1 ∧ m.envelope = x.1.name)).map fun m => m.value.1 := by
  unfold BEntry.movesIn
  split
  · rfl
  · rename_i hm
    rw [not_not] at hm
    rcases h with h | h
    · exact absurd hm h
    · rw [if_neg (h p hp x hx), hm]; rfl

theorem split_movesIn {accs : List DeclAccount} {b b1 b2 : BEntry} (h : b.SplitInto b1 b2) (q : b.Quiet accs) (q1 : b1.Quiet accs)
    (q2 : b2.Quiet accs) {p : DeclAccount} (hp : p ∈ accs) {x : MeantDecl Rat} (hx : x ∈ p.2) :
    (b.movesIn p.1 x).Perm (b1.movesIn p.1 x ++ b2.movesIn p.1 x) := by
  rw [quiet_movesIn q hp hx, quiet_movesIn q1 hp hx, quiet_movesIn q2 hp hx, ← List.map_append, ← List.filter_append]
  exact (h.moves.filter _).map _

theorem full_worth {e : PEntry} {l : PLine} (h : l.value ≠ none) : e.worth l = l.value := by
  unfold PEntry.worth
  split
  · rename_i v hv; rw [hv]
  · rename_i hv; exact absurd hv h

theorem full_moves {e : PEntry} (h : ∀ l ∈ e.lines, l.value ≠ none) (k : Str) :
    e.moves k = e.lines.filterMap fun l => if l.account = k then l.value else none := by
  unfold PEntry.moves
  refine List.filterMap_congr fun l hl => ?_
  rw [full_worth (h l hl)]

theorem split_moves {b b1 b2 : BEntry} (h : b.SplitInto b1 b2) (k : Str) :
    (b.plain.moves k).Perm (b1.plain.moves k ++ b2.plain.moves k) := by
  rw [full_moves h.full, full_moves fun l hl => h.full l (h.lines.mem_iff.2 (by simp [hl])),
    full_moves fun l hl => h.full l (h.lines.mem_iff.2 (by simp [hl])), ← List.filterMap_append]
  exact h.lines.filterMap _

/-- C157. With doubles, as the program has them: an entry is written as two of the same day, with the lines divided between them
(journals as in C142). The envelope report says the same of every account. Partial: only if nothing is moved in envelopes but by
the lines that name them, before and after; otherwise the envelopes change (`C157_split_payment_is_taken_twice`). -/
theorem C157_written_as_two_partial (env : Env) (hord : FairOrder env.ord) (o : Outside) (w w' : World)
    (accs : List DeclAccount) (es fs : List BEntry) (b b1 b2 : BEntry) (text text' path : Str)
    (h : EnvelopeJournal env accs (es ++ b :: fs) text) (h' : EnvelopeJournal env accs (es ++ b1 :: b2 :: fs) text')
    (hf : EnvelopesFit env.today accs (es ++ b :: fs)) (hr : w.read path = some text) (hr' : w'.read path = some text')
    (hfuel : o.fuel ≠ 0) (c : Str) (args : List Str) (gs : List Flag) (hc : c.head? = some 'e') (ha : Spelled gs args)
    (hj : journalFor o gs = some path) (hn : Flag.noMove ∈ gs) (hs : SmallBooks accs (es ++ b :: fs))
    (hs' : SmallBooks accs (es ++ b1 :: b2 :: fs)) (hd : Decided accs (es ++ b :: fs)) (hd' : Decided accs (es ++ b1 :: b2 :: fs))
    (hslash : ∀ p ∈ accs, ∀ x ∈ p.2, ∀ y, x.target.sym = some y → '/' ∉ y) (hb : b.SplitInto b1 b2)
    (q : b.Quiet accs) (q1 : b1.Quiet accs) (q2 : b2.Quiet accs) :
    ∃ w1 out w2 out', mainProgram F64 env o (c :: args) w = (w1, .ok out) ∧ mainProgram F64 env o (c :: args) w' = (w2, .ok out') ∧
      ∀ p ∈ accs, p.2 ≠ [] → ∃ r ∈ readEnvelopes out, ∃ r' ∈ readEnvelopes out', r.account = p.1 ∧ SaysSame r r' := by
  have quiet : ∀ {c : BEntry}, c.Quiet accs → c.moves = [] → ∀ p ∈ accs, ∀ x ∈ p.2, ¬ c.Touches p.1 x := by
    intro c hc hm
    rcases hc with hc | hc
    · exact absurd hm hc
    · exact hc
  have hf' : EnvelopesFit env.today accs (es ++ b1 :: b2 :: fs) := by
    refine ⟨hf.today, hf.schedule, fun p hp x hx c hc m hm => ?_, fun p hp x hx c hc hm ht => ?_⟩
    · simp only [List.mem_append, List.mem_cons] at hc
      rcases hc with hc | rfl | rfl | hc
      · exact hf.named p hp x hx c (by simp [hc]) m hm
      · exact hf.named p hp x hx b (by simp) m (hb.moves.mem_iff.2 (by simp [hm]))
      · exact hf.named p hp x hx b (by simp) m (hb.moves.mem_iff.2 (by simp [hm]))
      · exact hf.named p hp x hx c (by simp [hc]) m hm
    · simp only [List.mem_append, List.mem_cons] at hc
      rcases hc with hc | rfl | rfl | hc
      · exact hf.spent p hp x hx c (by simp [hc]) hm ht
      · exact absurd ht (quiet q1 hm p hp x hx)
      · exact absurd ht (quiet q2 hm p hp x hx)
      · exact hf.spent p hp x hx c (by simp [hc]) hm ht
  obtain ⟨w1, out, m1, _, s1, shown, p1, z1⟩ := C142_all_the_money_is_there env hord o w accs _ text path h hf hr hfuel c args gs hc ha hj
    hn hs hd hslash
  obtain ⟨w2, out', m2, _, s2, shown', p2, z2⟩ := C142_all_the_money_is_there env hord o w' accs _ text' path h' hf' hr' hfuel c args gs
    hc ha hj hn hs' hd' hslash
  refine ⟨w1, out, w2, out', m1, m2, fun p hp hne => ?_⟩
  have hm : p ∈ accs.filter fun p => p.2 ≠ [] := by simp [hp, hne]
  obtain ⟨r, hr1, k⟩ := forall₂_mem_left z1 (p1.mem_iff.2 hm)
  obtain ⟨r', hr2, k'⟩ := forall₂_mem_left z2 (p2.mem_iff.2 hm)
  have hh : ∀ x ∈ p.2, heldOf p.1 x (es ++ b1 :: b2 :: fs) = heldOf p.1 x (es ++ b :: fs) := fun x hx => by
    have := (split_movesIn hb q q1 q2 hp hx).sum_eq
    rw [List.sum_append] at this
    rw [held_insert, held_insert, held_insert, this]; ring
  have hnow : ∀ x ∈ p.2, ∀ last, nowOf last p.1 x (es ++ b1 :: b2 :: fs) = nowOf last p.1 x (es ++ b :: fs) := fun x hx last => by
    have := ((split_movesIn hb q q1 q2 hp hx).map fun v => if ForNow last b.day v then v else 0).sum_eq
    rw [List.map_append, List.sum_append] at this
    rw [now_insert, now_insert, now_insert, hb.days.1, hb.days.2, this]; ring
  have hw : ∀ s, writtenSum p.1 s ((es ++ b1 :: b2 :: fs).map BEntry.plain) = writtenSum p.1 s ((es ++ b :: fs).map BEntry.plain) := fun s => by
    have := ((split_moves hb p.1).map fun v => if v.2 = s then v.1 else 0).sum_eq
    rw [List.map_append, List.sum_append] at this
    rw [written_insert, written_insert, written_insert, this]; ring
  have hin : ∀ x ∈ ofKind .expense p.2 ++ ofKind .goal p.2, x ∈ p.2 := fun x hx => by
    rcases List.mem_append.1 hx with hx | hx <;> exact (List.mem_filter.1 hx).1
  refine ⟨r, hr1, r', hr2, k.account, by rw [k.account, k'.account], by rw [k.envelopes, k'.envelopes],
    same_figures k.each k'.each (fun x hx last _ => hnow x (hin x hx) last) (fun x hx => hh x (hin x hx)), fun s => ?_⟩
  rw [k.available, k'.available]
  unfold availableOf
  rw [hw]
  congr 2
  exact List.map_congr_left fun x hx => hh x (List.mem_filter.1 hx).1

theorem split_aside {b b1 b2 : BEntry} (h : b.SplitInto b1 b2) (k : Str) : (b.aside k).Perm (b1.aside k ++ b2.aside k) := by
  unfold BEntry.aside
  rw [← List.map_append, ← List.filter_append]
  exact (h.moves.filter _).map _

theorem aside_insert (k : Str) (s : Option Str) (es fs : List BEntry) (b : BEntry) :
    asideSum k s (es ++ b :: fs) = asideSum k s (es ++ fs) + ((b.aside k).map fun v => if v.2 = s then v.1 else 0).sum := by
  unfold asideSum
  simp only [List.flatMap_append, List.flatMap_cons, List.map_append, List.sum_append]
  ring

theorem exists_insert {α : Type} (P : α → Prop) (es fs : List α) (b : α) :
    (∃ c ∈ es ++ b :: fs, P c) ↔ P b ∨ ∃ c ∈ es ++ fs, P c := by
  constructor
  · rintro ⟨c, hc, h⟩
    simp only [List.mem_append, List.mem_cons] at hc
    rcases hc with hc | rfl | hc
    · exact Or.inr ⟨c, by simp [hc], h⟩
    · exact Or.inl h
    · exact Or.inr ⟨c, by simp [hc], h⟩
  · rintro (h | ⟨c, hc, h⟩)
    · exact ⟨b, by simp, h⟩
    · rcases List.mem_append.1 hc with hc | hc
      · exact ⟨c, by simp [hc], h⟩
      · exact ⟨c, by simp [hc], h⟩

/-- If what holds of an entry is what holds of one of the two, nothing changes. -/
theorem exists_split {α : Type} (P : α → Prop) (es fs : List α) {b b1 b2 : α} (h : P b ↔ P b1 ∨ P b2) :
    (∃ c ∈ es ++ b1 :: b2 :: fs, P c) ↔ ∃ c ∈ es ++ b :: fs, P c := by
  rw [exists_insert, exists_insert, exists_insert, h, or_assoc]

theorem exists_append {α : Type} (Q : α → Prop) {l l1 l2 : List α} (h : l.Perm (l1 ++ l2)) :
    (∃ v ∈ l, Q v) ↔ (∃ v ∈ l1, Q v) ∨ ∃ v ∈ l2, Q v := by
  constructor
  · rintro ⟨v, hv, q⟩
    rcases List.mem_append.1 (h.mem_iff.1 hv) with hv | hv
    · exact Or.inl ⟨v, hv, q⟩
    · exact Or.inr ⟨v, hv, q⟩
  · rintro (⟨v, hv, q⟩ | ⟨v, hv, q⟩)
    · exact ⟨v, h.mem_iff.2 (by simp [hv]), q⟩
    · exact ⟨v, h.mem_iff.2 (by simp [hv]), q⟩

/-- C157. The balance report lists the same accounts, and for each of them the same amounts, for every entry that is written as two. -/
theorem C157_balances_too (env : Env) (hord : FairOrder env.ord) (o : Outside) (w w' : World)
    (accs : List DeclAccount) (es fs : List BEntry) (b b1 b2 : BEntry) (text text' path : Str)
    (h : EnvelopeJournal env accs (es ++ b :: fs) text) (h' : EnvelopeJournal env accs (es ++ b1 :: b2 :: fs) text')
    (hf : EnvelopesFit env.today accs (es ++ b :: fs)) (hf' : EnvelopesFit env.today accs (es ++ b1 :: b2 :: fs))
    (hr : w.read path = some text) (hr' : w'.read path = some text')
    (hfuel : o.fuel ≠ 0) (c : Str) (args : List Str) (gs : List Flag) (hc : c.head? = some 'b') (ha : Spelled gs args)
    (hj : journalFor o gs = some path) (hn : Flag.noMove ∈ gs)
    (h8 : EightDecimals ((es ++ b :: fs).map BEntry.counted)) (hseen : ∀ k, SeenBefore k ((es ++ b :: fs).map BEntry.counted))
    (hsmall : ∀ k, Small k ((es ++ b :: fs).map BEntry.counted))
    (h8' : EightDecimals ((es ++ b1 :: b2 :: fs).map BEntry.counted)) (hseen' : ∀ k, SeenBefore k ((es ++ b1 :: b2 :: fs).map BEntry.counted))
    (hsmall' : ∀ k, Small k ((es ++ b1 :: b2 :: fs).map BEntry.counted)) (hb : b.SplitInto b1 b2) :
    ∃ w1 out w2 out', mainProgram F64 env o (c :: args) w = (w1, .ok out) ∧ mainProgram F64 env o (c :: args) w' = (w2, .ok out') ∧
      (∀ k, k ∈ (readReport out').map Prod.fst ↔ k ∈ (readReport out).map Prod.fst) ∧
      ∀ k ts ts', (k, ts) ∈ readReport out → (k, ts') ∈ readReport out' → ts'.length = ts.length ∧ ∀ s, sumIn s ts' = sumIn s ts := by
  obtain ⟨w1, out, m1, _, _, n1, q1⟩ := C137_exact_rule env hord o w accs _ text path h hf hr hfuel c args gs hc ha hj hn h8 hseen hsmall
  obtain ⟨w2, out', m2, _, _, n2, q2⟩ := C137_exact_rule env hord o w' accs _ text' path h' hf' hr' hfuel c args gs hc ha hj hn h8'
    hseen' hsmall'
  refine ⟨w1, out, w2, out', m1, m2, fun k => ?_, fun k ts ts' ht ht' => ?_⟩
  · rw [n1, n2]
    refine exists_split (fun b : BEntry => (∃ l ∈ b.plain.lines, l.account = k) ∨ ∃ m ∈ b.moves, m.account = k) es fs ?_
    show (_ ∨ _) ↔ (_ ∨ _) ∨ _ ∨ _
    rw [exists_append (fun l => l.account = k) hb.lines, exists_append (fun m => m.account = k) hb.moves]
    exact or_or_or_comm
  · obtain ⟨cs, c1, c2, c3⟩ := q1 k ts ht
    obtain ⟨cs', c1', c2', c3'⟩ := q2 k ts' ht'
    have hmem : ∀ s, s ∈ cs' ↔ s ∈ cs := by
      intro s
      rw [c2, c2']
      refine exists_split (fun b : BEntry => ∃ v ∈ b.plain.moves k ++ b.aside k, v.2 = s) es fs ?_
      refine exists_append (fun v => v.2 = s) (((split_moves hb k).append (split_aside hb k)).trans ?_)
      rw [List.append_assoc, List.append_assoc]
      refine List.Perm.append_left _ ?_
      rw [← List.append_assoc, ← List.append_assoc]
      exact List.perm_append_comm.append_right _
    have hlen : cs'.length = cs.length := ((List.perm_ext_iff_of_nodup c1' c1).2 hmem).length_eq
    refine ⟨by rw [c3'.length_eq, c3.length_eq, hlen], fun s => ?_⟩
    rw [sum_reported c1 (v := fun s => writtenSum k s ((es ++ b :: fs).map BEntry.plain) + asideSum k s (es ++ b :: fs)) c3,
      sum_reported c1' (v := fun s => writtenSum k s ((es ++ b1 :: b2 :: fs).map BEntry.plain) + asideSum k s (es ++ b1 :: b2 :: fs)) c3']
    have e1 := ((split_moves hb k).map fun v => if v.2 = s then v.1 else 0).sum_eq
    have e2 := ((split_aside hb k).map fun v => if v.2 = s then v.1 else 0).sum_eq
    rw [List.map_append, List.sum_append] at e1 e2
    have : writtenSum k s ((es ++ b1 :: b2 :: fs).map BEntry.plain) + asideSum k s (es ++ b1 :: b2 :: fs) =
        writtenSum k s ((es ++ b :: fs).map BEntry.plain) + asideSum k s (es ++ b :: fs) := by
      rw [written_insert, written_insert, written_insert, aside_insert, aside_insert, aside_insert, e1, e2]; ring
    simp only [hmem, this]

/-! ### The negation -/

/-- A payment that is to come out of another envelope than the one for the shop. -/
def exOneEntry : Str := s%"account bank\n  expense food due every 10th\n    amount $40\n    for shop\n  expense fun due every 10th\n    amount $40\naccount shop\naccount pay\n\n2024/06/01 * salary\n bank $100\n pay -100 $\n envelope bank food $30\n envelope bank fun $20\n2024/06/12 * shopping\n shop $12\n bank $-12\n envelope bank fun $-12"

/-- The same in two entries. -/
def exTwoEntries : Str := s%"account bank\n  expense food due every 10th\n    amount $40\n    for shop\n  expense fun due every 10th\n    amount $40\naccount shop\naccount pay\n\n2024/06/01 * salary\n bank $100\n pay -100 $\n envelope bank food $30\n envelope bank fun $20\n2024/06/12 * shopping\n shop $12\n bank $-12\n2024/06/12 * for fun\n envelope bank fun $-12"

/-- C157. A payment of $12 out of the envelope named, written as two entries, is taken out of another envelope as well. -/
theorem C157_split_payment_is_taken_twice :
    (∃ out, (mainProgram F64 (stdEnv june15) exOutside [s%"envelopes", s%"-f", s%"j", s%"-n"]
        (disk [("j", String.ofList exOneEntry)])).2 = .ok out ∧
      (readEnvelopes out).map (fun r => (sumIn (some s%"$") r.available, r.envelopes.map fun e => (e.1, saidIn (some s%"$") e))) =
        [(50, [(s%"food", 30), (s%"fun", 8)])]) ∧
    ∃ out, (mainProgram F64 (stdEnv june15) exOutside [s%"envelopes", s%"-f", s%"j", s%"-n"]
        (disk [("j", String.ofList exTwoEntries)])).2 = .ok out ∧
      (readEnvelopes out).map (fun r => (sumIn (some s%"$") r.available, r.envelopes.map fun e => (e.1, saidIn (some s%"$") e))) =
        [(62, [(s%"food", 18), (s%"fun", 8)])] := by
  constructor <;> decide +kernel

/-! ### A concrete case -/

def exMoneyIn : BEntry where
  date := s%"2024/06/01"
  mark := s%"*"
  title := s%"salary"
  day := ⟨2024, 6, 1, by decide⟩
  lines := [.posting ⟨s%" ", s%"bank", s%" ", s%"$100", some (100, some s%"$")⟩,
    .posting ⟨s%" ", s%"pay", s%" ", s%"-100 $", some (-100, some s%"$")⟩]

def exMoneyAside : BEntry where
  date := s%"2024/06/01"
  mark := s%"*"
  title := s%"aside"
  day := ⟨2024, 6, 1, by decide⟩
  lines := [.move ⟨s%" ", s%" ", s%"bank", s%" ", s%"food", s%" ", s%"$30.50", (61 / 2, some s%"$")⟩]

/-- The journal of C121 with the salary and what is set aside of it in two entries. -/
def exSplitText : Str := s%"account bank\n  expense food due every 10th\n    amount $40\n    for shop\naccount shop\naccount pay\n\n2024/06/01 * salary\n bank $100\n pay -100 $\n2024/06/01 * aside\n envelope bank food $30.50\n2024/06/12 * shopping\n shop 12.25$\n bank\n2024/06/13 * save\n bank $5\n pay $-5\n envelope bank food $8"

theorem exSplitText_ok : EnvelopeJournal (stdEnv june15) exGroceriesAccounts ([] ++ exMoneyIn :: exMoneyAside :: [exShopping, exSaving])
    exSplitText := by
  refine ⟨.of (by decide +kernel), exGroceriesText_ok.once, exGroceriesText_ok.names, exGroceriesText_ok.envelopes,
    exGroceriesText_ok.distinct, ?_⟩
  have hd : ValidSymbol '.' s%"$" := by decide
  have a1 : WrittenAmount s%"$100" 100 (some s%"$") :=
    ⟨s%"100", false, 100, 0, ⟨s%"100", [], by decide, by decide, by decide, by decide, by decide, by decide⟩,
      by norm_num, Or.inr ⟨_, rfl, hd, by decide⟩⟩
  have a2 : WrittenAmount s%"-100 $" (-100) (some s%"$") :=
    ⟨s%"-100", true, 100, 0, ⟨s%"100", [], by decide, by decide, by decide, by decide, by decide, by decide⟩,
      by norm_num, Or.inr ⟨_, rfl, hd, by decide⟩⟩
  have a6 : WrittenAmount s%"$30.50" (61 / 2) (some s%"$") :=
    ⟨s%"30.50", false, 3050, 2, ⟨s%"30", s%"50", by decide, by decide, by decide, by decide, by decide, by decide⟩,
      by norm_num, Or.inr ⟨_, rfl, hd, by decide⟩⟩
  intro e he
  simp only [List.nil_append, List.mem_cons, List.not_mem_nil, or_false] at he
  rcases he with rfl | rfl | rfl | rfl
  · refine ⟨⟨by decide +kernel, by decide, by decide, by decide +kernel, ?_, by decide, ?_⟩, (fun m hm => nomatch hm), fun h => absurd rfl h⟩
    · intro l hl
      simp only [exMoneyIn, BEntry.plain, List.filterMap_cons, List.filterMap_nil, List.mem_cons, List.not_mem_nil,
        or_false] at hl
      rcases hl with rfl | rfl
      · refine ⟨by decide, by decide, by decide, by decide, by decide, by decide +kernel, by simp, ?_⟩
        intro q s h; cases h; exact ⟨by decide, by decide +kernel, a1⟩
      · refine ⟨by decide, by decide, by decide, by decide, by decide, by decide +kernel, by simp, ?_⟩
        intro q s h; cases h; exact ⟨by decide, by decide +kernel, a2⟩
    · rintro ⟨l, hl, hv⟩
      simp only [exMoneyIn, BEntry.plain, List.filterMap_cons, List.filterMap_nil, List.mem_cons, List.not_mem_nil,
        or_false] at hl
      rcases hl with rfl | rfl <;> cases hv
  · refine ⟨⟨by decide +kernel, by decide, by decide, by decide +kernel, (fun l hl => nomatch hl), by decide, fun ⟨l, hl, _⟩ => nomatch hl⟩,
      ?_, fun _ => (fun l hl => nomatch hl)⟩
    intro m hm
    simp only [exMoneyAside, BEntry.moves, List.filterMap_cons, List.filterMap_nil, List.mem_cons, List.not_mem_nil, or_false] at hm
    subst hm
    exact ⟨by decide, by decide, by decide, by decide, by decide, by decide, a6⟩
  · exact exGroceriesText_ok.entries _ (by simp)
  · exact exGroceriesText_ok.entries _ (by simp)

/-- The salary as one entry and as two. -/
example : ∃ w1 out w2 out', mainProgram F64 (stdEnv june15) exOutside [s%"envelopes", s%"-f", s%"j", s%"-n"]
      (disk [("j", String.ofList exGroceriesText)]) = (w1, .ok out) ∧
    mainProgram F64 (stdEnv june15) exOutside [s%"envelopes", s%"-f", s%"j", s%"-n"]
      (disk [("j", String.ofList exSplitText)]) = (w2, .ok out') ∧
    ∃ r ∈ readEnvelopes out, ∃ r' ∈ readEnvelopes out', r.account = s%"bank" ∧ SaysSame r r' := by
  obtain ⟨w1, out, w2, out', h1, h2, h3⟩ := C157_written_as_two_partial (stdEnv june15) (fun _ l => List.Perm.refl l) exOutside
    (disk [("j", String.ofList exGroceriesText)]) (disk [("j", String.ofList exSplitText)]) exGroceriesAccounts [] [exShopping, exSaving]
    exSalaryIn exMoneyIn exMoneyAside exGroceriesText exSplitText s%"j" exGroceriesText_ok exSplitText_ok exGroceries_fits
    (by decide +kernel) (by decide +kernel) (by decide) s%"envelopes" [s%"-f", s%"j", s%"-n"] [.file s%"j", .noMove] rfl
    (.cons (.fileShort _) (.cons .noMoveShort .nil)) rfl (by simp)
    (small_books_of_all (by decide +kernel) (by decide +kernel) (by decide +kernel) (by decide +kernel))
    (small_books_of_all (by decide +kernel) (by decide +kernel) (by decide +kernel) (by decide +kernel))
    (by unfold Decided; decide +kernel) (by unfold Decided; decide +kernel) exGroceries_noSlash
    ⟨⟨rfl, rfl⟩, .refl _, .refl _, by decide⟩ (Or.inl (by decide)) (Or.inr (by decide +kernel)) (Or.inl (by decide))
  exact ⟨w1, out, w2, out', h1, h2, h3 (s%"bank", [exGroceries]) (by simp [exGroceriesAccounts]) (by simp)⟩

theorem exSplit_eight : EightDecimals (([] ++ exMoneyIn :: exMoneyAside :: [exShopping, exSaving]).map BEntry.counted) ∧
    (∀ k, SeenBefore k (([] ++ exMoneyIn :: exMoneyAside :: [exShopping, exSaving]).map BEntry.counted)) ∧
    (∀ k, Small k (([] ++ exMoneyIn :: exMoneyAside :: [exShopping, exSaving]).map BEntry.counted)) := by
  refine ⟨?_, ?_, ?_⟩
  · intro e he v hv
    have hv : v = (100, some s%"$") ∨ v = (-100, some s%"$") ∨ v = (61 / 2, some s%"$") ∨ v = (8, some s%"$") ∨
        v = (5, some s%"$") ∨ v = (-5, some s%"$") ∨ v = (49 / 4, some s%"$") := by
      simp only [List.nil_append, List.map_cons, List.map_nil, List.mem_cons, List.not_mem_nil, or_false] at he
      rcases he with rfl | rfl | rfl | rfl
      · simp [PEntry.given, BEntry.counted, BLine.counted, exMoneyIn] at hv
        grind
      · simp [PEntry.given, BEntry.counted, BLine.counted, exMoneyAside] at hv
        grind
      · simp [PEntry.given, BEntry.counted, BLine.counted, exShopping] at hv
        grind
      · simp [PEntry.given, BEntry.counted, BLine.counted, exSaving] at hv
        grind
    rcases hv with rfl | rfl | rfl | rfl | rfl | rfl | rfl
    · exact ⟨10000000000, by norm_num⟩
    · exact ⟨-10000000000, by norm_num⟩
    · exact ⟨3050000000, by norm_num⟩
    · exact ⟨800000000, by norm_num⟩
    · exact ⟨500000000, by norm_num⟩
    · exact ⟨-500000000, by norm_num⟩
    · exact ⟨1225000000, by norm_num⟩
  · intro k e he ⟨l, hl, hk, hv⟩
    have h3 : ∀ e ∈ ([] ++ exMoneyIn :: exMoneyAside :: [exShopping, exSaving]).map BEntry.counted, ∀ l ∈ e.lines, l.value = none →
        ∃ e' ∈ ([] ++ exMoneyIn :: exMoneyAside :: [exShopping, exSaving]).map BEntry.counted, Date.lt e'.day e.day = true ∧ ∃ l' ∈ e'.lines, l'.account = l.account := by
      decide +kernel
    rw [← hk]
    exact h3 e he l hl hv
  · intro k
    apply small_of_all
    by_cases h1 : k = s%"bank"
    · subst h1; decide +kernel
    · by_cases h2 : k = s%"pay"
      · subst h2; decide +kernel
      · by_cases h3 : k = s%"shop"
        · subst h3; decide +kernel
        · have : (([] ++ exMoneyIn :: exMoneyAside :: [exShopping, exSaving]).map BEntry.counted).flatMap (PEntry.weighed k) = [] := by
            simp [PEntry.weighed, BEntry.counted, BLine.counted, exMoneyIn, exMoneyAside, exShopping, exSaving, Ne.symm h1, Ne.symm h2, Ne.symm h3]
          rw [this]; norm_num

/-- The balances are the same. -/
example : ∃ w1 out w2 out', mainProgram F64 (stdEnv june15) exOutside [s%"balance", s%"-f", s%"j", s%"-n"]
      (disk [("j", String.ofList exGroceriesText)]) = (w1, .ok out) ∧
    mainProgram F64 (stdEnv june15) exOutside [s%"balance", s%"-f", s%"j", s%"-n"]
      (disk [("j", String.ofList exSplitText)]) = (w2, .ok out') ∧
    ∀ k, k ∈ (readReport out').map Prod.fst ↔ k ∈ (readReport out).map Prod.fst := by
  obtain ⟨w1, out, w2, out', h1, h2, h3, _⟩ := C157_balances_too (stdEnv june15) (fun _ l => List.Perm.refl l) exOutside
    (disk [("j", String.ofList exGroceriesText)]) (disk [("j", String.ofList exSplitText)]) exGroceriesAccounts [] [exShopping, exSaving]
    exSalaryIn exMoneyIn exMoneyAside exGroceriesText exSplitText s%"j" exGroceriesText_ok exSplitText_ok exGroceries_fits
    ⟨june15_inner, exGroceries_fits.schedule, by decide +kernel, by decide +kernel⟩
    (by decide +kernel) (by decide +kernel) (by decide) s%"balance" [s%"-f", s%"j", s%"-n"] [.file s%"j", .noMove] rfl
    (.cons (.fileShort _) (.cons .noMoveShort .nil)) rfl (by simp)
    exGroceries_eight.1 exGroceries_eight.2.1 exGroceries_eight.2.2 exSplit_eight.1 exSplit_eight.2.1 exSplit_eight.2.2
    ⟨⟨rfl, rfl⟩, .refl _, .refl _, by decide⟩
  exact ⟨w1, out, w2, out', h1, h2, h3⟩

end Silverfox
