import Verif.Props.NowAndNext

/-
C155: what is set aside and taken back.
-/

namespace Silverfox

set_option linter.unusedSectionVars false

/-! ### Specification -/

/-- Specification: an entry sets money aside, and another one takes it back: they only have lines that name envelopes, and the lines
of the other one name the same envelopes with the opposite amounts. -/
structure BEntry.TakenBack (b b' : BEntry) : Prop where
  only : b.plain.lines = [] ∧ b'.plain.lines = []
  some_ : b.moves ≠ []
  positive : ∀ m ∈ b.moves, 0 < m.value.1
  opposite : List.Forall₂ (fun m m' => m'.account = m.account ∧ m'.envelope = m.envelope ∧ m'.value = (-m.value.1, m.value.2))
    b.moves b'.moves

theorem taken_list {b b' : BEntry} (h : b.TakenBack b') (k : Str) (x : MeantDecl Rat) :
    b'.movesIn k x = (b.movesIn k x).map fun v => -v := by
  have h1 := h.some_
  have h2 : b'.moves ≠ [] := by
    intro e
    have := h.opposite
    rw [e] at this
    cases hm : b.moves with
    | nil => exact h1 hm
    | cons m ms => rw [hm] at this; cases this
  unfold BEntry.movesIn
  rw [if_pos h1, if_pos h2, List.map_map]
  have := h.opposite
  clear h h1 h2
  generalize b.moves = bs at this
  generalize b'.moves = bs' at this
  induction this with
  | nil => rfl
  | @cons m m' ms ms' hm _ ih =>
    obtain ⟨e1, e2, e3⟩ := hm
    by_cases e : m.account = k ∧ m.envelope = x.1.name
    · rw [List.filter_cons_of_pos (a := m) (by simpa using e), List.filter_cons_of_pos (a := m') (by rw [e1, e2]; simpa using e),
        List.map_cons, List.map_cons, ih, e3]
      rfl
    · rw [List.filter_cons_of_neg (a := m) (by simpa using e), List.filter_cons_of_neg (a := m') (by rw [e1, e2]; simpa using e), ih]

theorem idle_lines {b : BEntry} (h : b.plain.lines = []) (k : Str) : b.plain.moves k = [] := by
  unfold PEntry.moves
  rw [h]; rfl

theorem sum_map_neg (l : List Rat) : (l.map fun v => -v).sum = -l.sum := by
  induction l with
  | nil => simp
  | cons v l ih => rw [List.map_cons, List.sum_cons, List.sum_cons, ih]; ring

/-- C155. With doubles, as the program has them, exactly: money `v` is set aside in an envelope, on or after its last due date, and
taken back by another entry (journals as in C142, with and without the two entries). What the envelope has altogether, and what is
available in every currency, is as before; but what is taken back comes out of what there is now: there is now `max (now - v) 0`, and
for the next time `next + v + min (now - v) 0`. -/
theorem C155_exact_rule (env : Env) (hord : FairOrder env.ord) (o : Outside) (w w' : World)
    (accs : List DeclAccount) (es fs : List BEntry) (b b' : BEntry) (text text' path : Str)
    (h : EnvelopeJournal env accs (es ++ fs) text) (h' : EnvelopeJournal env accs (es ++ b :: b' :: fs) text')
    (hf : EnvelopesFit env.today accs (es ++ b :: b' :: fs)) (hr : w.read path = some text) (hr' : w'.read path = some text')
    (hfuel : o.fuel ≠ 0) (c : Str) (args : List Str) (gs : List Flag) (hc : c.head? = some 'e') (ha : Spelled gs args)
    (hj : journalFor o gs = some path) (hn : Flag.noMove ∈ gs) (hs : SmallBooks accs (es ++ fs))
    (hs' : SmallBooks accs (es ++ b :: b' :: fs)) (hd : Decided accs (es ++ fs)) (hd' : Decided accs (es ++ b :: b' :: fs))
    (hslash : ∀ p ∈ accs, ∀ x ∈ p.2, ∀ y, x.target.sym = some y → '/' ∉ y) (hb : b.TakenBack b')
    (hday : ∀ p ∈ accs, ∀ x ∈ p.2, ∀ d, x.2.1.lastDue env.today = .ok (some d) → Date.lt b.day d = false) :
    ∃ w1 out w2 out', mainProgram F64 env o (c :: args) w = (w1, .ok out) ∧ mainProgram F64 env o (c :: args) w' = (w2, .ok out') ∧
      (readEnvelopes out').map (·.account) = (readEnvelopes out).map (·.account) ∧
      ∀ p ∈ accs, p.2 ≠ [] → ∃ r ∈ readEnvelopes out, ∃ r' ∈ readEnvelopes out',
        FiguresDiffer p (fun x now next now' next' => now' + next' = now + next ∧ now' = max (now - b.puts p.1 x.1.name) 0 ∧
          next' = next + b.puts p.1 x.1.name + min (now - b.puts p.1 x.1.name) 0) r r' ∧
        ∀ s, sumIn s r'.available = sumIn s r.available := by
  have hf0 : EnvelopesFit env.today accs (es ++ fs) := by
    have sub : ∀ e ∈ es ++ fs, e ∈ es ++ b :: b' :: fs := by
      intro e he
      simp only [List.mem_append, List.mem_cons] at he ⊢
      tauto
    exact ⟨hf.today, hf.schedule, fun p hp x hx b' hb => hf.named p hp x hx b' (sub b' hb),
      fun p hp x hx b' hb => hf.spent p hp x hx b' (sub b' hb)⟩
  have hnn : ∀ (k : Str) (x : MeantDecl Rat), ∀ v ∈ b.movesIn k x, 0 < v := by
    intro k x v hv
    unfold BEntry.movesIn at hv
    rw [if_pos hb.some_] at hv
    obtain ⟨m, hm, rfl⟩ := List.mem_map.1 hv
    exact hb.positive m (List.mem_filter.1 hm).1
  obtain ⟨w1, out, w2, out', m1, m2, hacc, hall⟩ := two_reports env env hord hord o w w' accs (es ++ fs) (es ++ b :: b' :: fs) text text'
    path h h' hf0 hf hr hr' hfuel c args gs hc ha hj hn hs hs' hd hd' hslash
    (fun n x now next now' next' => now' + next' = now + next ∧ now' = max (now - b.puts n x.1.name) 0 ∧
          next' = next + b.puts n x.1.name + min (now - b.puts n x.1.name) 0) (by
      intro p hp x hx last last' hl hl'
      rw [hl] at hl'
      cases hl'
      rw [now_insert, next_insert, now_insert, next_insert, taken_list hb, ← puts_eq b hb.some_]
      have hv : ∀ v ∈ b.movesIn p.1 x, ¬ ForNow last b.day v := by
        intro v hv hF
        have := hnn p.1 x v hv
        rcases hF with hF | ⟨d, rfl, hF⟩
        · linarith
        · rw [hday p hp x hx d hl] at hF
          cases hF
      have e1 : ((b.movesIn p.1 x).map fun v => if ForNow last b.day v then v else 0).sum = 0 := by
        rw [List.map_congr_left (g := fun _ => (0 : Rat)) fun v hv' => if_neg (hv v hv')]
        simp
      have e2 : ((b.movesIn p.1 x).map fun v => if ForNow last b.day v then 0 else v) = b.movesIn p.1 x := by
        conv_rhs => rw [← List.map_id (b.movesIn p.1 x)]
        exact List.map_congr_left fun v hv' => if_neg (hv v hv')
      have hF : ∀ v ∈ b.movesIn p.1 x, ForNow last b'.day (-v) := fun v hv => Or.inl (by have := hnn p.1 x v hv; linarith)
      have e3 : (((b.movesIn p.1 x).map fun v => -v).map fun v => if ForNow last b'.day v then v else 0) =
          (b.movesIn p.1 x).map fun v => -v := by
        rw [List.map_map]
        exact List.map_congr_left fun v hv' => if_pos (hF v hv')
      have e4 : (((b.movesIn p.1 x).map fun v => -v).map fun v => if ForNow last b'.day v then 0 else v).sum = 0 := by
        rw [List.map_map, List.map_congr_left (g := fun _ => (0 : Rat)) (fun v hv' => by
          show (if ForNow last b'.day (-v) then (0 : Rat) else -v) = 0
          exact if_pos (hF v hv'))]
        simp
      rw [e1, e2, e3, e4, sum_map_neg]
      have hq : 0 ≤ (b.movesIn p.1 x).sum := List.sum_nonneg fun v hv => le_of_lt (hnn p.1 x v hv)
      generalize (b.movesIn p.1 x).sum = q at hq
      generalize nowOf last p.1 x (es ++ fs) = n
      generalize nextOf last p.1 x (es ++ fs) = y
      rcases le_total n 0 with h1 | h1
      · rw [max_eq_right h1, min_eq_left h1, max_eq_right (by linarith), min_eq_left (by linarith), max_eq_right (by linarith),
          min_eq_left (by linarith)]
        refine ⟨?_, rfl, ?_⟩ <;> ring
      · rw [max_eq_left h1, min_eq_right h1]
        rw [show n + -q + 0 = n - q from by ring]
        have := max_add_min (n - q) 0
        refine ⟨?_, rfl, ?_⟩ <;> linarith)
  refine ⟨w1, out, w2, out', m1, m2, hacc, fun p hp hne => ?_⟩
  obtain ⟨r, hr1, r', hr2, kf, ks⟩ := hall p hp hne
  refine ⟨r, hr1, r', hr2, kf, fun s => ?_⟩
  have hh : ∀ x, heldOf p.1 x (es ++ b :: b' :: fs) = heldOf p.1 x (es ++ fs) := fun x => by
    rw [held_insert, held_insert, taken_list hb, sum_map_neg]; ring
  have hw : writtenSum p.1 s ((es ++ b :: b' :: fs).map BEntry.plain) = writtenSum p.1 s ((es ++ fs).map BEntry.plain) := by
    rw [written_insert, written_insert, idle_lines hb.only.1, idle_lines hb.only.2]
    simp
  have hav : availableOf p s (es ++ b :: b' :: fs) = availableOf p s (es ++ fs) := by
    unfold availableOf
    rw [hw]
    simp only [hh]
  have := ks s
  rw [hav] at this
  linarith

/-- C155. What is set aside and taken back leaves what each envelope has altogether, and what is available, as it was. Partial: what
there is now becomes less, and what is saved for the next time becomes more (`C155_taking_back_moves_money`). -/
theorem C155_taken_back_partial (env : Env) (hord : FairOrder env.ord) (o : Outside) (w w' : World)
    (accs : List DeclAccount) (es fs : List BEntry) (b b' : BEntry) (text text' path : Str)
    (h : EnvelopeJournal env accs (es ++ fs) text) (h' : EnvelopeJournal env accs (es ++ b :: b' :: fs) text')
    (hf : EnvelopesFit env.today accs (es ++ b :: b' :: fs)) (hr : w.read path = some text) (hr' : w'.read path = some text')
    (hfuel : o.fuel ≠ 0) (c : Str) (args : List Str) (gs : List Flag) (hc : c.head? = some 'e') (ha : Spelled gs args)
    (hj : journalFor o gs = some path) (hn : Flag.noMove ∈ gs) (hs : SmallBooks accs (es ++ fs))
    (hs' : SmallBooks accs (es ++ b :: b' :: fs)) (hd : Decided accs (es ++ fs)) (hd' : Decided accs (es ++ b :: b' :: fs))
    (hslash : ∀ p ∈ accs, ∀ x ∈ p.2, ∀ y, x.target.sym = some y → '/' ∉ y) (hb : b.TakenBack b') :
    ∃ w1 out w2 out', mainProgram F64 env o (c :: args) w = (w1, .ok out) ∧ mainProgram F64 env o (c :: args) w' = (w2, .ok out') ∧
      (readEnvelopes out').map (·.account) = (readEnvelopes out).map (·.account) ∧
      ∀ p ∈ accs, p.2 ≠ [] → ∃ r ∈ readEnvelopes out, ∃ r' ∈ readEnvelopes out', Differs p (fun _ => 0) (fun _ => 0) r r' := by
  have hf0 : EnvelopesFit env.today accs (es ++ fs) := by
    have sub : ∀ e ∈ es ++ fs, e ∈ es ++ b :: b' :: fs := by
      intro e he
      simp only [List.mem_append, List.mem_cons] at he ⊢
      tauto
    exact ⟨hf.today, hf.schedule, fun p hp x hx b' hb => hf.named p hp x hx b' (sub b' hb),
      fun p hp x hx b' hb => hf.spent p hp x hx b' (sub b' hb)⟩
  obtain ⟨w1, out, w2, out', m1, m2, hacc, hall⟩ := two_journals env hord o w w' accs _ _ text text' path h h' hf0 hf hr hr' hfuel c args gs
    hc ha hj hn hs hs' hd hd' hslash
  refine ⟨w1, out, w2, out', m1, m2, hacc, fun p hp hne => ?_⟩
  obtain ⟨r, hr1, r', hr2, k⟩ := hall p hp hne
  refine ⟨r, hr1, r', hr2, ?_⟩
  have hh : ∀ x, heldOf p.1 x (es ++ b :: b' :: fs) = heldOf p.1 x (es ++ fs) := fun x => by
    rw [held_insert, held_insert, taken_list hb, sum_map_neg]; ring
  have hw : ∀ s, writtenSum p.1 s ((es ++ b :: b' :: fs).map BEntry.plain) = writtenSum p.1 s ((es ++ fs).map BEntry.plain) := fun s => by
    rw [written_insert, written_insert, idle_lines hb.only.1, idle_lines hb.only.2]
    simp
  have hav : ∀ s, availableOf p s (es ++ b :: b' :: fs) = availableOf p s (es ++ fs) := fun s => by
    unfold availableOf
    rw [hw]
    simp only [hh]
  simpa only [hh, hav, sub_self] using k

/-! ### The negation, and a concrete case -/

def exAsideEntry : BEntry where
  date := s%"2024/06/13"
  mark := s%"*"
  title := s%"aside"
  day := ⟨2024, 6, 13, by decide⟩
  lines := [.move ⟨s%" ", s%" ", s%"bank", s%" ", s%"food", s%" ", s%"$8", (8, some s%"$")⟩]

def exBackEntry : BEntry where
  date := s%"2024/06/14"
  mark := s%"*"
  title := s%"back"
  day := ⟨2024, 6, 14, by decide⟩
  lines := [.move ⟨s%" ", s%" ", s%"bank", s%" ", s%"food", s%" ", s%"$-8", (-8, some s%"$")⟩]

def exPutBackText : Str := exUnsavedText ++ s%"\n2024/06/13 * aside\n envelope bank food $8\n2024/06/14 * back\n envelope bank food $-8"

/-- C155. Setting money aside and taking it back moves money: before, there are $ 18.25 now and nothing is saved; after $ 8 are set
aside and taken back, there are $ 10.25 now and $ 8 are saved for the next time. -/
theorem C155_taking_back_moves_money :
    (∃ out, (mainProgram F64 (stdEnv june15) exOutside [s%"envelopes", s%"-f", s%"j", s%"-n"]
        (disk [("j", String.ofList exUnsavedText)])).2 = .ok out ∧
      (readEnvelopes out).map (fun r => r.envelopes.map fun e => (e.1, saidNow (some s%"$") e, saidNext (some s%"$") e)) =
        [[(s%"food", 73 / 4, 0)]]) ∧
    ∃ out, (mainProgram F64 (stdEnv june15) exOutside [s%"envelopes", s%"-f", s%"j", s%"-n"]
        (disk [("j", String.ofList exPutBackText)])).2 = .ok out ∧
      (readEnvelopes out).map (fun r => r.envelopes.map fun e => (e.1, saidNow (some s%"$") e, saidNext (some s%"$") e)) =
        [[(s%"food", 41 / 4, 8)]] := by
  constructor <;> decide +kernel

theorem exPutBackText_ok : EnvelopeJournal (stdEnv june15) exGroceriesAccounts ([exSalaryIn, exShopping] ++ exAsideEntry :: exBackEntry :: [])
    exPutBackText := by
  refine ⟨.of (by decide +kernel), exGroceriesText_ok.once, exGroceriesText_ok.names, exGroceriesText_ok.envelopes,
    exGroceriesText_ok.distinct, ?_⟩
  have hd : ValidSymbol '.' s%"$" := by decide
  have a4 : WrittenAmount s%"$8" 8 (some s%"$") :=
    ⟨s%"8", false, 8, 0, ⟨s%"8", [], by decide, by decide, by decide, by decide, by decide, by decide⟩,
      by norm_num, Or.inr ⟨_, rfl, hd, by decide⟩⟩
  have a5 : WrittenAmount s%"$-8" (-8) (some s%"$") :=
    ⟨s%"-8", true, 8, 0, ⟨s%"8", [], by decide, by decide, by decide, by decide, by decide, by decide⟩,
      by norm_num, Or.inr ⟨_, rfl, hd, by decide⟩⟩
  intro e he
  simp only [List.mem_append, List.mem_cons, List.not_mem_nil, or_false] at he
  rcases he with (rfl | rfl) | rfl | rfl
  · exact exGroceriesText_ok.entries _ (by simp)
  · exact exGroceriesText_ok.entries _ (by simp)
  · refine ⟨⟨by decide +kernel, by decide, by decide, by decide +kernel, (fun l hl => nomatch hl), by decide, fun ⟨l, hl, _⟩ => nomatch hl⟩,
      ?_, fun _ => (fun l hl => nomatch hl)⟩
    intro m hm
    simp only [exAsideEntry, BEntry.moves, List.filterMap_cons, List.filterMap_nil, List.mem_cons, List.not_mem_nil, or_false] at hm
    subst hm
    exact ⟨by decide, by decide, by decide, by decide, by decide, by decide, a4⟩
  · refine ⟨⟨by decide +kernel, by decide, by decide, by decide +kernel, (fun l hl => nomatch hl), by decide, fun ⟨l, hl, _⟩ => nomatch hl⟩,
      ?_, fun _ => (fun l hl => nomatch hl)⟩
    intro m hm
    simp only [exBackEntry, BEntry.moves, List.filterMap_cons, List.filterMap_nil, List.mem_cons, List.not_mem_nil, or_false] at hm
    subst hm
    exact ⟨by decide, by decide, by decide, by decide, by decide, by decide, a5⟩

theorem exTakenBack : exAsideEntry.TakenBack exBackEntry :=
  ⟨⟨rfl, rfl⟩, by decide, by decide +kernel, .cons ⟨rfl, rfl, rfl⟩ .nil⟩

/-- The journal meets the conditions of the exact rule. -/
example : ∃ w1 out w2 out', mainProgram F64 (stdEnv june15) exOutside [s%"envelopes", s%"-f", s%"j", s%"-n"]
      (disk [("j", String.ofList exUnsavedText)]) = (w1, .ok out) ∧
    mainProgram F64 (stdEnv june15) exOutside [s%"envelopes", s%"-f", s%"j", s%"-n"]
      (disk [("j", String.ofList exPutBackText)]) = (w2, .ok out') ∧
    ∃ r ∈ readEnvelopes out, ∃ r' ∈ readEnvelopes out', ∀ s, sumIn s r'.available = sumIn s r.available := by
  obtain ⟨w1, out, w2, out', h1, h2, _, h3⟩ := C155_exact_rule (stdEnv june15) (fun _ l => List.Perm.refl l) exOutside
    (disk [("j", String.ofList exUnsavedText)]) (disk [("j", String.ofList exPutBackText)]) exGroceriesAccounts [exSalaryIn, exShopping] []
    exAsideEntry exBackEntry exUnsavedText exPutBackText s%"j" exUnsavedText_ok exPutBackText_ok
    ⟨june15_inner, exGroceries_fits.schedule, by decide +kernel, by decide +kernel⟩ (by decide +kernel)
    (by decide +kernel) (by decide) s%"envelopes" [s%"-f", s%"j", s%"-n"] [.file s%"j", .noMove] rfl
    (.cons (.fileShort _) (.cons .noMoveShort .nil)) rfl (by simp)
    (small_books_of_all (by decide +kernel) (by decide +kernel) (by decide +kernel) (by decide +kernel))
    (small_books_of_all (by decide +kernel) (by decide +kernel) (by decide +kernel) (by decide +kernel))
    (by unfold Decided; decide +kernel) (by unfold Decided; decide +kernel) exGroceries_noSlash exTakenBack (by
      intro p hp x hx d hd
      simp only [exGroceriesAccounts, List.mem_cons, List.not_mem_nil, or_false] at hp
      rcases hp with rfl | rfl | rfl
      · simp only [List.mem_cons, List.not_mem_nil, or_false] at hx
        subst hx
        have e : exGroceries.2.1.lastDue (stdEnv june15).today = .ok (some ⟨2024, 6, 10, by decide⟩) := by decide +kernel
        rw [e] at hd
        cases hd
        decide
      · cases hx
      · cases hx)
  obtain ⟨r, hr, r', hr', _, h4⟩ := h3 (s%"bank", [exGroceries]) (by simp [exGroceriesAccounts]) (by simp)
  exact ⟨w1, out, w2, out', h1, h2, r, hr, r', hr', h4⟩

end Silverfox
