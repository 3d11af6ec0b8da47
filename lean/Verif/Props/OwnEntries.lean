import Verif.Props.NowAndNext

/-
C154: what the envelope report says of an account depends on the entries that concern the account, and on nothing else.
-/

namespace Silverfox

set_option linter.unusedSectionVars false

/-! ### Specification -/

/-- Specification: the entry has a line for the account, or one that names an envelope of it. -/
def BEntry.Concerns (k : Str) (b : BEntry) : Prop :=
  (∃ l ∈ b.plain.lines, l.account = k) ∨ ∃ m ∈ b.moves, m.account = k

instance decConcerns (k : Str) (b : BEntry) : Decidable (b.Concerns k) := by
  unfold BEntry.Concerns; infer_instance

/-- The entries that concern an account. -/
def concerning (k : Str) (es : List BEntry) : List BEntry := es.filter fun b => decide (b.Concerns k)

/-! ### Sums -/

theorem flatMap_filter {α : Type} (f : BEntry → List α) (k : Str) (es : List BEntry) (h : ∀ b ∈ es, ¬ b.Concerns k → f b = []) :
    es.flatMap f = (concerning k es).flatMap f := by
  unfold concerning
  induction es with
  | nil => rfl
  | cons b es ih =>
    have ih := ih fun y hy => h y (by simp [hy])
    by_cases e : b.Concerns k
    · rw [List.filter_cons_of_pos (by simpa using e), List.flatMap_cons, List.flatMap_cons, ih]
    · rw [List.filter_cons_of_neg (by simpa using e), List.flatMap_cons, h b (by simp) e, List.nil_append, ih]

theorem flatMap_same {α : Type} (f : BEntry → List α) (k : Str) {es es' : List BEntry} (h : ∀ b, ¬ b.Concerns k → f b = [])
    (hp : (concerning k es).Perm (concerning k es')) : (es.flatMap f).Perm (es'.flatMap f) := by
  rw [flatMap_filter f k es fun b _ => h b, flatMap_filter f k es' fun b _ => h b]
  exact hp.flatMap_right f

theorem movesIn_idle {k : Str} {b : BEntry} (h : ¬ b.Concerns k) (x : MeantDecl Rat) : b.movesIn k x = [] := by
  unfold BEntry.Concerns at h
  unfold BEntry.movesIn
  split
  · rw [List.filter_eq_nil_iff.2]
    · rfl
    · intro m hm hc
      simp only [decide_eq_true_eq] at hc
      exact h (Or.inr ⟨m, hm, hc.1⟩)
  · rw [if_neg]
    rintro ⟨hl, _⟩
    exact h (Or.inl hl)

theorem moves_idle {k : Str} {b : BEntry} (h : ¬ b.Concerns k) : b.plain.moves k = [] := by
  unfold BEntry.Concerns at h
  unfold PEntry.moves
  rw [List.filterMap_eq_nil_iff]
  intro l hl
  rw [if_neg fun e => h (Or.inl ⟨l, hl, e⟩)]

theorem now_same {k : Str} {es es' : List BEntry} (hp : (concerning k es).Perm (concerning k es')) (last : Option Date)
    (x : MeantDecl Rat) : nowOf last k x es = nowOf last k x es' :=
  (flatMap_same _ k (fun _ hb => by rw [movesIn_idle hb]; rfl) hp).sum_eq

theorem held_same {k : Str} {es es' : List BEntry} (hp : (concerning k es).Perm (concerning k es')) (x : MeantDecl Rat) :
    heldOf k x es = heldOf k x es' :=
  (flatMap_same _ k (fun _ hb => movesIn_idle hb x) hp).sum_eq

theorem written_same {k : Str} {es es' : List BEntry} (hp : (concerning k es).Perm (concerning k es')) (s : Option Str) :
    writtenSum k s (es.map BEntry.plain) = writtenSum k s (es'.map BEntry.plain) := by
  unfold writtenSum
  rw [List.flatMap_map, List.flatMap_map]
  exact ((flatMap_same _ k (fun _ hb => moves_idle hb) hp).map _).sum_eq

/-- C154. With doubles, as the program has them: two journals (as in C142) may differ as they like in the accounts they declare
besides, in the entries that do not concern an account, and in the order of those that do: if they declare the account with the
same envelopes, and have the same entries that concern it, their envelope reports say the same of it: for each envelope what there
is now and what is saved for the next time, and what is available in every currency. -/
theorem C154_own_entries (env : Env) (hord : FairOrder env.ord) (o : Outside) (w w' : World)
    (accs accs' : List DeclAccount) (es es' : List BEntry) (text text' path : Str)
    (h : EnvelopeJournal env accs es text) (h' : EnvelopeJournal env accs' es' text')
    (hf : EnvelopesFit env.today accs es) (hf' : EnvelopesFit env.today accs' es') (hr : w.read path = some text)
    (hr' : w'.read path = some text') (hfuel : o.fuel ≠ 0) (c : Str) (args : List Str) (gs : List Flag)
    (hc : c.head? = some 'e') (ha : Spelled gs args) (hj : journalFor o gs = some path) (hn : Flag.noMove ∈ gs)
    (hs : SmallBooks accs es) (hs' : SmallBooks accs' es') (hd : Decided accs es) (hd' : Decided accs' es')
    (hslash : ∀ p ∈ accs, ∀ x ∈ p.2, ∀ y, x.target.sym = some y → '/' ∉ y)
    (hslash' : ∀ p ∈ accs', ∀ x ∈ p.2, ∀ y, x.target.sym = some y → '/' ∉ y) :
    ∃ w1 out w2 out', mainProgram F64 env o (c :: args) w = (w1, .ok out) ∧
      mainProgram F64 env o (c :: args) w' = (w2, .ok out') ∧
      ∀ p ∈ accs, p ∈ accs' → p.2 ≠ [] → (concerning p.1 es).Perm (concerning p.1 es') →
        ∃ r ∈ readEnvelopes out, ∃ r' ∈ readEnvelopes out', r.account = p.1 ∧ SaysSame r r' := by
  obtain ⟨w1, out, m1, _, s1, shown, p1, q1⟩ := C142_all_the_money_is_there env hord o w accs _ text path h hf hr hfuel c args gs hc ha hj
    hn hs hd hslash
  obtain ⟨w2, out', m2, _, s2, shown', p2, q2⟩ := C142_all_the_money_is_there env hord o w' accs' _ text' path h' hf' hr' hfuel c args gs
    hc ha hj hn hs' hd' hslash'
  refine ⟨w1, out, w2, out', m1, m2, fun p hp hp' hne hperm => ?_⟩
  have hm : p ∈ accs.filter fun p => p.2 ≠ [] := by simp [hp, hne]
  have hm' : p ∈ accs'.filter fun p => p.2 ≠ [] := by simp [hp', hne]
  obtain ⟨r, hr1, k⟩ := forall₂_mem_left q1 (p1.mem_iff.2 hm)
  obtain ⟨r', hr2, k'⟩ := forall₂_mem_left q2 (p2.mem_iff.2 hm')
  refine ⟨r, hr1, r', hr2, k.account, by rw [k.account, k'.account], by rw [k.envelopes, k'.envelopes],
    same_figures k.each k'.each (fun x _ last _ => (now_same hperm last x).symm) (fun x _ => (held_same hperm x).symm), fun s => ?_⟩
  rw [k.available, k'.available]
  unfold availableOf
  rw [written_same hperm]
  congr 2
  exact List.map_congr_left fun x _ => (held_same hperm x).symm

/-! ### A concrete case -/

/-- An entry that does not concern the bank. -/
def exElsewhere : BEntry where
  date := s%"2024/06/02"
  mark := s%"*"
  title := s%"elsewhere"
  day := ⟨2024, 6, 2, by decide⟩
  lines := [.posting ⟨s%" ", s%"shop", s%" ", s%"$5", some (5, some s%"$")⟩,
    .posting ⟨s%" ", s%"pay", s%" ", s%"$-5", some (-5, some s%"$")⟩]

/-- The journal of C121 with its entries in another order, and one more. -/
def exElsewhereText : Str := s%"account bank\n  expense food due every 10th\n    amount $40\n    for shop\naccount shop\naccount pay\n\n2024/06/12 * shopping\n shop 12.25$\n bank\n2024/06/13 * save\n bank $5\n pay $-5\n envelope bank food $8\n2024/06/02 * elsewhere\n shop $5\n pay $-5\n2024/06/01 * salary\n bank $100\n pay -100 $\n envelope bank food $30.50"

theorem exElsewhereText_ok : EnvelopeJournal (stdEnv june15) exGroceriesAccounts [exShopping, exSaving, exElsewhere, exSalaryIn]
    exElsewhereText := by
  refine ⟨.of (by decide +kernel), exGroceriesText_ok.once, exGroceriesText_ok.names, exGroceriesText_ok.envelopes,
    exGroceriesText_ok.distinct, ?_⟩
  have hd : ValidSymbol '.' s%"$" := by decide
  have a4 : WrittenAmount s%"$5" 5 (some s%"$") :=
    ⟨s%"5", false, 5, 0, ⟨s%"5", [], by decide, by decide, by decide, by decide, by decide, by decide⟩,
      by norm_num, Or.inr ⟨_, rfl, hd, by decide⟩⟩
  have a5 : WrittenAmount s%"$-5" (-5) (some s%"$") :=
    ⟨s%"-5", true, 5, 0, ⟨s%"5", [], by decide, by decide, by decide, by decide, by decide, by decide⟩,
      by norm_num, Or.inr ⟨_, rfl, hd, by decide⟩⟩
  intro e he
  simp only [List.mem_cons, List.not_mem_nil, or_false] at he
  rcases he with rfl | rfl | rfl | rfl
  · exact exGroceriesText_ok.entries _ (by simp)
  · exact exGroceriesText_ok.entries _ (by simp)
  · refine ⟨⟨by decide +kernel, by decide, by decide, by decide +kernel, ?_, by decide, ?_⟩, (fun m hm => nomatch hm), fun h => absurd rfl h⟩
    · intro l hl
      simp only [exElsewhere, BEntry.plain, List.filterMap_cons, List.filterMap_nil, List.mem_cons, List.not_mem_nil,
        or_false] at hl
      rcases hl with rfl | rfl
      · refine ⟨by decide, by decide, by decide, by decide, by decide, by decide +kernel, by simp, ?_⟩
        intro q s h; cases h; exact ⟨by decide, by decide +kernel, a4⟩
      · refine ⟨by decide, by decide, by decide, by decide, by decide, by decide +kernel, by simp, ?_⟩
        intro q s h; cases h; exact ⟨by decide, by decide +kernel, a5⟩
    · rintro ⟨l, hl, hv⟩
      simp only [exElsewhere, BEntry.plain, List.filterMap_cons, List.filterMap_nil, List.mem_cons, List.not_mem_nil,
        or_false] at hl
      rcases hl with rfl | rfl <;> cases hv
  · exact exGroceriesText_ok.entries _ (by simp)

/-- The bank has the same entries in both. -/
example : ∃ w1 out w2 out', mainProgram F64 (stdEnv june15) exOutside [s%"envelopes", s%"-f", s%"j", s%"-n"]
      (disk [("j", String.ofList exGroceriesText)]) = (w1, .ok out) ∧
    mainProgram F64 (stdEnv june15) exOutside [s%"envelopes", s%"-f", s%"j", s%"-n"]
      (disk [("j", String.ofList exElsewhereText)]) = (w2, .ok out') ∧
    ∃ r ∈ readEnvelopes out, ∃ r' ∈ readEnvelopes out', r.account = s%"bank" ∧ SaysSame r r' := by
  obtain ⟨w1, out, w2, out', h1, h2, h3⟩ := C154_own_entries (stdEnv june15) (fun _ l => List.Perm.refl l) exOutside
    (disk [("j", String.ofList exGroceriesText)]) (disk [("j", String.ofList exElsewhereText)]) exGroceriesAccounts exGroceriesAccounts
    [exSalaryIn, exShopping, exSaving] [exShopping, exSaving, exElsewhere, exSalaryIn]
    exGroceriesText exElsewhereText s%"j" exGroceriesText_ok exElsewhereText_ok exGroceries_fits
    ⟨june15_inner, exGroceries_fits.schedule, by decide +kernel, by decide +kernel⟩ (by decide +kernel)
    (by decide +kernel) (by decide) s%"envelopes" [s%"-f", s%"j", s%"-n"] [.file s%"j", .noMove] rfl
    (.cons (.fileShort _) (.cons .noMoveShort .nil)) rfl (by simp)
    (small_books_of_all (by decide +kernel) (by decide +kernel) (by decide +kernel) (by decide +kernel))
    (small_books_of_all (by decide +kernel) (by decide +kernel) (by decide +kernel) (by decide +kernel))
    (by unfold Decided; decide +kernel) (by unfold Decided; decide +kernel) exGroceries_noSlash exGroceries_noSlash
  refine ⟨w1, out, w2, out', h1, h2, h3 (s%"bank", [exGroceries]) (by simp [exGroceriesAccounts]) (by simp [exGroceriesAccounts]) (by simp) ?_⟩
  have e1 : concerning s%"bank" [exSalaryIn, exShopping, exSaving] = [exSalaryIn] ++ [exShopping, exSaving] := rfl
  have e2 : concerning s%"bank" [exShopping, exSaving, exElsewhere, exSalaryIn] = [exShopping, exSaving] ++ [exSalaryIn] := rfl
  rw [e1, e2]
  exact List.perm_append_comm

end Silverfox
