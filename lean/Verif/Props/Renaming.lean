import Verif.Props.NowAndNext

/-
C156: the names of accounts and envelopes mean nothing.
-/

namespace Silverfox

set_option linter.unusedSectionVars false

/-! ### Specification -/

/-- Specification: an envelope is declared under another name, for the accounts under their other names. -/
structure EnvelopeRenamed (ρ σ : Str → Str) (x x' : MeantDecl Rat) : Prop where
  name : x'.1.name = σ x.1.name
  kind : x'.1.kind = x.1.kind
  schedule : x'.2.1 = x.2.1
  fors : x'.fors = x.fors.map ρ
  currency : x'.target.sym = x.target.sym

/-- Specification: an entry is written with the other names: on the same day, with the same amounts. -/
structure BEntry.Renamed (ρ σ : Str → Str) (b b' : BEntry) : Prop where
  day : b'.day = b.day
  lines : List.Forall₂ (fun l l' => l'.account = ρ l.account ∧ l'.value = l.value) b.plain.lines b'.plain.lines
  moves : List.Forall₂ (fun m m' => m'.account = ρ m.account ∧ m'.envelope = σ m.envelope ∧ m'.value = m.value) b.moves b'.moves

/-- Specification: the same is said under other names. -/
structure SaysRenamed (ρ σ : Str → Str) (r r' : AccountSays) : Prop where
  account : r'.account = ρ r.account
  names : r'.envelopes.map Prod.fst = (r.envelopes.map Prod.fst).map σ
  figures : ∀ q ∈ r.envelopes.zip r'.envelopes, ∀ s, sumIn s [q.2.2.1] = sumIn s [q.1.2.1] ∧ sumIn s [q.2.2.2] = sumIn s [q.1.2.2]
  available : ∀ s, sumIn s r'.available = sumIn s r.available

/-! ### What the entries move -/

variable {ρ σ : Str → Str}

theorem renamed_given {b b' : BEntry} (h : b.Renamed ρ σ b') : b'.plain.given = b.plain.given := by
  unfold PEntry.given
  have := h.lines
  generalize b.plain.lines = ls at this
  generalize b'.plain.lines = ls' at this
  induction this with
  | nil => rfl
  | @cons l l' ls ls' e _ ih => rw [List.filterMap_cons, List.filterMap_cons, ih, e.2]

theorem renamed_worth {b b' : BEntry} (h : b.Renamed ρ σ b') {l l' : PLine} (e : l'.value = l.value) :
    b'.plain.worth l' = b.plain.worth l := by
  unfold PEntry.worth PEntry.rest
  rw [renamed_given h, e]

theorem renamed_picked {b b' : BEntry} (h : b.Renamed ρ σ b') (P P' : Str → Prop) [DecidablePred P] [DecidablePred P']
    (hP : ∀ n, P' (ρ n) ↔ P n) :
    (b'.plain.lines.filterMap fun l => if P' l.account then b'.plain.worth l else none) =
      b.plain.lines.filterMap fun l => if P l.account then b.plain.worth l else none := by
  have hw : ∀ {l l' : PLine}, l'.value = l.value → b'.plain.worth l' = b.plain.worth l := renamed_worth h
  have := h.lines
  generalize b'.plain.worth = w' at hw
  generalize b.plain.worth = w at hw
  generalize b.plain.lines = ls at this
  generalize b'.plain.lines = ls' at this
  induction this with
  | nil => rfl
  | @cons l l' ls ls' e _ ih =>
    have : (if P' l'.account then w' l' else none) = if P l.account then w l else none := by
      rw [e.1, hw e.2]
      simp only [hP]
    rw [List.filterMap_cons, List.filterMap_cons, ih, this]

theorem renamed_moves (hρ : ρ.Injective) {b b' : BEntry} (h : b.Renamed ρ σ b') (k : Str) :
    b'.plain.moves (ρ k) = b.plain.moves k :=
  renamed_picked h (fun n => n = k) (fun n => n = ρ k) fun _ => hρ.eq_iff

theorem renamed_gain {b b' : BEntry} (h : b.Renamed ρ σ b') (f f' : Str → Bool) (hf : ∀ n, f' (ρ n) = f n) :
    b'.plain.gain f' = b.plain.gain f := by
  unfold PEntry.gain
  rw [renamed_picked h (fun n => f n = true) (fun n => f' n = true) fun n => by rw [hf]]

theorem renamed_has {b b' : BEntry} (h : b.Renamed ρ σ b') (P P' : Str → Prop) (hP : ∀ n, P' (ρ n) ↔ P n) :
    (∃ l ∈ b'.plain.lines, P' l.account) ↔ ∃ l ∈ b.plain.lines, P l.account := by
  have := h.lines
  generalize b.plain.lines = ls at this
  generalize b'.plain.lines = ls' at this
  induction this with
  | nil => simp
  | @cons l l' ls ls' e _ ih => simp only [List.mem_cons, exists_eq_or_imp, ih, e.1, hP]

theorem renamed_movesIn (hρ : ρ.Injective) (hσ : σ.Injective) {b b' : BEntry} (h : b.Renamed ρ σ b') {x x' : MeantDecl Rat}
    (hx : EnvelopeRenamed ρ σ x x') (k : Str) : b'.movesIn (ρ k) x' = b.movesIn k x := by
  have ht : b'.Touches (ρ k) x' ↔ b.Touches k x := by
    unfold BEntry.Touches
    rw [renamed_has h (fun n => n = k) (fun n => n = ρ k) fun _ => hρ.eq_iff,
      renamed_has h (fun n => n ≠ k ∧ n ∈ x.fors) (fun n => n ≠ ρ k ∧ n ∈ x'.fors) fun n => by
        rw [hx.fors, List.mem_map_of_injective hρ, Ne, Ne, hρ.eq_iff]]
  have ha : b'.plain.automatic (ρ k) x'.fors = b.plain.automatic k x.fors := by
    have hc : ∀ n, x'.fors.contains (ρ n) = x.fors.contains n := fun n => by
      rw [Bool.eq_iff_iff, List.contains_iff_mem, List.contains_iff_mem, hx.fors, List.mem_map_of_injective hρ]
    have hk : ∀ n, (ρ n == ρ k) = (n == k) := fun n => by
      rw [Bool.eq_iff_iff, beq_iff_eq, beq_iff_eq, hρ.eq_iff]
    unfold PEntry.automatic
    rw [renamed_gain h (fun n => n == k) (fun n => n == ρ k) hk,
      renamed_gain h (fun n => n != k && x.fors.contains n) (fun n => n != ρ k && x'.fors.contains n) fun n => by
        show (!(ρ n == ρ k) && _) = (!(n == k) && _)
        rw [hk, hc]]
  have hm : b'.moves = [] ↔ b.moves = [] := by
    have := h.moves
    constructor
    · intro e; rw [e] at this; cases hb : b.moves with
      | nil => rfl
      | cons => rw [hb] at this; cases this
    · intro e; rw [e] at this; cases hb : b'.moves with
      | nil => rfl
      | cons => rw [hb] at this; cases this
  have hl : ((b'.moves.filter fun m => decide (m.account = ρ k ∧ m.envelope = x'.1.name)).map fun m => m.value.1) =
      (b.moves.filter fun m => decide (m.account = k ∧ m.envelope = x.1.name)).map fun m => m.value.1 := by
    have := h.moves
    generalize b.moves = ms at this
    generalize b'.moves = ms' at this
    induction this with
    | nil => rfl
    | @cons m m' ms ms' e _ ih =>
      obtain ⟨e1, e2, e3⟩ := e
      have hi : (m'.account = ρ k ∧ m'.envelope = x'.1.name) ↔ (m.account = k ∧ m.envelope = x.1.name) := by
        rw [e1, e2, hx.name, hρ.eq_iff, hσ.eq_iff]
      by_cases e : m.account = k ∧ m.envelope = x.1.name
      · rw [List.filter_cons_of_pos (a := m) (by simpa using e), List.filter_cons_of_pos (a := m') (by simpa using hi.2 e),
          List.map_cons, List.map_cons, ih, e3]
      · rw [List.filter_cons_of_neg (a := m) (by simpa using e),
          List.filter_cons_of_neg (a := m') (by simpa using fun h1 h2 => e (hi.1 ⟨h1, h2⟩)), ih]
  unfold BEntry.movesIn
  rw [hl, ha]
  simp only [ne_eq, hm, ht]

theorem flatMap_renamed {α : Type} {es es' : List BEntry} (h : List.Forall₂ (BEntry.Renamed ρ σ) es es') (f f' : BEntry → List α)
    (hf : ∀ b b', b.Renamed ρ σ b' → f' b' = f b) : es'.flatMap f' = es.flatMap f := by
  induction h with
  | nil => rfl
  | cons e _ ih => rw [List.flatMap_cons, List.flatMap_cons, ih, hf _ _ e]

theorem now_renamed (hρ : ρ.Injective) (hσ : σ.Injective) {es es' : List BEntry} (h : List.Forall₂ (BEntry.Renamed ρ σ) es es')
    {x x' : MeantDecl Rat} (hx : EnvelopeRenamed ρ σ x x') (last : Option Date) (k : Str) :
    nowOf last (ρ k) x' es' = nowOf last k x es := by
  unfold nowOf
  rw [flatMap_renamed h _ _ fun b b' hb => by rw [renamed_movesIn hρ hσ hb hx, hb.day]]

theorem next_renamed (hρ : ρ.Injective) (hσ : σ.Injective) {es es' : List BEntry} (h : List.Forall₂ (BEntry.Renamed ρ σ) es es')
    {x x' : MeantDecl Rat} (hx : EnvelopeRenamed ρ σ x x') (last : Option Date) (k : Str) :
    nextOf last (ρ k) x' es' = nextOf last k x es := by
  unfold nextOf
  rw [flatMap_renamed h _ _ fun b b' hb => by rw [renamed_movesIn hρ hσ hb hx, hb.day]]

theorem held_renamed (hρ : ρ.Injective) (hσ : σ.Injective) {es es' : List BEntry} (h : List.Forall₂ (BEntry.Renamed ρ σ) es es')
    {x x' : MeantDecl Rat} (hx : EnvelopeRenamed ρ σ x x') (k : Str) : heldOf (ρ k) x' es' = heldOf k x es := by
  unfold heldOf
  rw [flatMap_renamed h _ _ fun b b' hb => renamed_movesIn hρ hσ hb hx k]

theorem written_renamed (hρ : ρ.Injective) {es es' : List BEntry} (h : List.Forall₂ (BEntry.Renamed ρ σ) es es') (k : Str)
    (s : Option Str) : writtenSum (ρ k) s (es'.map BEntry.plain) = writtenSum k s (es.map BEntry.plain) := by
  unfold writtenSum
  rw [List.flatMap_map, List.flatMap_map, flatMap_renamed h _ _ fun b b' hb => renamed_moves hρ hb k]

theorem ofKind_renamed {xs xs' : List (MeantDecl Rat)} (h : List.Forall₂ (EnvelopeRenamed ρ σ) xs xs') (k : EnvelopeKind) :
    List.Forall₂ (EnvelopeRenamed ρ σ) (ofKind k xs) (ofKind k xs') := by
  unfold ofKind
  induction h with
  | nil => exact .nil
  | @cons x x' xs xs' e _ ih =>
    by_cases hk : x.1.kind = k
    · rw [List.filter_cons_of_pos (a := x) (by simpa using hk), List.filter_cons_of_pos (a := x') (by rw [e.kind]; simpa using hk)]
      exact .cons e ih
    · rw [List.filter_cons_of_neg (a := x) (by simpa using hk), List.filter_cons_of_neg (a := x') (by rw [e.kind]; simpa using hk)]
      exact ih

theorem figures_renamed {today : Date} (hρ : ρ.Injective) (hσ : σ.Injective) {es es' : List BEntry}
    (h : List.Forall₂ (BEntry.Renamed ρ σ) es es') {k : Str} {xs xs' : List (MeantDecl Rat)} {rs rs' : List (Str × Str × Str)}
    (hx : List.Forall₂ (EnvelopeRenamed ρ σ) xs xs') (h1 : List.Forall₂ (EnvelopeSays today k es) xs rs)
    (h2 : List.Forall₂ (EnvelopeSays today (ρ k) es') xs' rs') :
    rs'.map Prod.fst = (rs.map Prod.fst).map σ ∧
      ∀ q ∈ rs.zip rs', ∀ s, sumIn s [q.2.2.1] = sumIn s [q.1.2.1] ∧ sumIn s [q.2.2.2] = sumIn s [q.1.2.2] := by
  induction hx generalizing rs rs' with
  | nil => cases h1; cases h2; exact ⟨rfl, fun q hq => by cases hq⟩
  | @cons x x' xs xs' e _ ih =>
    cases h1 with
    | cons a1 a2 =>
      cases h2 with
      | cons c1 c2 =>
        obtain ⟨i1, i2⟩ := ih a2 c2
        obtain ⟨n1, a, b, ha, hb, _, last, hl, rfl, rfl⟩ := a1
        obtain ⟨n2, a', b', ha', hb', _, last', hl', rfl, rfl⟩ := c1
        rw [e.schedule, hl] at hl'
        cases hl'
        rw [now_renamed hρ hσ h e, e.currency] at ha'
        rw [now_renamed hρ hσ h e, next_renamed hρ hσ h e, e.currency] at hb'
        refine ⟨by rw [List.map_cons, List.map_cons, List.map_cons, i1, n1, n2, e.name], fun q hq => ?_⟩
        rw [List.zip_cons_cons, List.mem_cons] at hq
        rcases hq with rfl | hq
        · intro s
          rw [sumIn_cons _ _ _ ha, sumIn_cons _ _ _ ha', sumIn_cons _ _ _ hb, sumIn_cons _ _ _ hb']
          exact ⟨rfl, rfl⟩
        · exact i2 q hq

theorem available_renamed (hρ : ρ.Injective) (hσ : σ.Injective) {es es' : List BEntry} (h : List.Forall₂ (BEntry.Renamed ρ σ) es es')
    {k : Str} {xs xs' : List (MeantDecl Rat)} (hx : List.Forall₂ (EnvelopeRenamed ρ σ) xs xs') (s : Option Str) :
    availableOf (ρ k, xs') s es' = availableOf (k, xs) s es := by
  unfold availableOf
  rw [written_renamed hρ h]
  congr 2
  show ((xs'.filter fun x => x.target.sym = s).map fun x => heldOf (ρ k) x es') =
    (xs.filter fun x => x.target.sym = s).map fun x => heldOf k x es
  induction hx with
  | nil => rfl
  | @cons x x' xs xs' e _ ih =>
    by_cases hk : x.target.sym = s
    · rw [List.filter_cons_of_pos (a := x) (by simpa using hk), List.filter_cons_of_pos (a := x') (by rw [e.currency]; simpa using hk),
        List.map_cons, List.map_cons, ih, held_renamed hρ hσ h e]
    · rw [List.filter_cons_of_neg (a := x) (by simpa using hk), List.filter_cons_of_neg (a := x') (by rw [e.currency]; simpa using hk),
        ih]

/-- C156. With doubles, as the program has them: the names of accounts and envelopes mean nothing. If a journal (as in C142) is
written again with other names, distinct ones for distinct ones, the same days and the same amounts (however they are written), the
envelope report says of every account with envelopes, under its other name, what it says of it in the first journal: the same
envelopes in the same order under their other names, what there is now, what is saved for the next time, and what is available. -/
theorem C156_names_mean_nothing (env : Env) (hord : FairOrder env.ord) (o : Outside) (w w' : World)
    (accs accs' : List DeclAccount) (es es' : List BEntry) (text text' path : Str)
    (h : EnvelopeJournal env accs es text) (h' : EnvelopeJournal env accs' es' text')
    (hf : EnvelopesFit env.today accs es) (hf' : EnvelopesFit env.today accs' es') (hr : w.read path = some text)
    (hr' : w'.read path = some text') (hfuel : o.fuel ≠ 0) (c : Str) (args : List Str) (gs : List Flag)
    (hc : c.head? = some 'e') (ha : Spelled gs args) (hj : journalFor o gs = some path) (hn : Flag.noMove ∈ gs)
    (hs : SmallBooks accs es) (hs' : SmallBooks accs' es') (hd : Decided accs es) (hd' : Decided accs' es')
    (hslash : ∀ p ∈ accs, ∀ x ∈ p.2, ∀ y, x.target.sym = some y → '/' ∉ y)
    (hslash' : ∀ p ∈ accs', ∀ x ∈ p.2, ∀ y, x.target.sym = some y → '/' ∉ y)
    (ρ σ : Str → Str) (hρ : ρ.Injective) (hσ : σ.Injective) (hes : List.Forall₂ (BEntry.Renamed ρ σ) es es') :
    ∃ w1 out w2 out', mainProgram F64 env o (c :: args) w = (w1, .ok out) ∧
      mainProgram F64 env o (c :: args) w' = (w2, .ok out') ∧
      ∀ k xs xs', (k, xs) ∈ accs → (ρ k, xs') ∈ accs' → xs ≠ [] → List.Forall₂ (EnvelopeRenamed ρ σ) xs xs' →
        ∃ r ∈ readEnvelopes out, ∃ r' ∈ readEnvelopes out', r.account = k ∧ SaysRenamed ρ σ r r' := by
  obtain ⟨w1, out, m1, _, s1, shown, p1, q1⟩ := C142_all_the_money_is_there env hord o w accs _ text path h hf hr hfuel c args gs hc ha hj
    hn hs hd hslash
  obtain ⟨w2, out', m2, _, s2, shown', p2, q2⟩ := C142_all_the_money_is_there env hord o w' accs' _ text' path h' hf' hr' hfuel c args gs
    hc ha hj hn hs' hd' hslash'
  refine ⟨w1, out, w2, out', m1, m2, fun k xs xs' hp hp' hne hx => ?_⟩
  have hne' : xs' ≠ [] := by rintro rfl; cases hx; exact hne rfl
  have hm : (k, xs) ∈ accs.filter fun p => p.2 ≠ [] := by simp [hp, hne]
  have hm' : (ρ k, xs') ∈ accs'.filter fun p => p.2 ≠ [] := by simp [hp', hne']
  obtain ⟨r, hr1, z⟩ := forall₂_mem_left q1 (p1.mem_iff.2 hm)
  obtain ⟨r', hr2, z'⟩ := forall₂_mem_left q2 (p2.mem_iff.2 hm')
  obtain ⟨f1, f2⟩ := figures_renamed hρ hσ hes (List.rel_append (ofKind_renamed hx .expense) (ofKind_renamed hx .goal)) z.each z'.each
  exact ⟨r, hr1, r', hr2, z.account, by rw [z.account, z'.account], f1, f2, fun s => by
    rw [z.available, z'.available, available_renamed hρ hσ hes hx]⟩

theorem aside_renamed (hρ : ρ.Injective) {b b' : BEntry} (h : b.Renamed ρ σ b') (k : Str) : b'.aside (ρ k) = b.aside k := by
  unfold BEntry.aside
  have := h.moves
  generalize b.moves = ms at this
  generalize b'.moves = ms' at this
  induction this with
  | nil => rfl
  | @cons m m' ms ms' e _ ih =>
    obtain ⟨e1, _, e3⟩ := e
    have hi : m'.account = ρ k ↔ m.account = k := by rw [e1, hρ.eq_iff]
    by_cases e : m.account = k
    · rw [List.filter_cons_of_pos (a := m) (by simpa using e), List.filter_cons_of_pos (a := m') (by simpa using hi.2 e),
        List.map_cons, List.map_cons, ih, e3]
    · rw [List.filter_cons_of_neg (a := m) (by simpa using e), List.filter_cons_of_neg (a := m') (by simpa using fun h => e (hi.1 h)), ih]

theorem asideSum_renamed (hρ : ρ.Injective) {es es' : List BEntry} (h : List.Forall₂ (BEntry.Renamed ρ σ) es es') (k : Str)
    (s : Option Str) : asideSum (ρ k) s es' = asideSum k s es := by
  unfold asideSum
  rw [flatMap_renamed h _ _ fun b b' hb => aside_renamed hρ hb k]

theorem renamed_named {b b' : BEntry} (h : b.Renamed ρ σ b') (n : Str) :
    ((∃ l ∈ b'.plain.lines, l.account = n) ∨ ∃ m ∈ b'.moves, m.account = n) ↔
      ∃ k, n = ρ k ∧ ((∃ l ∈ b.plain.lines, l.account = k) ∨ ∃ m ∈ b.moves, m.account = k) := by
  constructor
  · rintro (⟨l', hl', rfl⟩ | ⟨m', hm', rfl⟩)
    · obtain ⟨l, hl, e⟩ := forall₂_mem_right h.lines hl'
      exact ⟨_, e.1, Or.inl ⟨l, hl, rfl⟩⟩
    · obtain ⟨m, hm, e⟩ := forall₂_mem_right h.moves hm'
      exact ⟨_, e.1, Or.inr ⟨m, hm, rfl⟩⟩
  · rintro ⟨_, rfl, ⟨l, hl, rfl⟩ | ⟨m, hm, rfl⟩⟩
    · obtain ⟨l', hl', e⟩ := forall₂_mem_left h.lines hl
      exact Or.inl ⟨l', hl', e.1⟩
    · obtain ⟨m', hm', e⟩ := forall₂_mem_left h.moves hm
      exact Or.inr ⟨m', hm', e.1⟩

/-- C156. The same of the balance report: it lists the accounts under their other names and no others, and for each of them the same
amount in every currency. -/
theorem C156_balances_too (env : Env) (hord : FairOrder env.ord) (o : Outside) (w w' : World)
    (accs accs' : List DeclAccount) (es es' : List BEntry) (text text' path : Str)
    (h : EnvelopeJournal env accs es text) (h' : EnvelopeJournal env accs' es' text')
    (hf : EnvelopesFit env.today accs es) (hf' : EnvelopesFit env.today accs' es') (hr : w.read path = some text)
    (hr' : w'.read path = some text') (hfuel : o.fuel ≠ 0) (c : Str) (args : List Str) (gs : List Flag)
    (hc : c.head? = some 'b') (ha : Spelled gs args) (hj : journalFor o gs = some path) (hn : Flag.noMove ∈ gs)
    (h8 : EightDecimals (es.map BEntry.counted)) (hseen : ∀ k, SeenBefore k (es.map BEntry.counted))
    (hsmall : ∀ k, Small k (es.map BEntry.counted))
    (h8' : EightDecimals (es'.map BEntry.counted)) (hseen' : ∀ k, SeenBefore k (es'.map BEntry.counted))
    (hsmall' : ∀ k, Small k (es'.map BEntry.counted))
    (ρ σ : Str → Str) (hρ : ρ.Injective) (hes : List.Forall₂ (BEntry.Renamed ρ σ) es es') :
    ∃ w1 out w2 out', mainProgram F64 env o (c :: args) w = (w1, .ok out) ∧
      mainProgram F64 env o (c :: args) w' = (w2, .ok out') ∧
      (∀ n, n ∈ (readReport out').map Prod.fst ↔ ∃ k ∈ (readReport out).map Prod.fst, n = ρ k) ∧
      ∀ k ts ts', (k, ts) ∈ readReport out → (ρ k, ts') ∈ readReport out' →
        ts'.length = ts.length ∧ ∀ s, sumIn s ts' = sumIn s ts := by
  obtain ⟨w1, out, m1, _, _, n1, q1⟩ := C137_exact_rule env hord o w accs es text path h hf hr hfuel c args gs hc ha hj hn h8 hseen hsmall
  obtain ⟨w2, out', m2, _, _, n2, q2⟩ := C137_exact_rule env hord o w' accs' es' text' path h' hf' hr' hfuel c args gs hc ha hj hn h8'
    hseen' hsmall'
  refine ⟨w1, out, w2, out', m1, m2, fun n => ?_, fun k ts ts' ht ht' => ?_⟩
  · rw [n2]
    constructor
    · rintro ⟨b', hb', hn⟩
      obtain ⟨b, hb, e⟩ := forall₂_mem_right hes hb'
      obtain ⟨k, rfl, hk⟩ := (renamed_named e n).1 hn
      exact ⟨k, (n1 k).2 ⟨b, hb, hk⟩, rfl⟩
    · rintro ⟨k, hk, rfl⟩
      obtain ⟨b, hb, hk⟩ := (n1 k).1 hk
      obtain ⟨b', hb', e⟩ := forall₂_mem_left hes hb
      exact ⟨b', hb', (renamed_named e _).2 ⟨k, rfl, hk⟩⟩
  · obtain ⟨cs, c1, c2, c3⟩ := q1 k ts ht
    obtain ⟨cs', c1', c2', c3'⟩ := q2 _ ts' ht'
    have hmem : ∀ s, s ∈ cs' ↔ s ∈ cs := by
      intro s
      rw [c2, c2']
      constructor
      · rintro ⟨b', hb', v, hv, rfl⟩
        obtain ⟨b, hb, e⟩ := forall₂_mem_right hes hb'
        rw [renamed_moves hρ e, aside_renamed hρ e] at hv
        exact ⟨b, hb, v, hv, rfl⟩
      · rintro ⟨b, hb, v, hv, rfl⟩
        obtain ⟨b', hb', e⟩ := forall₂_mem_left hes hb
        rw [← renamed_moves hρ e, ← aside_renamed hρ e] at hv
        exact ⟨b', hb', v, hv, rfl⟩
    have hlen : cs'.length = cs.length := ((List.perm_ext_iff_of_nodup c1' c1).2 hmem).length_eq
    refine ⟨by rw [c3'.length_eq, c3.length_eq, hlen], fun s => ?_⟩
    rw [sum_reported c1 (v := fun s => writtenSum k s (es.map BEntry.plain) + asideSum k s es) c3,
      sum_reported c1' (v := fun s => writtenSum (ρ k) s (es'.map BEntry.plain) + asideSum (ρ k) s es') c3']
    simp only [hmem, written_renamed hρ hes, asideSum_renamed hρ hes]

/-! ### A concrete case -/

/-- The journal of C121 with other names. -/
def exOtherNamesText : Str := s%"account my:bank\n  expense xfood due every 10th\n    amount $40\n    for my:shop\naccount my:shop\naccount my:pay\n\n2024/06/01 * salary\n my:bank $100\n my:pay -100 $\n envelope my:bank xfood $30.50\n2024/06/12 * shopping\n my:shop 12.25$\n my:bank\n2024/06/13 * save\n my:bank $5\n my:pay $-5\n envelope my:bank xfood $8"

def exOtherFood : MeantDecl Rat :=
  (⟨s%"  ", .expense, s%" ", s%"xfood", .due s%"every 10th", none,
    [(s%"    ", [], .amount s%"$40" ⟨40, some s%"$"⟩), (s%"    ", [], .forAccount s%"my:shop")]⟩, .monthly 10, none)

def exOtherAccounts : List DeclAccount := [(s%"my:bank", [exOtherFood]), (s%"my:shop", []), (s%"my:pay", [])]

def exOtherSalary : BEntry where
  date := s%"2024/06/01"
  mark := s%"*"
  title := s%"salary"
  day := ⟨2024, 6, 1, by decide⟩
  lines := [.posting ⟨s%" ", s%"my:bank", s%" ", s%"$100", some (100, some s%"$")⟩,
    .posting ⟨s%" ", s%"my:pay", s%" ", s%"-100 $", some (-100, some s%"$")⟩,
    .move ⟨s%" ", s%" ", s%"my:bank", s%" ", s%"xfood", s%" ", s%"$30.50", (61 / 2, some s%"$")⟩]

def exOtherShopping : BEntry where
  date := s%"2024/06/12"
  mark := s%"*"
  title := s%"shopping"
  day := ⟨2024, 6, 12, by decide⟩
  lines := [.posting ⟨s%" ", s%"my:shop", s%" ", s%"12.25$", some (49 / 4, some s%"$")⟩,
    .posting ⟨s%" ", s%"my:bank", [], [], none⟩]

def exOtherSaving : BEntry where
  date := s%"2024/06/13"
  mark := s%"*"
  title := s%"save"
  day := ⟨2024, 6, 13, by decide⟩
  lines := [.posting ⟨s%" ", s%"my:bank", s%" ", s%"$5", some (5, some s%"$")⟩,
    .posting ⟨s%" ", s%"my:pay", s%" ", s%"$-5", some (-5, some s%"$")⟩,
    .move ⟨s%" ", s%" ", s%"my:bank", s%" ", s%"xfood", s%" ", s%"$8", (8, some s%"$")⟩]

theorem exOtherFood_ok : DeclOk (stdEnv june15) exOtherFood := by
  have hd : ValidSymbol '.' s%"$" := by decide
  refine ⟨⟨by decide, by decide, ⟨by decide, by decide, by decide, by decide, by decide⟩, ?_, .none, ?_⟩,
    ⟨by decide, by decide⟩, ?_⟩
  · exact .due _ _ (.monthly s%"10th" 10 ⟨by decide, s%"th", by decide, by decide, by decide⟩) (by decide)
  · intro p hp
    simp only [exOtherFood, List.mem_cons, List.not_mem_nil, or_false] at hp
    rcases hp with rfl | rfl
    · exact ⟨by decide, by decide, by decide, by decide, by decide, by decide, ⟨_, _, rfl, by decide⟩,
        ⟨s%"$4", '0', rfl, by decide⟩, by
          show Amount.parse s%"$40" '.' = .ok (⟨40, some s%"$"⟩ : Amount Rat); decide +kernel⟩
    · exact ⟨by decide, by decide, by decide, by decide, by decide, by decide, ⟨_, _, rfl, by decide⟩,
        ⟨s%"my:sho", 'p', rfl, by decide⟩, by show isWord s%"my:shop"; decide⟩
  · intro p hp t a h
    simp only [exOtherFood, List.mem_cons, List.not_mem_nil, or_false] at hp
    rcases hp with rfl | rfl
    · cases h
      exact ⟨s%"40", false, 40, 0, ⟨s%"40", [], by decide, by decide, by decide, by decide, by decide, by decide⟩,
        by norm_num, Or.inr ⟨_, rfl, hd, by decide⟩⟩
    · cases h

/-- It is written well. -/
theorem exOtherNamesText_ok : EnvelopeJournal (stdEnv june15) exOtherAccounts [exOtherSalary, exOtherShopping, exOtherSaving] exOtherNamesText := by
  have hd : ValidSymbol '.' s%"$" := by decide
  have a1 : WrittenAmount s%"$100" 100 (some s%"$") :=
    ⟨s%"100", false, 100, 0, ⟨s%"100", [], by decide, by decide, by decide, by decide, by decide, by decide⟩,
      by norm_num, Or.inr ⟨_, rfl, hd, by decide⟩⟩
  have a2 : WrittenAmount s%"-100 $" (-100) (some s%"$") :=
    ⟨s%"-100", true, 100, 0, ⟨s%"100", [], by decide, by decide, by decide, by decide, by decide, by decide⟩,
      by norm_num, Or.inr ⟨_, rfl, hd, by decide⟩⟩
  have a3 : WrittenAmount s%"12.25$" (49 / 4) (some s%"$") :=
    ⟨s%"12.25", false, 1225, 2, ⟨s%"12", s%"25", by decide, by decide, by decide, by decide, by decide, by decide⟩,
      by norm_num, Or.inr ⟨_, rfl, hd, by decide⟩⟩
  have a4 : WrittenAmount s%"$5" 5 (some s%"$") :=
    ⟨s%"5", false, 5, 0, ⟨s%"5", [], by decide, by decide, by decide, by decide, by decide, by decide⟩,
      by norm_num, Or.inr ⟨_, rfl, hd, by decide⟩⟩
  have a5 : WrittenAmount s%"$-5" (-5) (some s%"$") :=
    ⟨s%"-5", true, 5, 0, ⟨s%"5", [], by decide, by decide, by decide, by decide, by decide, by decide⟩,
      by norm_num, Or.inr ⟨_, rfl, hd, by decide⟩⟩
  have a6 : WrittenAmount s%"$30.50" (61 / 2) (some s%"$") :=
    ⟨s%"30.50", false, 3050, 2, ⟨s%"30", s%"50", by decide, by decide, by decide, by decide, by decide, by decide⟩,
      by norm_num, Or.inr ⟨_, rfl, hd, by decide⟩⟩
  have a7 : WrittenAmount s%"$8" 8 (some s%"$") :=
    ⟨s%"8", false, 8, 0, ⟨s%"8", [], by decide, by decide, by decide, by decide, by decide, by decide⟩,
      by norm_num, Or.inr ⟨_, rfl, hd, by decide⟩⟩
  refine ⟨.of (by decide +kernel), by decide, by decide, ?_, ?_, ?_⟩
  · intro p hp x hx
    simp only [exOtherAccounts, List.mem_cons, List.not_mem_nil, or_false] at hp
    rcases hp with rfl | rfl | rfl
    · simp only [List.mem_cons, List.not_mem_nil, or_false] at hx
      rw [hx]; exact exOtherFood_ok
    · cases hx
    · cases hx
  · intro p hp k
    simp only [exOtherAccounts, List.mem_cons, List.not_mem_nil, or_false] at hp
    rcases hp with rfl | rfl | rfl <;> cases k <;> decide
  intro e he
  simp only [List.mem_cons, List.not_mem_nil, or_false] at he
  rcases he with rfl | rfl | rfl
  · refine ⟨⟨by decide +kernel, by decide, by decide, by decide +kernel, ?_, by decide, ?_⟩, ?_, ?_⟩
    · intro l hl
      simp only [exOtherSalary, BEntry.plain, List.filterMap_cons, List.filterMap_nil, List.mem_cons, List.not_mem_nil,
        or_false] at hl
      rcases hl with rfl | rfl
      · refine ⟨by decide, by decide, by decide, by decide, by decide, by decide +kernel, by simp, ?_⟩
        intro q s h; cases h; exact ⟨by decide, by decide +kernel, a1⟩
      · refine ⟨by decide, by decide, by decide, by decide, by decide, by decide +kernel, by simp, ?_⟩
        intro q s h; cases h; exact ⟨by decide, by decide +kernel, a2⟩
    · rintro ⟨l, hl, hv⟩
      simp only [exOtherSalary, BEntry.plain, List.filterMap_cons, List.filterMap_nil, List.mem_cons, List.not_mem_nil,
        or_false] at hl
      rcases hl with rfl | rfl <;> cases hv
    · intro m hm
      simp only [exOtherSalary, BEntry.moves, List.filterMap_cons, List.filterMap_nil, List.mem_cons, List.not_mem_nil,
        or_false] at hm
      subst hm
      exact ⟨by decide, by decide, by decide, by decide, by decide, by decide, a6⟩
    · intro _; decide
  · refine ⟨⟨by decide +kernel, by decide, by decide, by decide +kernel, ?_, by decide, ?_⟩, ?_, ?_⟩
    · intro l hl
      simp only [exOtherShopping, BEntry.plain, List.filterMap_cons, List.filterMap_nil, List.mem_cons, List.not_mem_nil,
        or_false] at hl
      rcases hl with rfl | rfl
      · refine ⟨by decide, by decide, by decide, by decide, by decide, by decide +kernel, by simp, ?_⟩
        intro q s h; cases h; exact ⟨by decide, by decide +kernel, a3⟩
      · refine ⟨by decide, by decide, by decide, by decide, by decide, by decide +kernel, by simp, ?_⟩
        intro q s h; cases h
    · intro _
      exact ⟨by decide, some s%"$", by decide⟩
    · intro m hm
      simp [exOtherShopping, BEntry.moves] at hm
    · intro h
      exact absurd rfl h
  · refine ⟨⟨by decide +kernel, by decide, by decide, by decide +kernel, ?_, by decide, ?_⟩, ?_, ?_⟩
    · intro l hl
      simp only [exOtherSaving, BEntry.plain, List.filterMap_cons, List.filterMap_nil, List.mem_cons, List.not_mem_nil,
        or_false] at hl
      rcases hl with rfl | rfl
      · refine ⟨by decide, by decide, by decide, by decide, by decide, by decide +kernel, by simp, ?_⟩
        intro q s h; cases h; exact ⟨by decide, by decide +kernel, a4⟩
      · refine ⟨by decide, by decide, by decide, by decide, by decide, by decide +kernel, by simp, ?_⟩
        intro q s h; cases h; exact ⟨by decide, by decide +kernel, a5⟩
    · rintro ⟨l, hl, hv⟩
      simp only [exOtherSaving, BEntry.plain, List.filterMap_cons, List.filterMap_nil, List.mem_cons, List.not_mem_nil,
        or_false] at hl
      rcases hl with rfl | rfl <;> cases hv
    · intro m hm
      simp only [exOtherSaving, BEntry.moves, List.filterMap_cons, List.filterMap_nil, List.mem_cons, List.not_mem_nil,
        or_false] at hm
      subst hm
      exact ⟨by decide, by decide, by decide, by decide, by decide, by decide, a7⟩
    · intro _; decide

theorem exOther_fits : EnvelopesFit june15 exOtherAccounts [exOtherSalary, exOtherShopping, exOtherSaving] := by
  refine ⟨june15_inner, ?_, by decide +kernel, by decide +kernel⟩
  intro p hp x hx
  simp only [exOtherAccounts, List.mem_cons, List.not_mem_nil, or_false] at hp
  rcases hp with rfl | rfl | rfl
  · simp only [List.mem_cons, List.not_mem_nil, or_false] at hx
    subst hx
    exact exGroceries_fits.schedule (s%"bank", [exGroceries]) (by simp [exGroceriesAccounts]) exGroceries (by simp)
  · cases hx
  · cases hx

theorem exOther_noSlash : ∀ p ∈ exOtherAccounts, ∀ x ∈ p.2, ∀ y, x.target.sym = some y → '/' ∉ y := by
  intro p hp x hx y hy
  simp only [exOtherAccounts, List.mem_cons, List.not_mem_nil, or_false] at hp
  rcases hp with rfl | rfl | rfl
  · simp only [List.mem_cons, List.not_mem_nil, or_false] at hx
    subst hx
    exact exGroceries_noSlash (s%"bank", [exGroceries]) (by simp [exGroceriesAccounts]) exGroceries (by simp) y hy
  · cases hx
  · cases hx

/-- The bank under its other name. -/
example : ∃ w1 out w2 out', mainProgram F64 (stdEnv june15) exOutside [s%"envelopes", s%"-f", s%"j", s%"-n"]
      (disk [("j", String.ofList exGroceriesText)]) = (w1, .ok out) ∧
    mainProgram F64 (stdEnv june15) exOutside [s%"envelopes", s%"-f", s%"j", s%"-n"]
      (disk [("j", String.ofList exOtherNamesText)]) = (w2, .ok out') ∧
    ∃ r ∈ readEnvelopes out, ∃ r' ∈ readEnvelopes out', r.account = s%"bank" ∧ SaysRenamed (s%"my:" ++ ·) (s%"x" ++ ·) r r' := by
  obtain ⟨w1, out, w2, out', h1, h2, h3⟩ := C156_names_mean_nothing (stdEnv june15) (fun _ l => List.Perm.refl l) exOutside
    (disk [("j", String.ofList exGroceriesText)]) (disk [("j", String.ofList exOtherNamesText)]) exGroceriesAccounts exOtherAccounts
    [exSalaryIn, exShopping, exSaving] [exOtherSalary, exOtherShopping, exOtherSaving]
    exGroceriesText exOtherNamesText s%"j" exGroceriesText_ok exOtherNamesText_ok exGroceries_fits exOther_fits (by decide +kernel)
    (by decide +kernel) (by decide) s%"envelopes" [s%"-f", s%"j", s%"-n"] [.file s%"j", .noMove] rfl
    (.cons (.fileShort _) (.cons .noMoveShort .nil)) rfl (by simp)
    (small_books_of_all (by decide +kernel) (by decide +kernel) (by decide +kernel) (by decide +kernel))
    (small_books_of_all (by decide +kernel) (by decide +kernel) (by decide +kernel) (by decide +kernel))
    (by unfold Decided; decide +kernel) (by unfold Decided; decide +kernel) exGroceries_noSlash exOther_noSlash
    (s%"my:" ++ ·) (s%"x" ++ ·) (fun _ _ h => List.append_cancel_left h) (fun _ _ h => List.append_cancel_left h)
    (.cons ⟨rfl, .cons ⟨rfl, rfl⟩ (.cons ⟨rfl, rfl⟩ .nil), .cons ⟨rfl, rfl, rfl⟩ .nil⟩
      (.cons ⟨rfl, .cons ⟨rfl, rfl⟩ (.cons ⟨rfl, rfl⟩ .nil), .nil⟩
        (.cons ⟨rfl, .cons ⟨rfl, rfl⟩ (.cons ⟨rfl, rfl⟩ .nil), .cons ⟨rfl, rfl, rfl⟩ .nil⟩ .nil)))
  exact ⟨w1, out, w2, out', h1, h2, h3 s%"bank" [exGroceries] [exOtherFood] (by simp [exGroceriesAccounts])
    (by simp [exOtherAccounts]) (by simp) (.cons ⟨rfl, rfl, rfl, rfl, rfl⟩ .nil)⟩

theorem exGroceries_eight : EightDecimals ([exSalaryIn, exShopping, exSaving].map BEntry.counted) ∧
    (∀ k, SeenBefore k ([exSalaryIn, exShopping, exSaving].map BEntry.counted)) ∧
    (∀ k, Small k ([exSalaryIn, exShopping, exSaving].map BEntry.counted)) := by
  refine ⟨?_, ?_, ?_⟩
  · intro e he v hv
    have hv : v = (100, some s%"$") ∨ v = (-100, some s%"$") ∨ v = (61 / 2, some s%"$") ∨ v = (8, some s%"$") ∨
        v = (5, some s%"$") ∨ v = (-5, some s%"$") ∨ v = (49 / 4, some s%"$") := by
      simp only [List.map_cons, List.map_nil, List.mem_cons, List.not_mem_nil, or_false] at he
      rcases he with rfl | rfl | rfl
      · simp [PEntry.given, BEntry.counted, BLine.counted, exSalaryIn] at hv
        grind
      · simp [PEntry.given, BEntry.counted, BLine.counted, exShopping] at hv
        grind
      · simp [PEntry.given, BEntry.counted, BLine.counted, exSaving] at hv
        grind
    rcases hv with rfl | rfl | rfl | rfl | rfl | rfl | rfl
    · exact ⟨10000000000, by norm_num⟩
    · exact ⟨-10000000000, by norm_num⟩
    · exact ⟨3050000000, by norm_num⟩
    · exact ⟨800000000, by norm_num⟩
    · exact ⟨500000000, by norm_num⟩
    · exact ⟨-500000000, by norm_num⟩
    · exact ⟨1225000000, by norm_num⟩
  · intro k e he ⟨l, hl, hk, hv⟩
    have h3 : ∀ e ∈ [exSalaryIn, exShopping, exSaving].map BEntry.counted, ∀ l ∈ e.lines, l.value = none →
        ∃ e' ∈ [exSalaryIn, exShopping, exSaving].map BEntry.counted, Date.lt e'.day e.day = true ∧ ∃ l' ∈ e'.lines, l'.account = l.account := by
      decide +kernel
    rw [← hk]
    exact h3 e he l hl hv
  · intro k
    apply small_of_all
    by_cases h1 : k = s%"bank"
    · subst h1; decide +kernel
    · by_cases h2 : k = s%"pay"
      · subst h2; decide +kernel
      · by_cases h3 : k = s%"shop"
        · subst h3; decide +kernel
        · have : ([exSalaryIn, exShopping, exSaving].map BEntry.counted).flatMap (PEntry.weighed k) = [] := by
            simp [PEntry.weighed, BEntry.counted, BLine.counted, exSalaryIn, exShopping, exSaving, Ne.symm h1, Ne.symm h2, Ne.symm h3]
          rw [this]; norm_num

theorem exOther_eight : EightDecimals ([exOtherSalary, exOtherShopping, exOtherSaving].map BEntry.counted) ∧
    (∀ k, SeenBefore k ([exOtherSalary, exOtherShopping, exOtherSaving].map BEntry.counted)) ∧
    (∀ k, Small k ([exOtherSalary, exOtherShopping, exOtherSaving].map BEntry.counted)) := by
  refine ⟨?_, ?_, ?_⟩
  · intro e he v hv
    have hv : v = (100, some s%"$") ∨ v = (-100, some s%"$") ∨ v = (61 / 2, some s%"$") ∨ v = (8, some s%"$") ∨
        v = (5, some s%"$") ∨ v = (-5, some s%"$") ∨ v = (49 / 4, some s%"$") := by
      simp only [List.map_cons, List.map_nil, List.mem_cons, List.not_mem_nil, or_false] at he
      rcases he with rfl | rfl | rfl
      · simp [PEntry.given, BEntry.counted, BLine.counted, exOtherSalary] at hv
        grind
      · simp [PEntry.given, BEntry.counted, BLine.counted, exOtherShopping] at hv
        grind
      · simp [PEntry.given, BEntry.counted, BLine.counted, exOtherSaving] at hv
        grind
    rcases hv with rfl | rfl | rfl | rfl | rfl | rfl | rfl
    · exact ⟨10000000000, by norm_num⟩
    · exact ⟨-10000000000, by norm_num⟩
    · exact ⟨3050000000, by norm_num⟩
    · exact ⟨800000000, by norm_num⟩
    · exact ⟨500000000, by norm_num⟩
    · exact ⟨-500000000, by norm_num⟩
    · exact ⟨1225000000, by norm_num⟩
  · intro k e he ⟨l, hl, hk, hv⟩
    have h3 : ∀ e ∈ [exOtherSalary, exOtherShopping, exOtherSaving].map BEntry.counted, ∀ l ∈ e.lines, l.value = none →
        ∃ e' ∈ [exOtherSalary, exOtherShopping, exOtherSaving].map BEntry.counted, Date.lt e'.day e.day = true ∧ ∃ l' ∈ e'.lines, l'.account = l.account := by
      decide +kernel
    rw [← hk]
    exact h3 e he l hl hv
  · intro k
    apply small_of_all
    by_cases h1 : k = s%"my:bank"
    · subst h1; decide +kernel
    · by_cases h2 : k = s%"my:pay"
      · subst h2; decide +kernel
      · by_cases h3 : k = s%"my:shop"
        · subst h3; decide +kernel
        · have : ([exOtherSalary, exOtherShopping, exOtherSaving].map BEntry.counted).flatMap (PEntry.weighed k) = [] := by
            simp [PEntry.weighed, BEntry.counted, BLine.counted, exOtherSalary, exOtherShopping, exOtherSaving, Ne.symm h1, Ne.symm h2, Ne.symm h3]
          rw [this]; norm_num

/-- The balances under the other names. -/
example : ∃ w1 out w2 out', mainProgram F64 (stdEnv june15) exOutside [s%"balance", s%"-f", s%"j", s%"-n"]
      (disk [("j", String.ofList exGroceriesText)]) = (w1, .ok out) ∧
    mainProgram F64 (stdEnv june15) exOutside [s%"balance", s%"-f", s%"j", s%"-n"]
      (disk [("j", String.ofList exOtherNamesText)]) = (w2, .ok out') ∧
    ∀ ts ts', (s%"bank", ts) ∈ readReport out → (s%"my:bank", ts') ∈ readReport out' → ∀ s, sumIn s ts' = sumIn s ts := by
  obtain ⟨w1, out, w2, out', h1, h2, _, h3⟩ := C156_balances_too (stdEnv june15) (fun _ l => List.Perm.refl l) exOutside
    (disk [("j", String.ofList exGroceriesText)]) (disk [("j", String.ofList exOtherNamesText)]) exGroceriesAccounts exOtherAccounts
    [exSalaryIn, exShopping, exSaving] [exOtherSalary, exOtherShopping, exOtherSaving]
    exGroceriesText exOtherNamesText s%"j" exGroceriesText_ok exOtherNamesText_ok exGroceries_fits exOther_fits (by decide +kernel)
    (by decide +kernel) (by decide) s%"balance" [s%"-f", s%"j", s%"-n"] [.file s%"j", .noMove] rfl
    (.cons (.fileShort _) (.cons .noMoveShort .nil)) rfl (by simp)
    exGroceries_eight.1 exGroceries_eight.2.1 exGroceries_eight.2.2 exOther_eight.1 exOther_eight.2.1 exOther_eight.2.2
    (s%"my:" ++ ·) (s%"x" ++ ·) (fun _ _ h => List.append_cancel_left h)
    (.cons ⟨rfl, .cons ⟨rfl, rfl⟩ (.cons ⟨rfl, rfl⟩ .nil), .cons ⟨rfl, rfl, rfl⟩ .nil⟩
      (.cons ⟨rfl, .cons ⟨rfl, rfl⟩ (.cons ⟨rfl, rfl⟩ .nil), .nil⟩
        (.cons ⟨rfl, .cons ⟨rfl, rfl⟩ (.cons ⟨rfl, rfl⟩ .nil), .cons ⟨rfl, rfl, rfl⟩ .nil⟩ .nil)))
  exact ⟨w1, out, w2, out', h1, h2, fun ts ts' a b => (h3 s%"bank" ts ts' a b).2⟩

end Silverfox
