import Verif.Props.EnvelopeAgree

/-
C146: what one more payment does to the envelope report.
-/

namespace Silverfox

set_option linter.unusedSectionVars false

/-! ### Specification -/

/-- Specification: the entry is a payment: two lines and no line that names an envelope; one account loses an amount, another
one gains it. -/
structure BEntry.Pays (b : BEntry) (k shop : Str) (q : Rat) (c : Option Str) : Prop where
  positive : 0 < q
  apart : k ≠ shop
  quiet : b.moves = []
  lines : ∃ l l', (b.plain.lines = [l, l'] ∨ b.plain.lines = [l', l]) ∧ l.account = k ∧ l'.account = shop ∧
    b.plain.worth l = some (-q, c) ∧ b.plain.worth l' = some (q, c)

/-- What the report says an envelope has: now and for the next time. -/
def saidIn (s : Option Str) (e : Str × Str × Str) : Rat := sumIn s [e.2.1, e.2.2]

/-- Specification: how what is said of an account differs: the envelopes are the same, each has so much more; and in each
currency so much more is available. -/
structure Differs (p : DeclAccount) (d : MeantDecl Rat → Rat) (a : Option Str → Rat) (r r' : AccountSays) : Prop where
  account : r.account = p.1 ∧ r'.account = p.1
  names : r.envelopes.map Prod.fst = (ofKind .expense p.2 ++ ofKind .goal p.2).map (·.1.name) ∧
    r'.envelopes.map Prod.fst = (ofKind .expense p.2 ++ ofKind .goal p.2).map (·.1.name)
  envelopes : List.Forall₂ (fun x q => saidIn x.target.sym q.2 = saidIn x.target.sym q.1 + d x)
    (ofKind .expense p.2 ++ ofKind .goal p.2) (r.envelopes.zip r'.envelopes)
  available : ∀ s, sumIn s r'.available = sumIn s r.available + a s

/-! ### Sums -/

theorem held_insert (k : Str) (x : MeantDecl Rat) (es fs : List BEntry) (b : BEntry) :
    heldOf k x (es ++ b :: fs) = heldOf k x (es ++ fs) + (b.movesIn k x).sum := by
  unfold heldOf
  rw [List.flatMap_append, List.flatMap_append, List.flatMap_cons, List.sum_append, List.sum_append, List.sum_append]
  ring

theorem written_insert (k : Str) (s : Option Str) (es fs : List BEntry) (b : BEntry) :
    writtenSum k s ((es ++ b :: fs).map BEntry.plain) = writtenSum k s ((es ++ fs).map BEntry.plain) +
      ((b.plain.moves k).map fun v => if v.2 = s then v.1 else 0).sum := by
  unfold writtenSum
  simp only [List.map_append, List.map_cons, List.flatMap_append, List.flatMap_cons, List.sum_append]
  ring

theorem sum_map_plus {α : Type} (l : List α) (f g : α → Rat) : (l.map fun x => f x + g x).sum = (l.map f).sum + (l.map g).sum := by
  induction l with
  | nil => simp
  | cons x l ih => simp only [List.map_cons, List.sum_cons, ih]; ring

theorem available_insert (p : DeclAccount) (s : Option Str) (es fs : List BEntry) (b : BEntry) :
    availableOf p s (es ++ b :: fs) = availableOf p s (es ++ fs) +
      (((b.plain.moves p.1).map fun v => if v.2 = s then v.1 else 0).sum -
        ((p.2.filter fun x => x.target.sym = s).map fun x => (b.movesIn p.1 x).sum).sum) := by
  unfold availableOf
  rw [written_insert]
  simp only [held_insert, sum_map_plus]
  ring

theorem said_in {today : Date} {k : Str} {es : List BEntry} {x : MeantDecl Rat} {r : Str × Str × Str} (h : EnvelopeSays today k es x r) :
    saidIn x.target.sym r = heldOf k x es := by
  obtain ⟨_, a, b, h1, h2, h3, _⟩ := h
  unfold saidIn
  rw [sumIn_cons _ _ _ h1, sumIn_cons _ _ _ h2, if_pos rfl, if_pos rfl, ← h3]
  simp [sumIn]

theorem said_zip {today : Date} {k : Str} {es es' : List BEntry} {xs : List (MeantDecl Rat)} {rs rs' : List (Str × Str × Str)}
    (h : List.Forall₂ (EnvelopeSays today k es) xs rs) (h' : List.Forall₂ (EnvelopeSays today k es') xs rs') :
    List.Forall₂ (fun x q => saidIn x.target.sym q.2 = saidIn x.target.sym q.1 + (heldOf k x es' - heldOf k x es)) xs (rs.zip rs') := by
  induction h generalizing rs' with
  | nil => cases h'; exact .nil
  | @cons x r xs rs h1 _ ih =>
    cases h' with
    | cons h2 h3 =>
      refine .cons ?_ (ih h3)
      show saidIn _ _ = _
      rw [said_in h1, said_in h2]; ring

theorem says_differs {today : Date} {es es' : List BEntry} {p : DeclAccount} {r r' : AccountSays} (h : SaysAll today es p r) (h' : SaysAll today es' p r') :
    Differs p (fun x => heldOf p.1 x es' - heldOf p.1 x es) (fun s => availableOf p s es' - availableOf p s es) r r' :=
  ⟨⟨h.account, h'.account⟩, ⟨h.envelopes, h'.envelopes⟩, said_zip h.each h'.each, fun s => by
    rw [h.available, h'.available]; ring⟩

/-! ### One more entry -/

/-- What one more entry, of whatever kind, does: the envelopes have what it moves in them, and the account has the rest of what
it brings. -/
theorem one_more (env : Env) (hord : FairOrder env.ord) (o : Outside) (w w' : World)
    (accs : List DeclAccount) (es fs : List BEntry) (b : BEntry) (text text' path : Str)
    (h : EnvelopeJournal env accs (es ++ fs) text) (h' : EnvelopeJournal env accs (es ++ b :: fs) text')
    (hf : EnvelopesFit env.today accs (es ++ b :: fs)) (hr : w.read path = some text) (hr' : w'.read path = some text')
    (hfuel : o.fuel ≠ 0) (c : Str) (args : List Str) (gs : List Flag) (hc : c.head? = some 'e') (ha : Spelled gs args)
    (hj : journalFor o gs = some path) (hn : Flag.noMove ∈ gs) (hs : SmallBooks accs (es ++ fs))
    (hs' : SmallBooks accs (es ++ b :: fs)) (hd : Decided accs (es ++ fs)) (hd' : Decided accs (es ++ b :: fs))
    (hslash : ∀ p ∈ accs, ∀ x ∈ p.2, ∀ y, x.target.sym = some y → '/' ∉ y) :
    ∃ w1 out w2 out', mainProgram F64 env o (c :: args) w = (w1, .ok out) ∧ mainProgram F64 env o (c :: args) w' = (w2, .ok out') ∧
      (readEnvelopes out').map (·.account) = (readEnvelopes out).map (·.account) ∧
      ∀ p ∈ accs, p.2 ≠ [] → ∃ r ∈ readEnvelopes out, ∃ r' ∈ readEnvelopes out',
        Differs p (fun x => (b.movesIn p.1 x).sum)
          (fun s => ((b.plain.moves p.1).map fun v => if v.2 = s then v.1 else 0).sum -
            ((p.2.filter fun x => x.target.sym = s).map fun x => (b.movesIn p.1 x).sum).sum) r r' := by
  have hf0 : EnvelopesFit env.today accs (es ++ fs) := by
    have sub : ∀ b' ∈ es ++ fs, b' ∈ es ++ b :: fs := by
      intro b' hb
      simp only [List.mem_append, List.mem_cons] at hb ⊢
      tauto
    exact ⟨hf.today, hf.schedule, fun p hp x hx b' hb => hf.named p hp x hx b' (sub b' hb),
      fun p hp x hx b' hb => hf.spent p hp x hx b' (sub b' hb)⟩
  obtain ⟨w1, out, m1, _, s1, shown, p1, q1⟩ := C142_all_the_money_is_there env hord o w accs _ text path h hf0 hr hfuel c args gs hc ha hj
    hn hs hd hslash
  obtain ⟨w2, out', m2, _, s2, shown', p2, q2⟩ := C142_all_the_money_is_there env hord o w' accs _ text' path h' hf hr' hfuel c args gs hc
    ha hj hn hs' hd' hslash
  refine ⟨w1, out, w2, out', m1, m2, ?_, ?_⟩
  · have accounts : ∀ {es : List BEntry} {ps : List DeclAccount} {rs : List AccountSays}, List.Forall₂ (SaysAll env.today es) ps rs →
        rs.map (·.account) = ps.map Prod.fst := by
      intro es ps rs hq
      induction hq with
      | nil => rfl
      | cons a _ ih => rw [List.map_cons, List.map_cons, a.account, ih]
    have hp : ((readEnvelopes out').map (·.account)).Perm ((readEnvelopes out).map (·.account)) := by
      rw [accounts q1, accounts q2]
      exact (p2.trans p1.symm).map _
    refine hp.eq_of_pairwise (le := fun a b => strLt a b = true) ?_ ?_ ?_
    · intro a b _ _ hab hba
      rw [strLt_asymm _ _ hab] at hba
      cases hba
    · exact List.pairwise_map.2 s2
    · exact List.pairwise_map.2 s1
  · intro p hp hne
    have hm : p ∈ accs.filter fun p => p.2 ≠ [] := by simp [hp, hne]
    obtain ⟨r, hr1, k1⟩ := forall₂_mem_left q1 (p1.mem_iff.2 hm)
    obtain ⟨r', hr2, k2⟩ := forall₂_mem_left q2 (p2.mem_iff.2 hm)
    refine ⟨r, hr1, r', hr2, ?_⟩
    have := says_differs k1 k2
    simpa only [held_insert, available_insert, add_sub_cancel_left] using this

/-! ### A payment -/

theorem Pays_gain {b : BEntry} {k shop : Str} {q : Rat} {c : Option Str} (h : b.Pays k shop q c) (f : Str → Bool) :
    b.plain.gain f = (if f k then -q else 0) + (if f shop then q else 0) := by
  obtain ⟨l, l', hl, rfl, rfl, h1, h2⟩ := h.lines
  unfold PEntry.gain
  cases e1 : f l.account <;> cases e2 : f l'.account <;> rcases hl with hl | hl <;> rw [hl] <;>
    simp [h1, h2, e1, e2]

theorem Pays_moves {b : BEntry} {k shop : Str} {q : Rat} {c : Option Str} (h : b.Pays k shop q c) (n : Str) (s : Option Str) :
    ((b.plain.moves n).map fun v => if v.2 = s then v.1 else 0).sum =
      if c = s then (if n = k then -q else if n = shop then q else 0) else 0 := by
  obtain ⟨l, l', hl, rfl, rfl, h1, h2⟩ := h.lines
  have hne := h.apart
  unfold PEntry.moves
  by_cases e1 : n = l.account
  · subst e1
    rcases hl with hl | hl <;> rw [hl] <;> simp [h1, Ne.symm hne]
  · by_cases e2 : n = l'.account
    · subst e2
      rcases hl with hl | hl <;> rw [hl] <;> simp [h2, hne, Ne.symm hne]
    · rcases hl with hl | hl <;> rw [hl] <;> simp [Ne.symm e1, Ne.symm e2, e1, e2]

theorem Pays_touches {b : BEntry} {k shop : Str} {q : Rat} {c : Option Str} (h : b.Pays k shop q c) (n : Str) (x : MeantDecl Rat) :
    b.Touches n x ↔ n = k ∧ shop ∈ x.fors ∨ n = shop ∧ k ∈ x.fors := by
  obtain ⟨l, l', hl, rfl, rfl, h1, h2⟩ := h.lines
  have hne := h.apart
  unfold BEntry.Touches
  rcases hl with hl | hl <;> rw [hl] <;> simp only [List.mem_cons, List.not_mem_nil, or_false, exists_eq_or_imp, exists_eq_left] <;> grind

theorem Pays_movesIn {b : BEntry} {k shop : Str} {q : Rat} {c : Option Str} (h : b.Pays k shop q c) (n : Str) (x : MeantDecl Rat) :
    (b.movesIn n x).sum = if n = k ∧ shop ∈ x.fors ∨ n = shop ∧ k ∈ x.fors then -q else 0 := by
  have hq := h.positive
  have hne := h.apart
  unfold BEntry.movesIn
  rw [if_neg (by simp [h.quiet])]
  by_cases ht : b.Touches n x
  · rw [if_pos ht, if_pos ((Pays_touches h n x).1 ht), List.sum_singleton]
    unfold PEntry.automatic
    simp only [Pays_gain h]
    rcases (Pays_touches h n x).1 ht with ⟨rfl, hx⟩ | ⟨rfl, hx⟩
    · simp [Ne.symm hne, hx, hq, abs_of_pos hq]
    · have : ¬ q < 0 := by linarith
      simp [hne, hx, this, abs_of_pos hq]
      linarith
  · rw [if_neg ht, if_neg fun hc => ht ((Pays_touches h n x).2 hc)]; rfl

theorem sum_less (xs : List (MeantDecl Rat)) (f : MeantDecl Rat → Prop) [DecidablePred f] (q : Rat) :
    (xs.map fun x => if f x then -q else 0).sum = -((xs.filter fun x => f x).length * q) := by
  induction xs with
  | nil => simp
  | cons x xs ih =>
    by_cases e : f x
    · rw [List.map_cons, List.sum_cons, ih, if_pos e, List.filter_cons_of_pos (a := x) (by simpa using e), List.length_cons]
      push_cast
      ring
    · rw [List.map_cons, List.sum_cons, ih, if_neg e, List.filter_cons_of_neg (a := x) (by simpa using e), zero_add]

/-- C146. What one more payment does to the envelope report, exactly, with doubles, as the program has them (journals as in
C142, with and without an entry of two lines, anywhere in the journal, by which one account pays an amount to another one).
The paragraphs and the envelopes are the same. Every envelope of the account that pays that is `for` the account that is
paid has exactly that much less, and every other envelope of the account as much as before; if `n` envelopes are for the
account that is paid, there is available, in the currency of the payment, `n - 1` times the amount more, and in the other
currencies as much as before. If the account that is paid has envelopes, those that are for the account that pays have that
much less too, and there is available, in the currency of the payment, `n + 1` times the amount more. For accounts other
than the two nothing differs. -/
theorem C146_exact_rule (env : Env) (hord : FairOrder env.ord) (o : Outside) (w w' : World)
    (accs : List DeclAccount) (es fs : List BEntry) (b : BEntry) (text text' path : Str)
    (h : EnvelopeJournal env accs (es ++ fs) text) (h' : EnvelopeJournal env accs (es ++ b :: fs) text')
    (hf : EnvelopesFit env.today accs (es ++ b :: fs)) (hr : w.read path = some text) (hr' : w'.read path = some text')
    (hfuel : o.fuel ≠ 0) (c : Str) (args : List Str) (gs : List Flag) (hc : c.head? = some 'e') (ha : Spelled gs args)
    (hj : journalFor o gs = some path) (hn : Flag.noMove ∈ gs) (hs : SmallBooks accs (es ++ fs))
    (hs' : SmallBooks accs (es ++ b :: fs)) (hd : Decided accs (es ++ fs)) (hd' : Decided accs (es ++ b :: fs))
    (hslash : ∀ p ∈ accs, ∀ x ∈ p.2, ∀ y, x.target.sym = some y → '/' ∉ y)
    (k shop : Str) (q : Rat) (cur : Option Str) (hb : b.Pays k shop q cur) :
    ∃ w1 out w2 out', mainProgram F64 env o (c :: args) w = (w1, .ok out) ∧ mainProgram F64 env o (c :: args) w' = (w2, .ok out') ∧
      (readEnvelopes out').map (·.account) = (readEnvelopes out).map (·.account) ∧
      ∀ p ∈ accs, p.2 ≠ [] → ∃ r ∈ readEnvelopes out, ∃ r' ∈ readEnvelopes out',
        (p.1 = k → Differs p (fun x => if shop ∈ x.fors then -q else 0)
          (fun s => if s = cur then ((p.2.filter fun x => shop ∈ x.fors).length - 1) * q else 0) r r') ∧
        (p.1 = shop → Differs p (fun x => if k ∈ x.fors then -q else 0)
          (fun s => if s = cur then ((p.2.filter fun x => k ∈ x.fors).length + 1) * q else 0) r r') ∧
        (p.1 ≠ k → p.1 ≠ shop → Differs p (fun _ => 0) (fun _ => 0) r r') := by
  obtain ⟨w1, out, w2, out', m1, m2, hacc, hall⟩ := one_more env hord o w w' accs es fs b text text' path h h' hf hr hr' hfuel c args
    gs hc ha hj hn hs hs' hd hd' hslash
  refine ⟨w1, out, w2, out', m1, m2, hacc, fun p hp hne => ?_⟩
  obtain ⟨r, hr1, r', hr2, k1⟩ := hall p hp hne
  have key : ∀ (other : Str) (v : Rat), (∀ x, (b.movesIn p.1 x).sum = if other ∈ x.fors then -q else 0) →
      (∀ x, other ∈ x.fors → b.Touches p.1 x) →
      (∀ s, ((b.plain.moves p.1).map fun v => if v.2 = s then v.1 else 0).sum = if cur = s then v else 0) →
      Differs p (fun x => if other ∈ x.fors then -q else 0)
        (fun s => if s = cur then v + (p.2.filter fun x => other ∈ x.fors).length * q else 0) r r' := by
    intro other v hx ht hv
    have hcur : ∀ x ∈ p.2, other ∈ x.fors → x.target.sym = cur := by
      intro x hx hs
      obtain ⟨l, l', hl, _, _, h1, _⟩ := hb.lines
      refine (hf.spent p hp x hx b (by simp) hb.quiet (ht x hs) l ?_ _ h1).symm
      rcases hl with hl | hl <;> rw [hl] <;> simp
    have hav : (fun s => ((b.plain.moves p.1).map fun v => if v.2 = s then v.1 else 0).sum -
        ((p.2.filter fun x => x.target.sym = s).map fun x => (b.movesIn p.1 x).sum).sum) =
        fun s => if s = cur then v + (p.2.filter fun x => other ∈ x.fors).length * q else 0 := by
      funext s
      rw [hv]
      simp only [hx]
      rw [sum_less, List.filter_filter]
      by_cases ec : cur = s
      · subst ec
        have : (p.2.filter fun x => decide (other ∈ x.fors) && decide (x.target.sym = cur)) = p.2.filter fun x => other ∈ x.fors :=
          List.filter_congr fun x hx => by
            by_cases hs : other ∈ x.fors
            · simp [hs, hcur x hx hs]
            · simp [hs]
        rw [this, if_pos rfl, if_pos rfl]
        ring
      · have : (p.2.filter fun x => decide (other ∈ x.fors) && decide (x.target.sym = s)) = [] :=
          List.filter_eq_nil_iff.2 fun x hx hs => by
            simp only [Bool.and_eq_true, decide_eq_true_eq] at hs
            exact ec ((hcur x hx hs.1).symm.trans hs.2)
        rw [this, if_neg ec, if_neg (Ne.symm ec)]
        simp
    rw [hav] at k1
    simpa only [hx] using k1
  have hne' := hb.apart
  refine ⟨r, hr1, r', hr2, ?_, ?_, ?_⟩
  · intro e
    have := key shop (-q) (fun x => by
        rw [Pays_movesIn hb]
        simp only [e, true_and, hne', false_and, or_false])
      (fun x hx => (Pays_touches hb _ x).2 (Or.inl ⟨e, hx⟩)) fun s => by rw [Pays_moves hb, if_pos e]
    have er : ∀ n : Rat, -q + n * q = (n - 1) * q := fun n => by ring
    simpa only [er] using this
  · intro e
    have := key k q (fun x => by
        rw [Pays_movesIn hb]
        simp only [e, true_and, Ne.symm hne', false_and, false_or])
      (fun x hx => (Pays_touches hb _ x).2 (Or.inr ⟨e, hx⟩)) fun s => by
        rw [Pays_moves hb, e, if_neg (Ne.symm hne'), if_pos rfl]
    have er : ∀ n : Rat, q + n * q = (n + 1) * q := fun n => by ring
    simpa only [er] using this
  · intro e1 e2
    simpa only [Pays_movesIn hb, Pays_moves hb, e1, e2, false_and, or_self, if_false, ite_self, List.map_const', List.sum_replicate,
      nsmul_zero, sub_zero] using k1

/-- C146. With doubles: what is paid comes out of the envelope for it, and out of nothing else (journals as in C142): with one
more payment, anywhere in the journal, by which an account pays an amount to an account that exactly one of its envelopes is
for, that envelope has exactly that much less; every other envelope of the account, and what is available in every
currency, is as before; and so is everything that is said of accounts other than the two. Partial: if two envelopes of the
account are for the account that is paid, the amount comes out of both, and as much more is available
(`C146_paid_once_taken_twice`); and money that comes back takes as much out of the envelope again
(`C146_money_back_is_taken_out`). -/
theorem C146_out_of_the_envelope_partial (env : Env) (hord : FairOrder env.ord) (o : Outside) (w w' : World)
    (accs : List DeclAccount) (es fs : List BEntry) (b : BEntry) (text text' path : Str)
    (h : EnvelopeJournal env accs (es ++ fs) text) (h' : EnvelopeJournal env accs (es ++ b :: fs) text')
    (hf : EnvelopesFit env.today accs (es ++ b :: fs)) (hr : w.read path = some text) (hr' : w'.read path = some text')
    (hfuel : o.fuel ≠ 0) (c : Str) (args : List Str) (gs : List Flag) (hc : c.head? = some 'e') (ha : Spelled gs args)
    (hj : journalFor o gs = some path) (hn : Flag.noMove ∈ gs) (hs : SmallBooks accs (es ++ fs))
    (hs' : SmallBooks accs (es ++ b :: fs)) (hd : Decided accs (es ++ fs)) (hd' : Decided accs (es ++ b :: fs))
    (hslash : ∀ p ∈ accs, ∀ x ∈ p.2, ∀ y, x.target.sym = some y → '/' ∉ y)
    (k shop : Str) (q : Rat) (cur : Option Str) (hb : b.Pays k shop q cur)
    (hone : ∀ p ∈ accs, p.1 = k → (p.2.filter fun x => shop ∈ x.fors).length = 1) :
    ∃ w1 out w2 out', mainProgram F64 env o (c :: args) w = (w1, .ok out) ∧ mainProgram F64 env o (c :: args) w' = (w2, .ok out') ∧
      (readEnvelopes out').map (·.account) = (readEnvelopes out).map (·.account) ∧
      ∀ p ∈ accs, p.2 ≠ [] → p.1 ≠ shop → ∃ r ∈ readEnvelopes out, ∃ r' ∈ readEnvelopes out',
        Differs p (fun x => if p.1 = k ∧ shop ∈ x.fors then -q else 0) (fun _ => 0) r r' := by
  obtain ⟨w1, out, w2, out', m1, m2, hacc, hall⟩ := C146_exact_rule env hord o w w' accs es fs b text text' path h h' hf hr hr' hfuel c
    args gs hc ha hj hn hs hs' hd hd' hslash k shop q cur hb
  refine ⟨w1, out, w2, out', m1, m2, hacc, fun p hp hne hsh => ?_⟩
  obtain ⟨r, hr1, r', hr2, k1, _, k2⟩ := hall p hp hne
  refine ⟨r, hr1, r', hr2, ?_⟩
  by_cases e : p.1 = k
  · have := k1 e
    simp only [hone p hp e, Nat.cast_one, sub_self, zero_mul, ite_self] at this
    simpa only [e, true_and] using this
  · simpa only [e, false_and, if_false] using k2 e hsh

/-! ### Journals -/

/-- Two envelopes for the same account. -/
def exTwiceText : Str := s%"account bank\n  expense food due every 10th\n    amount $40\n    for shop\n  expense fun due every 10th\n    amount $40\n    for shop\naccount shop\naccount pay\n\n2024/06/01 * salary\n bank $100\n pay -100 $\n envelope bank food $30\n envelope bank fun $20\n"

def exTwicePaid : Str := exTwiceText ++ s%"2024/06/12 * shopping\n shop $12\n bank"

/-- C146. Where two envelopes are for the same account, what is paid once is taken twice: $12 are paid, $12 are gone from
either envelope, and $12 more are available. -/
theorem C146_paid_once_taken_twice :
    (∃ out, (mainProgram F64 (stdEnv june15) exOutside [s%"envelopes", s%"-f", s%"j", s%"-n"]
        (disk [("j", String.ofList exTwiceText)])).2 = .ok out ∧
      (readEnvelopes out).map (fun r => (sumIn (some s%"$") r.available, r.envelopes.map fun e => (e.1, saidIn (some s%"$") e))) =
        [(50, [(s%"food", 30), (s%"fun", 20)])]) ∧
    ∃ out, (mainProgram F64 (stdEnv june15) exOutside [s%"envelopes", s%"-f", s%"j", s%"-n"]
        (disk [("j", String.ofList exTwicePaid)])).2 = .ok out ∧
      (readEnvelopes out).map (fun r => (sumIn (some s%"$") r.available, r.envelopes.map fun e => (e.1, saidIn (some s%"$") e))) =
        [(62, [(s%"food", 18), (s%"fun", 8)])] := by
  constructor <;> decide +kernel

/-- A salary, some of it set aside, and shopping, of which $5 come back. -/
def exBackText : Str := s%"account bank\n  expense food due every 10th\n    amount $40\n    for shop\naccount shop\naccount pay\n\n2024/06/01 * salary\n bank $100\n pay -100 $\n envelope bank food $30\n2024/06/12 * shopping\n shop $12\n bank\n"

def exBackPaid : Str := exBackText ++ s%"2024/06/13 * money back\n bank $5\n shop"

/-- C146. Money that comes back is taken out of the envelope again: the bank has $5 more, the envelope $5 less, and $10 more
are available. -/
theorem C146_money_back_is_taken_out :
    (∃ out, (mainProgram F64 (stdEnv june15) exOutside [s%"envelopes", s%"-f", s%"j", s%"-n"]
        (disk [("j", String.ofList exBackText)])).2 = .ok out ∧
      (readEnvelopes out).map (fun r => (sumIn (some s%"$") r.available, r.envelopes.map fun e => (e.1, saidIn (some s%"$") e))) =
        [(70, [(s%"food", 18)])]) ∧
    ∃ out, (mainProgram F64 (stdEnv june15) exOutside [s%"envelopes", s%"-f", s%"j", s%"-n"]
        (disk [("j", String.ofList exBackPaid)])).2 = .ok out ∧
      (readEnvelopes out).map (fun r => (sumIn (some s%"$") r.available, r.envelopes.map fun e => (e.1, saidIn (some s%"$") e))) =
        [(80, [(s%"food", 13)])] := by
  constructor <;> decide +kernel

/-- The journal of C113 before the shopping is written in it. -/
def exBeforeText : Str := s%"account bank\n  expense food due every 10th\n    amount $40\n    for shop\naccount shop\naccount pay\n\n2024/06/01 * salary\n bank $100\n pay -100 $\n envelope bank food $30.50\n2024/06/13 * save\n bank $5\n pay $-5\n envelope bank food $8"

theorem exBeforeText_ok : EnvelopeJournal (stdEnv june15) exGroceriesAccounts ([exSalaryIn] ++ [exSaving]) exBeforeText := by
  refine ⟨.of (by decide +kernel), exGroceriesText_ok.once, exGroceriesText_ok.names, exGroceriesText_ok.envelopes,
    exGroceriesText_ok.distinct, ?_⟩
  intro e he
  refine exGroceriesText_ok.entries e ?_
  simp only [List.mem_append, List.mem_cons, List.not_mem_nil, or_false] at he ⊢
  tauto

theorem exShopping_pays : exShopping.Pays s%"bank" s%"shop" (49 / 4) (some s%"$") :=
  ⟨by norm_num, by decide, rfl, ⟨s%" ", s%"bank", [], [], none⟩, ⟨s%" ", s%"shop", s%" ", s%"12.25$", some (49 / 4, some s%"$")⟩, Or.inr rfl,
    rfl, rfl, by decide +kernel, rfl⟩

/-- The shopping is a payment, and one envelope is for it. -/
example : ∃ w1 out w2 out', mainProgram F64 (stdEnv june15) exOutside [s%"envelopes", s%"-f", s%"j", s%"-n"]
      (disk [("j", String.ofList exBeforeText)]) = (w1, .ok out) ∧
    mainProgram F64 (stdEnv june15) exOutside [s%"envelopes", s%"-f", s%"j", s%"-n"]
      (disk [("j", String.ofList exGroceriesText)]) = (w2, .ok out') ∧
    ∃ r ∈ readEnvelopes out, ∃ r' ∈ readEnvelopes out', Differs (s%"bank", [exGroceries]) (fun _ => -49 / 4) (fun _ => 0) r r' := by
  obtain ⟨w1, out, w2, out', h1, h2, _, h3⟩ := C146_out_of_the_envelope_partial (stdEnv june15) (fun _ l => List.Perm.refl l) exOutside
    (disk [("j", String.ofList exBeforeText)]) (disk [("j", String.ofList exGroceriesText)]) exGroceriesAccounts [exSalaryIn] [exSaving]
    exShopping exBeforeText exGroceriesText s%"j" exBeforeText_ok exGroceriesText_ok exGroceries_fits (by decide +kernel)
    (by decide +kernel) (by decide) s%"envelopes" [s%"-f", s%"j", s%"-n"] [.file s%"j", .noMove] rfl
    (.cons (.fileShort _) (.cons .noMoveShort .nil)) rfl (by simp)
    (small_books_of_all (by decide +kernel) (by decide +kernel) (by decide +kernel) (by decide +kernel))
    (small_books_of_all (by decide +kernel) (by decide +kernel) (by decide +kernel) (by decide +kernel))
    (by unfold Decided; decide +kernel) (by unfold Decided; decide +kernel)
    (by
      intro p hp x hx y hy
      simp only [exGroceriesAccounts, List.mem_cons, List.not_mem_nil, or_false] at hp
      rcases hp with rfl | rfl | rfl
      · simp only [List.mem_cons, List.not_mem_nil, or_false] at hx
        subst hx
        cases hy
        decide
      · cases hx
      · cases hx) s%"bank" s%"shop" (49 / 4) (some s%"$") exShopping_pays (by decide +kernel)
  obtain ⟨r, hr, r', hr', h4⟩ := h3 (s%"bank", [exGroceries]) (by simp [exGroceriesAccounts]) (by simp) (by decide)
  refine ⟨w1, out, w2, out', h1, h2, r, hr, r', hr', h4.account, h4.names, ?_, h4.available⟩
  have e : ofKind .expense [exGroceries] ++ ofKind .goal [exGroceries] = [exGroceries] := rfl
  have h5 := h4.envelopes
  simp only [e] at h5 ⊢
  generalize r.envelopes.zip r'.envelopes = l at h5
  cases h5 with
  | cons h6 h7 =>
    refine .cons ?_ (by cases h7; exact .nil)
    rw [h6, if_pos ⟨trivial, by decide⟩]
    norm_num

end Silverfox
