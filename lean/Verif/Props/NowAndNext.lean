import Verif.Props.CarryForward
import Verif.Props.DayAfterDay

/-
C153: the two figures of an envelope, what there is now and what is saved for the next time.
-/

namespace Silverfox

set_option linter.unusedSectionVars false

/-! ### Specification -/

/-- What the report says there is now in an envelope. -/
def saidNow (s : Option Str) (e : Str × Str × Str) : Rat := sumIn s [e.2.1]

/-- What the report says is saved for the next time. -/
def saidNext (s : Option Str) (e : Str × Str × Str) : Rat := sumIn s [e.2.2]

/-- Specification: how the figures of the envelopes of an account differ: `R`, of the envelope, what there is now and for the next
time in the one report, and in the other. -/
structure FiguresDiffer (p : DeclAccount) (R : MeantDecl Rat → Rat → Rat → Rat → Rat → Prop) (r r' : AccountSays) : Prop where
  account : r.account = p.1 ∧ r'.account = p.1
  names : r.envelopes.map Prod.fst = (ofKind .expense p.2 ++ ofKind .goal p.2).map (·.1.name) ∧
    r'.envelopes.map Prod.fst = (ofKind .expense p.2 ++ ofKind .goal p.2).map (·.1.name)
  figures : List.Forall₂ (fun x q => R x (saidNow x.target.sym q.1) (saidNext x.target.sym q.1) (saidNow x.target.sym q.2)
    (saidNext x.target.sym q.2)) (ofKind .expense p.2 ++ ofKind .goal p.2) (r.envelopes.zip r'.envelopes)

/-! ### Two reports -/

theorem figures_zip {today today' : Date} {k : Str} {es es' : List BEntry} {xs : List (MeantDecl Rat)} {rs rs' : List (Str × Str × Str)}
    {R : MeantDecl Rat → Rat → Rat → Rat → Rat → Prop}
    (h : List.Forall₂ (EnvelopeSays today k es) xs rs) (h' : List.Forall₂ (EnvelopeSays today' k es') xs rs')
    (hR : ∀ x ∈ xs, ∀ last last', x.2.1.lastDue today = .ok last → x.2.1.lastDue today' = .ok last' →
      R x (max (nowOf last k x es) 0) (nextOf last k x es + min (nowOf last k x es) 0)
        (max (nowOf last' k x es') 0) (nextOf last' k x es' + min (nowOf last' k x es') 0)) :
    List.Forall₂ (fun x q => R x (saidNow x.target.sym q.1) (saidNext x.target.sym q.1) (saidNow x.target.sym q.2)
      (saidNext x.target.sym q.2)) xs (rs.zip rs') := by
  induction h generalizing rs' with
  | nil => cases h'; exact .nil
  | @cons x r xs rs h1 _ ih =>
    cases h' with
    | cons h2 h3 =>
      refine .cons ?_ (ih h3 fun y hy => hR y (by simp [hy]))
      obtain ⟨_, a, b, ha, hb, hab, last, hl, rfl, rfl⟩ := h1
      obtain ⟨_, a', b', ha', hb', hab', last', hl', rfl, rfl⟩ := h2
      have := hR x (by simp) last last' hl hl'
      unfold saidNow saidNext
      rw [sumIn_cons _ _ _ ha, sumIn_cons _ _ _ ha', sumIn_cons _ _ _ hb, sumIn_cons _ _ _ hb']
      simpa [sumIn] using this

/-- Two envelope reports, of two journals with the same declarations, on the same day or on different ones. -/
theorem two_reports (env env' : Env) (hord : FairOrder env.ord) (hord' : FairOrder env'.ord) (o : Outside) (w w' : World)
    (accs : List DeclAccount) (es es' : List BEntry) (text text' path : Str)
    (h : EnvelopeJournal env accs es text) (h' : EnvelopeJournal env' accs es' text')
    (hf : EnvelopesFit env.today accs es) (hf' : EnvelopesFit env'.today accs es') (hr : w.read path = some text)
    (hr' : w'.read path = some text') (hfuel : o.fuel ≠ 0) (c : Str) (args : List Str) (gs : List Flag)
    (hc : c.head? = some 'e') (ha : Spelled gs args) (hj : journalFor o gs = some path) (hn : Flag.noMove ∈ gs)
    (hs : SmallBooks accs es) (hs' : SmallBooks accs es') (hd : Decided accs es) (hd' : Decided accs es')
    (hslash : ∀ p ∈ accs, ∀ x ∈ p.2, ∀ y, x.target.sym = some y → '/' ∉ y)
    (R : Str → MeantDecl Rat → Rat → Rat → Rat → Rat → Prop)
    (hR : ∀ p ∈ accs, ∀ x ∈ p.2, ∀ last last', x.2.1.lastDue env.today = .ok last → x.2.1.lastDue env'.today = .ok last' →
      R p.1 x (max (nowOf last p.1 x es) 0) (nextOf last p.1 x es + min (nowOf last p.1 x es) 0)
        (max (nowOf last' p.1 x es') 0) (nextOf last' p.1 x es' + min (nowOf last' p.1 x es') 0)) :
    ∃ w1 out w2 out', mainProgram F64 env o (c :: args) w = (w1, .ok out) ∧
      mainProgram F64 env' o (c :: args) w' = (w2, .ok out') ∧
      (readEnvelopes out').map (·.account) = (readEnvelopes out).map (·.account) ∧
      ∀ p ∈ accs, p.2 ≠ [] → ∃ r ∈ readEnvelopes out, ∃ r' ∈ readEnvelopes out', FiguresDiffer p (R p.1) r r' ∧
        ∀ s, sumIn s r'.available - sumIn s r.available = availableOf p s es' - availableOf p s es := by
  obtain ⟨w1, out, m1, _, s1, shown, p1, q1⟩ := C142_all_the_money_is_there env hord o w accs _ text path h hf hr hfuel c args gs hc ha hj
    hn hs hd hslash
  obtain ⟨w2, out', m2, _, s2, shown', p2, q2⟩ := C142_all_the_money_is_there env' hord' o w' accs _ text' path h' hf' hr' hfuel c args gs
    hc ha hj hn hs' hd' hslash
  refine ⟨w1, out, w2, out', m1, m2, ?_, ?_⟩
  · have accounts : ∀ {d : Date} {es : List BEntry} {ps : List DeclAccount} {rs : List AccountSays},
        List.Forall₂ (SaysAll d es) ps rs → rs.map (·.account) = ps.map Prod.fst := by
      intro d es ps rs hq
      induction hq with
      | nil => rfl
      | cons a _ ih => rw [List.map_cons, List.map_cons, a.account, ih]
    have hp : ((readEnvelopes out').map (·.account)).Perm ((readEnvelopes out).map (·.account)) := by
      rw [accounts q1, accounts q2]
      exact (p2.trans p1.symm).map _
    refine hp.eq_of_pairwise (le := fun a b => strLt a b = true) ?_ ?_ ?_
    · intro a b _ _ hab hba
      rw [strLt_asymm _ _ hab] at hba
      cases hba
    · exact List.pairwise_map.2 s2
    · exact List.pairwise_map.2 s1
  · intro p hp hne
    have hm : p ∈ accs.filter fun p => p.2 ≠ [] := by simp [hp, hne]
    obtain ⟨r, hr1, k1⟩ := forall₂_mem_left q1 (p1.mem_iff.2 hm)
    obtain ⟨r', hr2, k2⟩ := forall₂_mem_left q2 (p2.mem_iff.2 hm)
    refine ⟨r, hr1, r', hr2, ⟨⟨k1.account, k2.account⟩, ⟨k1.envelopes, k2.envelopes⟩, figures_zip k1.each k2.each ?_⟩, fun s => by
      rw [k1.available, k2.available]⟩
    intro x hx last last' hl hl'
    refine hR p hp x ?_ last last' hl hl'
    rcases List.mem_append.1 hx with hx | hx
    · exact (List.mem_filter.1 hx).1
    · exact (List.mem_filter.1 hx).1

/-! ### One more entry -/

theorem now_insert (last : Option Date) (k : Str) (x : MeantDecl Rat) (es fs : List BEntry) (b : BEntry) :
    nowOf last k x (es ++ b :: fs) = nowOf last k x (es ++ fs) +
      ((b.movesIn k x).map fun v => if ForNow last b.day v then v else 0).sum := by
  unfold nowOf
  rw [List.flatMap_append, List.flatMap_append, List.flatMap_cons, List.sum_append, List.sum_append, List.sum_append]
  ring

theorem next_insert (last : Option Date) (k : Str) (x : MeantDecl Rat) (es fs : List BEntry) (b : BEntry) :
    nextOf last k x (es ++ b :: fs) = nextOf last k x (es ++ fs) +
      ((b.movesIn k x).map fun v => if ForNow last b.day v then 0 else v).sum := by
  unfold nextOf
  rw [List.flatMap_append, List.flatMap_append, List.flatMap_cons, List.sum_append, List.sum_append, List.sum_append]
  ring

theorem Pays_list {b : BEntry} {k shop : Str} {q : Rat} {c : Option Str} (h : b.Pays k shop q c) (n : Str) (x : MeantDecl Rat) :
    b.movesIn n x = if n = k ∧ shop ∈ x.fors ∨ n = shop ∧ k ∈ x.fors then [-q] else [] := by
  have hs := Pays_movesIn h n x
  unfold BEntry.movesIn at hs ⊢
  rw [if_neg (by simp [h.quiet])] at hs ⊢
  by_cases ht : b.Touches n x
  · have hc := (Pays_touches h n x).1 ht
    rw [if_pos ht, if_pos hc, List.sum_singleton] at hs
    rw [if_pos ht, if_pos hc, hs]
  · rw [if_neg ht, if_neg fun hc => ht ((Pays_touches h n x).2 hc)]

/-- C153. With doubles, as the program has them: what is paid comes out of what there is now, and what is more than that out of
what is saved for the next time. With one more payment of `q`, anywhere in the journal and of whatever day (journals as in C142),
each envelope that is for the account that is paid says that there is now `max (now - q) 0`, and for the next time
`next + min (now - q) 0`; the other envelopes say what they said. -/
theorem C153_paid_out_of_what_there_is_now (env : Env) (hord : FairOrder env.ord) (o : Outside) (w w' : World)
    (accs : List DeclAccount) (es fs : List BEntry) (b : BEntry) (text text' path : Str)
    (h : EnvelopeJournal env accs (es ++ fs) text) (h' : EnvelopeJournal env accs (es ++ b :: fs) text')
    (hf : EnvelopesFit env.today accs (es ++ b :: fs)) (hr : w.read path = some text) (hr' : w'.read path = some text')
    (hfuel : o.fuel ≠ 0) (c : Str) (args : List Str) (gs : List Flag) (hc : c.head? = some 'e') (ha : Spelled gs args)
    (hj : journalFor o gs = some path) (hn : Flag.noMove ∈ gs) (hs : SmallBooks accs (es ++ fs))
    (hs' : SmallBooks accs (es ++ b :: fs)) (hd : Decided accs (es ++ fs)) (hd' : Decided accs (es ++ b :: fs))
    (hslash : ∀ p ∈ accs, ∀ x ∈ p.2, ∀ y, x.target.sym = some y → '/' ∉ y)
    (k shop : Str) (q : Rat) (cur : Option Str) (hb : b.Pays k shop q cur) :
    ∃ w1 out w2 out', mainProgram F64 env o (c :: args) w = (w1, .ok out) ∧ mainProgram F64 env o (c :: args) w' = (w2, .ok out') ∧
      (readEnvelopes out').map (·.account) = (readEnvelopes out).map (·.account) ∧
      ∀ p ∈ accs, p.2 ≠ [] → p.1 ≠ shop → ∃ r ∈ readEnvelopes out, ∃ r' ∈ readEnvelopes out',
        FiguresDiffer p (fun x now next now' next' => if p.1 = k ∧ shop ∈ x.fors
          then now' = max (now - q) 0 ∧ next' = next + min (now - q) 0
          else now' = now ∧ next' = next) r r' := by
  have hf0 : EnvelopesFit env.today accs (es ++ fs) := by
    have sub : ∀ b' ∈ es ++ fs, b' ∈ es ++ b :: fs := by
      intro b' hb
      simp only [List.mem_append, List.mem_cons] at hb ⊢
      tauto
    exact ⟨hf.today, hf.schedule, fun p hp x hx b' hb => hf.named p hp x hx b' (sub b' hb),
      fun p hp x hx b' hb => hf.spent p hp x hx b' (sub b' hb)⟩
  obtain ⟨w1, out, w2, out', m1, m2, hacc, hall⟩ := two_reports env env hord hord o w w' accs (es ++ fs) (es ++ b :: fs) text text' path h h'
    hf0 hf hr hr' hfuel c args gs hc ha hj hn hs hs' hd hd' hslash
    (fun n x now next now' next' => n ≠ shop → if n = k ∧ shop ∈ x.fors
          then now' = max (now - q) 0 ∧ next' = next + min (now - q) 0
          else now' = now ∧ next' = next) (by
      intro p hp x hx last last' hl hl' hne
      rw [hl] at hl'
      cases hl'
      rw [now_insert, next_insert, Pays_list hb]
      generalize nowOf last p.1 x (es ++ fs) = n
      generalize nextOf last p.1 x (es ++ fs) = y
      have hq := hb.positive
      have e : (p.1 = k ∧ shop ∈ x.fors ∨ p.1 = shop ∧ k ∈ x.fors) ↔ p.1 = k ∧ shop ∈ x.fors := by simp [hne]
      simp only [e]
      by_cases hc : p.1 = k ∧ shop ∈ x.fors
      · have hF : ForNow last b.day (-q) := Or.inl (by linarith)
        simp only [hc, and_self, if_true, List.map_cons, List.map_nil, hF, List.sum_singleton, add_zero]
        constructor
        · rcases le_total n 0 with h1 | h1
          · rw [max_eq_right (by linarith), max_eq_right h1, max_eq_right (by linarith)]
          · rw [max_eq_left h1, sub_eq_add_neg]
        · rcases le_total n 0 with h1 | h1
          · rw [max_eq_right h1, min_eq_left h1, min_eq_left (by linarith), min_eq_left (by linarith)]; ring
          · rw [max_eq_left h1, min_eq_right h1, add_zero, sub_eq_add_neg]
      · simp only [hc, if_false, List.map_nil, List.sum_nil, add_zero, and_self])
  refine ⟨w1, out, w2, out', m1, m2, hacc, fun p hp hne hsh => ?_⟩
  obtain ⟨r, hr1, r', hr2, kf, _⟩ := hall p hp hne
  exact ⟨r, hr1, r', hr2, kf.account, kf.names, kf.figures.imp fun _ _ h => h hsh⟩

/-- C153. What is set aside on or after the last due date is saved for the next time: with one more entry whose lines put money into
envelopes, on a day that is not before the last due date of any envelope, there is now in every envelope what there was, and for
the next time as much more as the lines put in. -/
theorem C153_set_aside_is_saved (env : Env) (hord : FairOrder env.ord) (o : Outside) (w w' : World)
    (accs : List DeclAccount) (es fs : List BEntry) (b : BEntry) (text text' path : Str)
    (h : EnvelopeJournal env accs (es ++ fs) text) (h' : EnvelopeJournal env accs (es ++ b :: fs) text')
    (hf : EnvelopesFit env.today accs (es ++ b :: fs)) (hr : w.read path = some text) (hr' : w'.read path = some text')
    (hfuel : o.fuel ≠ 0) (c : Str) (args : List Str) (gs : List Flag) (hc : c.head? = some 'e') (ha : Spelled gs args)
    (hj : journalFor o gs = some path) (hn : Flag.noMove ∈ gs) (hs : SmallBooks accs (es ++ fs))
    (hs' : SmallBooks accs (es ++ b :: fs)) (hd : Decided accs (es ++ fs)) (hd' : Decided accs (es ++ b :: fs))
    (hslash : ∀ p ∈ accs, ∀ x ∈ p.2, ∀ y, x.target.sym = some y → '/' ∉ y)
    (hb : b.moves ≠ []) (hpos : ∀ m ∈ b.moves, 0 ≤ m.value.1)
    (hday : ∀ p ∈ accs, ∀ x ∈ p.2, ∀ d, x.2.1.lastDue env.today = .ok (some d) → Date.lt b.day d = false) :
    ∃ w1 out w2 out', mainProgram F64 env o (c :: args) w = (w1, .ok out) ∧ mainProgram F64 env o (c :: args) w' = (w2, .ok out') ∧
      (readEnvelopes out').map (·.account) = (readEnvelopes out).map (·.account) ∧
      ∀ p ∈ accs, p.2 ≠ [] → ∃ r ∈ readEnvelopes out, ∃ r' ∈ readEnvelopes out',
        FiguresDiffer p (fun x now next now' next' => now' = now ∧ next' = next + b.puts p.1 x.1.name) r r' := by
  have hf0 : EnvelopesFit env.today accs (es ++ fs) := by
    have sub : ∀ b' ∈ es ++ fs, b' ∈ es ++ b :: fs := by
      intro b' hb
      simp only [List.mem_append, List.mem_cons] at hb ⊢
      tauto
    exact ⟨hf.today, hf.schedule, fun p hp x hx b' hb => hf.named p hp x hx b' (sub b' hb),
      fun p hp x hx b' hb => hf.spent p hp x hx b' (sub b' hb)⟩
  obtain ⟨w1, out, w2, out', m1, m2, hacc, hall⟩ := two_reports env env hord hord o w w' accs (es ++ fs) (es ++ b :: fs) text text' path h h'
    hf0 hf hr hr' hfuel c args gs hc ha hj hn hs hs' hd hd' hslash
    (fun n x now next now' next' => now' = now ∧ next' = next + b.puts n x.1.name) (by
      intro p hp x hx last last' hl hl'
      rw [hl] at hl'
      cases hl'
      rw [now_insert, next_insert, ← puts_eq b hb]
      have hv : ∀ v ∈ b.movesIn p.1 x, ¬ ForNow last b.day v := by
        intro v hv hF
        unfold BEntry.movesIn at hv
        rw [if_pos hb] at hv
        obtain ⟨m, hm, rfl⟩ := List.mem_map.1 hv
        have := hpos m (List.mem_filter.1 hm).1
        rcases hF with hF | ⟨d, rfl, hF⟩
        · linarith
        · rw [hday p hp x hx d hl] at hF
          cases hF
      have e1 : ((b.movesIn p.1 x).map fun v => if ForNow last b.day v then v else 0).sum = 0 := by
        rw [List.map_congr_left (g := fun _ => (0 : Rat)) fun v hv' => if_neg (hv v hv')]
        simp
      have e2 : ((b.movesIn p.1 x).map fun v => if ForNow last b.day v then 0 else v) = b.movesIn p.1 x := by
        conv_rhs => rw [← List.map_id (b.movesIn p.1 x)]
        exact List.map_congr_left fun v hv' => if_neg (hv v hv')
      rw [e1, e2, add_zero]
      exact ⟨rfl, by ring⟩)
  refine ⟨w1, out, w2, out', m1, m2, hacc, fun p hp hne => ?_⟩
  obtain ⟨r, hr1, r', hr2, kf, _⟩ := hall p hp hne
  exact ⟨r, hr1, r', hr2, kf⟩

/-! ### Days pass -/

theorem now_grows {last last' : Option Date} (h : ∀ d v, ForNow last d v → ForNow last' d v) (k : Str) (x : MeantDecl Rat)
    (es : List BEntry) : nowOf last k x es ≤ nowOf last' k x es := by
  unfold nowOf
  induction es with
  | nil => exact le_refl _
  | cons b es ih =>
    rw [List.flatMap_cons, List.flatMap_cons, List.sum_append, List.sum_append]
    refine add_le_add ?_ ih
    induction b.movesIn k x with
    | nil => exact le_refl _
    | cons v vs ihv =>
      rw [List.map_cons, List.map_cons, List.sum_cons, List.sum_cons]
      refine add_le_add ?_ ihv
      by_cases e : ForNow last b.day v
      · rw [if_pos e, if_pos (h _ _ e)]
      · rw [if_neg e]
        split
        · by_contra hc
          exact e (Or.inl (not_le.1 hc))
        · exact le_refl _

/-- C153. As days pass, the report of the same journal only says that more is there now and less is saved: what an envelope has
altogether, and what is available in every currency, stays the same; and once the last due date of an envelope is after all entries,
all the envelope has is there now. -/
theorem C153_as_days_pass (env : Env) (hord : FairOrder env.ord) (later : Date) (o : Outside) (w : World)
    (accs : List DeclAccount) (es : List BEntry) (text path : Str) (h : EnvelopeJournal env accs es text)
    (hf : EnvelopesFit env.today accs es) (hl : later.Inner) (hle : Date.le env.today later = true)
    (hr : w.read path = some text) (hfuel : o.fuel ≠ 0) (c : Str) (args : List Str) (gs : List Flag)
    (hc : c.head? = some 'e') (ha : Spelled gs args) (hj : journalFor o gs = some path) (hn : Flag.noMove ∈ gs)
    (hs : SmallBooks accs es) (hd : Decided accs es)
    (hslash : ∀ p ∈ accs, ∀ x ∈ p.2, ∀ y, x.target.sym = some y → '/' ∉ y) :
    ∃ w1 out w2 out', mainProgram F64 env o (c :: args) w = (w1, .ok out) ∧
      mainProgram F64 (env.on later) o (c :: args) w = (w2, .ok out') ∧
      (readEnvelopes out').map (·.account) = (readEnvelopes out).map (·.account) ∧
      ∀ p ∈ accs, p.2 ≠ [] → ∃ r ∈ readEnvelopes out, ∃ r' ∈ readEnvelopes out',
        FiguresDiffer p (fun x now next now' next' => now ≤ now' ∧ next' ≤ next ∧ now' + next' = now + next ∧
          ((∃ d, x.2.1.lastDue later = .ok (some d) ∧ ∀ e ∈ es, Date.lt e.day d = true) →
            now' = max (now + next) 0 ∧ next' = min (now + next) 0)) r r' ∧
        ∀ s, sumIn s r'.available = sumIn s r.available := by
  obtain ⟨w1, out, w2, out', m1, m2, hacc, hall⟩ := two_reports env (env.on later) hord hord o w w accs es es text text path h
    (h.on later)
    hf ⟨hl, hf.schedule, hf.named, hf.spent⟩ hr hr hfuel c args gs hc ha hj hn hs hs hd hd hslash
    (fun _ x now next now' next' => now ≤ now' ∧ next' ≤ next ∧ now' + next' = now + next ∧
          ((∃ d, x.2.1.lastDue later = .ok (some d) ∧ ∀ e ∈ es, Date.lt e.day d = true) →
            now' = max (now + next) 0 ∧ next' = min (now + next) 0)) (by
      intro p hp x hx last last' hl1 hl2
      have hfor : ∀ d v, ForNow last d v → ForNow last' d v := by
        rintro d v (hv | ⟨l, rfl, hlt⟩)
        · exact Or.inl hv
        · obtain ⟨l', rfl, hle'⟩ := C94_last_due_moves_forward x.2.1 (hf.schedule p hp x hx).2 env.today later hf.today hl hle l last' hl1 hl2
          refine Or.inr ⟨l', rfl, ?_⟩
          rw [Date.lt_iff_dayNum] at hlt ⊢
          rw [Date.le_iff_dayNum] at hle'
          omega
      have hnow : nowOf last p.1 x es ≤ nowOf last' p.1 x es := by
        exact now_grows hfor p.1 x es
      have h1 := held_split last p.1 x es
      have h2 := held_split last' p.1 x es
      have m1 := max_add_min (nowOf last p.1 x es) 0
      have m2 := max_add_min (nowOf last' p.1 x es) 0
      have hm := max_le_max_right 0 hnow
      refine ⟨hm, by linarith, by linarith, ?_⟩
      rintro ⟨d, hd, hlt⟩
      have hl2' : x.2.1.lastDue later = .ok last' := hl2
      rw [hd] at hl2'
      cases hl2'
      have e : nowOf (some d) p.1 x es = heldOf p.1 x es := now_before hlt p.1 x
      have e0 : nextOf (some d) p.1 x es = 0 := by linarith
      have e1 : max (nowOf last p.1 x es) 0 + (nextOf last p.1 x es + min (nowOf last p.1 x es) 0) = heldOf p.1 x es := by linarith
      rw [e1, e, e0, zero_add]
      exact ⟨rfl, rfl⟩)
  refine ⟨w1, out, w2, out', m1, m2, hacc, fun p hp hne => ?_⟩
  obtain ⟨r, hr1, r', hr2, kf, ks⟩ := hall p hp hne
  exact ⟨r, hr1, r', hr2, kf, fun s => by have := ks s; linarith⟩

/-! ### Concrete cases -/

theorem exGroceries_noSlash : ∀ p ∈ exGroceriesAccounts, ∀ x ∈ p.2, ∀ y, x.target.sym = some y → '/' ∉ y := by
  intro p hp x hx y hy
  simp only [exGroceriesAccounts, List.mem_cons, List.not_mem_nil, or_false] at hp
  rcases hp with rfl | rfl | rfl
  · simp only [List.mem_cons, List.not_mem_nil, or_false] at hx
    subst hx
    cases hy
    decide
  · cases hx
  · cases hx

/-- The journal of C121 without and with the shopping: of $30.50 there are $18.25 left now, and $8 stay saved for the next time. -/
example : ∃ w1 out w2 out', mainProgram F64 (stdEnv june15) exOutside [s%"envelopes", s%"-f", s%"j", s%"-n"]
      (disk [("j", String.ofList exBeforeText)]) = (w1, .ok out) ∧
    mainProgram F64 (stdEnv june15) exOutside [s%"envelopes", s%"-f", s%"j", s%"-n"]
      (disk [("j", String.ofList exGroceriesText)]) = (w2, .ok out') ∧
    ∃ r ∈ readEnvelopes out, ∃ r' ∈ readEnvelopes out', FiguresDiffer (s%"bank", [exGroceries])
      (fun x now next now' next' => if s%"bank" = s%"bank" ∧ s%"shop" ∈ x.fors
        then now' = max (now - 49 / 4) 0 ∧ next' = next + min (now - 49 / 4) 0 else now' = now ∧ next' = next) r r' := by
  obtain ⟨w1, out, w2, out', h1, h2, _, h3⟩ := C153_paid_out_of_what_there_is_now (stdEnv june15) (fun _ l => List.Perm.refl l) exOutside
    (disk [("j", String.ofList exBeforeText)]) (disk [("j", String.ofList exGroceriesText)]) exGroceriesAccounts [exSalaryIn] [exSaving]
    exShopping exBeforeText exGroceriesText s%"j" exBeforeText_ok exGroceriesText_ok exGroceries_fits (by decide +kernel)
    (by decide +kernel) (by decide) s%"envelopes" [s%"-f", s%"j", s%"-n"] [.file s%"j", .noMove] rfl
    (.cons (.fileShort _) (.cons .noMoveShort .nil)) rfl (by simp)
    (small_books_of_all (by decide +kernel) (by decide +kernel) (by decide +kernel) (by decide +kernel))
    (small_books_of_all (by decide +kernel) (by decide +kernel) (by decide +kernel) (by decide +kernel))
    (by unfold Decided; decide +kernel) (by unfold Decided; decide +kernel) exGroceries_noSlash s%"bank" s%"shop" (49 / 4) (some s%"$")
    exShopping_pays
  exact ⟨w1, out, w2, out', h1, h2, h3 (s%"bank", [exGroceries]) (by simp [exGroceriesAccounts]) (by simp) (by decide)⟩

/-- The journal of C150 without and with the last entry, which sets $8 aside on the thirteenth, after the tenth. -/
example : ∃ w1 out w2 out', mainProgram F64 (stdEnv june15) exOutside [s%"envelopes", s%"-f", s%"j", s%"-n"]
      (disk [("j", String.ofList exUnsavedText)]) = (w1, .ok out) ∧
    mainProgram F64 (stdEnv june15) exOutside [s%"envelopes", s%"-f", s%"j", s%"-n"]
      (disk [("j", String.ofList exGroceriesText)]) = (w2, .ok out') ∧
    ∃ r ∈ readEnvelopes out, ∃ r' ∈ readEnvelopes out', FiguresDiffer (s%"bank", [exGroceries])
      (fun x now next now' next' => now' = now ∧ next' = next + exSaving.puts s%"bank" x.1.name) r r' := by
  obtain ⟨w1, out, w2, out', h1, h2, _, h3⟩ := C153_set_aside_is_saved (stdEnv june15) (fun _ l => List.Perm.refl l) exOutside
    (disk [("j", String.ofList exUnsavedText)]) (disk [("j", String.ofList exGroceriesText)]) exGroceriesAccounts [exSalaryIn, exShopping] []
    exSaving exUnsavedText exGroceriesText s%"j" exUnsavedText_ok exGroceriesText_ok exGroceries_fits (by decide +kernel)
    (by decide +kernel) (by decide) s%"envelopes" [s%"-f", s%"j", s%"-n"] [.file s%"j", .noMove] rfl
    (.cons (.fileShort _) (.cons .noMoveShort .nil)) rfl (by simp)
    (small_books_of_all (by decide +kernel) (by decide +kernel) (by decide +kernel) (by decide +kernel))
    (small_books_of_all (by decide +kernel) (by decide +kernel) (by decide +kernel) (by decide +kernel))
    (by unfold Decided; decide +kernel) (by unfold Decided; decide +kernel) exGroceries_noSlash (by decide) (by decide +kernel) (by
      intro p hp x hx d hd
      simp only [exGroceriesAccounts, List.mem_cons, List.not_mem_nil, or_false] at hp
      rcases hp with rfl | rfl | rfl
      · simp only [List.mem_cons, List.not_mem_nil, or_false] at hx
        subst hx
        have e : exGroceries.2.1.lastDue (stdEnv june15).today = .ok (some ⟨2024, 6, 10, by decide⟩) := by decide +kernel
        rw [e] at hd
        cases hd
        decide
      · cases hx
      · cases hx)
  exact ⟨w1, out, w2, out', h1, h2, h3 (s%"bank", [exGroceries]) (by simp [exGroceriesAccounts]) (by simp)⟩

def july11 : Date := ⟨2024, 7, 11, by decide⟩

/-- The journal of C121 on the fifteenth of June, and on the eleventh of July, when the tenth has passed once more. -/
example : ∃ w1 out w2 out', mainProgram F64 (stdEnv june15) exOutside [s%"envelopes", s%"-f", s%"j", s%"-n"]
      (disk [("j", String.ofList exGroceriesText)]) = (w1, .ok out) ∧
    mainProgram F64 ((stdEnv june15).on july11) exOutside [s%"envelopes", s%"-f", s%"j", s%"-n"]
      (disk [("j", String.ofList exGroceriesText)]) = (w2, .ok out') ∧
    ∃ r ∈ readEnvelopes out, ∃ r' ∈ readEnvelopes out', FiguresDiffer (s%"bank", [exGroceries])
      (fun x now next now' next' => now ≤ now' ∧ next' ≤ next ∧ now' + next' = now + next ∧
          ((∃ d, x.2.1.lastDue july11 = .ok (some d) ∧ ∀ e ∈ [exSalaryIn, exShopping, exSaving], Date.lt e.day d = true) →
            now' = max (now + next) 0 ∧ next' = min (now + next) 0)) r r' ∧ ∀ s, sumIn s r'.available = sumIn s r.available := by
  obtain ⟨w1, out, w2, out', h1, h2, _, h3⟩ := C153_as_days_pass (stdEnv june15) (fun _ l => List.Perm.refl l) july11 exOutside
    (disk [("j", String.ofList exGroceriesText)]) exGroceriesAccounts [exSalaryIn, exShopping, exSaving]
    exGroceriesText s%"j" exGroceriesText_ok exGroceries_fits (by decide) (by decide) (by decide +kernel)
    (by decide) s%"envelopes" [s%"-f", s%"j", s%"-n"] [.file s%"j", .noMove] rfl
    (.cons (.fileShort _) (.cons .noMoveShort .nil)) rfl (by simp)
    (small_books_of_all (by decide +kernel) (by decide +kernel) (by decide +kernel) (by decide +kernel))
    (by unfold Decided; decide +kernel) exGroceries_noSlash
  exact ⟨w1, out, w2, out', h1, h2, h3 (s%"bank", [exGroceries]) (by simp [exGroceriesAccounts]) (by simp)⟩

/-- The condition of its last clause is met on that day. -/
example : exGroceries.2.1.lastDue july11 = .ok (some ⟨2024, 7, 10, by decide⟩) ∧
    ∀ e ∈ [exSalaryIn, exShopping, exSaving], Date.lt e.day ⟨2024, 7, 10, by decide⟩ = true := by
  decide +kernel

end Silverfox
