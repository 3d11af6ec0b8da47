import Verif.Props.SetAside

/-
C152: a new journal can be begun with what the envelopes have.
-/

namespace Silverfox

set_option linter.unusedSectionVars false

/-! ### Specification -/

/-- Specification: an entry a new journal is begun with. Its ordinary lines bring to each account with envelopes, in every
currency, what is written for the account in the old journal; its lines that name envelopes put into each envelope what the
envelope has in the old journal. -/
structure BEntry.Opens (b : BEntry) (accs : List DeclAccount) (es : List BEntry) : Prop where
  names : b.moves ≠ []
  money : ∀ p ∈ accs, p.2 ≠ [] → ∀ s, b.brings p.1 s = writtenSum p.1 s (es.map BEntry.plain)
  envelopes : ∀ p ∈ accs, ∀ x ∈ p.2, b.puts p.1 x.1.name = heldOf p.1 x es

/-- Specification: the same is said of an account: for each envelope, by its name, what there is now and what is saved for the
next time, and what is available in every currency. -/
structure SaysSame (r r' : AccountSays) : Prop where
  account : r'.account = r.account
  names : r'.envelopes.map Prod.fst = r.envelopes.map Prod.fst
  figures : ∀ q ∈ r.envelopes.zip r'.envelopes, ∀ s, sumIn s [q.2.2.1] = sumIn s [q.1.2.1] ∧ sumIn s [q.2.2.2] = sumIn s [q.1.2.2]
  available : ∀ s, sumIn s r'.available = sumIn s r.available

/-! ### Two journals -/

/-- The envelope reports of two journals with the same accounts. -/
theorem two_journals (env : Env) (hord : FairOrder env.ord) (o : Outside) (w w' : World)
    (accs : List DeclAccount) (es es' : List BEntry) (text text' path : Str)
    (h : EnvelopeJournal env accs es text) (h' : EnvelopeJournal env accs es' text')
    (hf : EnvelopesFit env.today accs es) (hf' : EnvelopesFit env.today accs es') (hr : w.read path = some text)
    (hr' : w'.read path = some text') (hfuel : o.fuel ≠ 0) (c : Str) (args : List Str) (gs : List Flag)
    (hc : c.head? = some 'e') (ha : Spelled gs args) (hj : journalFor o gs = some path) (hn : Flag.noMove ∈ gs)
    (hs : SmallBooks accs es) (hs' : SmallBooks accs es') (hd : Decided accs es) (hd' : Decided accs es')
    (hslash : ∀ p ∈ accs, ∀ x ∈ p.2, ∀ y, x.target.sym = some y → '/' ∉ y) :
    ∃ w1 out w2 out', mainProgram F64 env o (c :: args) w = (w1, .ok out) ∧ mainProgram F64 env o (c :: args) w' = (w2, .ok out') ∧
      (readEnvelopes out').map (·.account) = (readEnvelopes out).map (·.account) ∧
      ∀ p ∈ accs, p.2 ≠ [] → ∃ r ∈ readEnvelopes out, ∃ r' ∈ readEnvelopes out',
        Differs p (fun x => heldOf p.1 x es' - heldOf p.1 x es) (fun s => availableOf p s es' - availableOf p s es) r r' := by
  obtain ⟨w1, out, m1, _, s1, shown, p1, q1⟩ := C142_all_the_money_is_there env hord o w accs _ text path h hf hr hfuel c args gs hc ha hj
    hn hs hd hslash
  obtain ⟨w2, out', m2, _, s2, shown', p2, q2⟩ := C142_all_the_money_is_there env hord o w' accs _ text' path h' hf' hr' hfuel c args gs hc
    ha hj hn hs' hd' hslash
  refine ⟨w1, out, w2, out', m1, m2, ?_, ?_⟩
  · have accounts : ∀ {es : List BEntry} {ps : List DeclAccount} {rs : List AccountSays}, List.Forall₂ (SaysAll env.today es) ps rs →
        rs.map (·.account) = ps.map Prod.fst := by
      intro es ps rs hq
      induction hq with
      | nil => rfl
      | cons a _ ih => rw [List.map_cons, List.map_cons, a.account, ih]
    have hp : ((readEnvelopes out').map (·.account)).Perm ((readEnvelopes out).map (·.account)) := by
      rw [accounts q1, accounts q2]
      exact (p2.trans p1.symm).map _
    refine hp.eq_of_pairwise (le := fun a b => strLt a b = true) ?_ ?_ ?_
    · intro a b _ _ hab hba
      rw [strLt_asymm _ _ hab] at hba
      cases hba
    · exact List.pairwise_map.2 s2
    · exact List.pairwise_map.2 s1
  · intro p hp hne
    have hm : p ∈ accs.filter fun p => p.2 ≠ [] := by simp [hp, hne]
    obtain ⟨r, hr1, k1⟩ := forall₂_mem_left q1 (p1.mem_iff.2 hm)
    obtain ⟨r', hr2, k2⟩ := forall₂_mem_left q2 (p2.mem_iff.2 hm)
    exact ⟨r, hr1, r', hr2, says_differs k1 k2⟩

theorem held_append (k : Str) (x : MeantDecl Rat) (es fs : List BEntry) : heldOf k x (es ++ fs) = heldOf k x es + heldOf k x fs := by
  unfold heldOf
  rw [List.flatMap_append, List.sum_append]

theorem held_opened {b : BEntry} (hb : b.moves ≠ []) (k : Str) (x : MeantDecl Rat) (fs : List BEntry) :
    heldOf k x (b :: fs) = b.puts k x.1.name + heldOf k x fs := by
  rw [← puts_eq b hb]
  unfold heldOf
  rw [List.flatMap_cons, List.sum_append]

theorem written_append (k : Str) (s : Option Str) (es fs : List BEntry) :
    writtenSum k s ((es ++ fs).map BEntry.plain) = writtenSum k s (es.map BEntry.plain) + writtenSum k s (fs.map BEntry.plain) := by
  unfold writtenSum
  simp only [List.map_append, List.flatMap_append, List.sum_append]

theorem written_opened (k : Str) (s : Option Str) (b : BEntry) (fs : List BEntry) :
    writtenSum k s ((b :: fs).map BEntry.plain) = b.brings k s + writtenSum k s (fs.map BEntry.plain) := by
  unfold writtenSum BEntry.brings
  simp only [List.map_cons, List.flatMap_cons, List.map_append, List.sum_append]

/-- C152. With doubles, as the program has them: a journal is closed, and a new one is begun that declares the same accounts
and envelopes and begins with an entry that brings to the accounts what they have and puts into the envelopes what they have.
Whatever is entered from then on, the envelope report of the new journal and that of the journal that goes on without being
closed have the same paragraphs and the same envelopes; each envelope has as much money in the one as in the other; and as
much is available in every currency. -/
theorem C152_carried_forward_partial (env : Env) (hord : FairOrder env.ord) (o : Outside) (w w' : World)
    (accs : List DeclAccount) (es fs : List BEntry) (b : BEntry) (text text' path : Str)
    (h : EnvelopeJournal env accs (es ++ fs) text) (h' : EnvelopeJournal env accs (b :: fs) text')
    (hf : EnvelopesFit env.today accs (es ++ fs)) (hf' : EnvelopesFit env.today accs (b :: fs)) (hr : w.read path = some text)
    (hr' : w'.read path = some text') (hfuel : o.fuel ≠ 0) (c : Str) (args : List Str) (gs : List Flag)
    (hc : c.head? = some 'e') (ha : Spelled gs args) (hj : journalFor o gs = some path) (hn : Flag.noMove ∈ gs)
    (hs : SmallBooks accs (es ++ fs)) (hs' : SmallBooks accs (b :: fs)) (hd : Decided accs (es ++ fs))
    (hd' : Decided accs (b :: fs)) (hslash : ∀ p ∈ accs, ∀ x ∈ p.2, ∀ y, x.target.sym = some y → '/' ∉ y)
    (hb : b.Opens accs es) :
    ∃ w1 out w2 out', mainProgram F64 env o (c :: args) w = (w1, .ok out) ∧ mainProgram F64 env o (c :: args) w' = (w2, .ok out') ∧
      (readEnvelopes out').map (·.account) = (readEnvelopes out).map (·.account) ∧
      ∀ p ∈ accs, p.2 ≠ [] → ∃ r ∈ readEnvelopes out, ∃ r' ∈ readEnvelopes out',
        Differs p (fun _ => 0) (fun _ => 0) r r' := by
  obtain ⟨w1, out, w2, out', m1, m2, hacc, hall⟩ := two_journals env hord o w w' accs _ _ text text' path h h' hf hf' hr hr' hfuel c args gs
    hc ha hj hn hs hs' hd hd' hslash
  refine ⟨w1, out, w2, out', m1, m2, hacc, fun p hp hne => ?_⟩
  obtain ⟨r, hr1, r', hr2, k⟩ := hall p hp hne
  have hh : ∀ x ∈ p.2, heldOf p.1 x (b :: fs) = heldOf p.1 x (es ++ fs) := fun x hx => by
    rw [held_opened hb.names, hb.envelopes p hp x hx, held_append]
  have ho : ∀ x ∈ ofKind .expense p.2 ++ ofKind .goal p.2, x ∈ p.2 := by
    intro x hx
    rcases List.mem_append.1 hx with hx | hx
    · exact (List.mem_filter.1 hx).1
    · exact (List.mem_filter.1 hx).1
  refine ⟨r, hr1, r', hr2, k.account, k.names, ?_, fun s => ?_⟩
  · have := k.envelopes
    revert this ho
    generalize ofKind .expense p.2 ++ ofKind .goal p.2 = xs
    generalize r.envelopes.zip r'.envelopes = l
    intro ho h3
    induction h3 with
    | nil => exact .nil
    | @cons x q xs l h4 _ ih =>
      refine .cons ?_ (ih fun y hy => ho y (by simp [hy]))
      rw [h4, hh x (ho x (by simp)), sub_self]
  · rw [k.available s]
    have : availableOf p s (b :: fs) = availableOf p s (es ++ fs) := by
      unfold availableOf
      rw [written_opened, hb.money p hp hne, written_append]
      congr 2
      exact List.map_congr_left fun x hx => hh x (List.mem_filter.1 hx).1
    rw [this, sub_self]

/-! ### What there is now -/

theorem now_append (last : Option Date) (k : Str) (x : MeantDecl Rat) (es fs : List BEntry) :
    nowOf last k x (es ++ fs) = nowOf last k x es + nowOf last k x fs := by
  unfold nowOf
  rw [List.flatMap_append, List.sum_append]

theorem now_before {d : Date} {es : List BEntry} (h : ∀ e ∈ es, Date.lt e.day d = true) (k : Str) (x : MeantDecl Rat) :
    nowOf (some d) k x es = heldOf k x es := by
  unfold nowOf heldOf
  induction es with
  | nil => rfl
  | cons e es ih =>
    rw [List.flatMap_cons, List.flatMap_cons, List.sum_append, List.sum_append, ih fun y hy => h y (by simp [hy])]
    congr 2
    conv_rhs => rw [← List.map_id (BEntry.movesIn k x e)]
    refine List.map_congr_left fun v _ => ?_
    have hF : ForNow (some d) e.day v := Or.inr ⟨d, rfl, h e (by simp)⟩
    rw [if_pos hF]
    rfl

theorem same_figures {today : Date} {k : Str} {es es' : List BEntry} {xs : List (MeantDecl Rat)} {rs rs' : List (Str × Str × Str)}
    (h : List.Forall₂ (EnvelopeSays today k es) xs rs) (h' : List.Forall₂ (EnvelopeSays today k es') xs rs')
    (hn : ∀ x ∈ xs, ∀ last, x.2.1.lastDue today = .ok last → nowOf last k x es' = nowOf last k x es)
    (hh : ∀ x ∈ xs, heldOf k x es' = heldOf k x es) :
    ∀ q ∈ rs.zip rs', ∀ s, sumIn s [q.2.2.1] = sumIn s [q.1.2.1] ∧ sumIn s [q.2.2.2] = sumIn s [q.1.2.2] := by
  induction h generalizing rs' with
  | nil => cases h'; intro q hq; cases hq
  | @cons x r xs rs h1 _ ih =>
    cases h' with
    | cons h2 h3 =>
      intro q hq
      rw [List.zip_cons_cons, List.mem_cons] at hq
      rcases hq with rfl | hq
      · obtain ⟨_, a, b, ha, hb, hab, last, hl, rfl, rfl⟩ := h1
        obtain ⟨_, a', b', ha', hb', hab', last', hl', rfl, rfl⟩ := h2
        rw [hl] at hl'
        cases hl'
        have e := hn x (by simp) last hl
        have e' := hh x (by simp)
        have en : nextOf last k x es' = nextOf last k x es := by
          rw [held_split last, held_split last, e] at e'
          linarith
        intro s
        rw [e] at ha'
        rw [e, en] at hb'
        rw [sumIn_cons _ _ _ ha, sumIn_cons _ _ _ ha', sumIn_cons _ _ _ hb, sumIn_cons _ _ _ hb']
        exact ⟨rfl, rfl⟩
      · exact ih h3 (fun y hy => hn y (by simp [hy])) (fun y hy => hh y (by simp [hy])) q hq

/-- C152. If the old journal is closed, and the new one begun, before the last due date of the envelopes, also what there is now
and what is saved for the next time is the same in both reports. -/
theorem C152_closed_before_the_due_date (env : Env) (hord : FairOrder env.ord) (o : Outside) (w w' : World)
    (accs : List DeclAccount) (es fs : List BEntry) (b : BEntry) (text text' path : Str)
    (h : EnvelopeJournal env accs (es ++ fs) text) (h' : EnvelopeJournal env accs (b :: fs) text')
    (hf : EnvelopesFit env.today accs (es ++ fs)) (hf' : EnvelopesFit env.today accs (b :: fs)) (hr : w.read path = some text)
    (hr' : w'.read path = some text') (hfuel : o.fuel ≠ 0) (c : Str) (args : List Str) (gs : List Flag)
    (hc : c.head? = some 'e') (ha : Spelled gs args) (hj : journalFor o gs = some path) (hn : Flag.noMove ∈ gs)
    (hs : SmallBooks accs (es ++ fs)) (hs' : SmallBooks accs (b :: fs)) (hd : Decided accs (es ++ fs))
    (hd' : Decided accs (b :: fs)) (hslash : ∀ p ∈ accs, ∀ x ∈ p.2, ∀ y, x.target.sym = some y → '/' ∉ y)
    (hb : b.Opens accs es)
    (hday : ∀ p ∈ accs, ∀ x ∈ p.2, ∃ d, x.2.1.lastDue env.today = .ok (some d) ∧ ∀ e ∈ b :: es, Date.lt e.day d = true) :
    ∃ w1 out w2 out', mainProgram F64 env o (c :: args) w = (w1, .ok out) ∧ mainProgram F64 env o (c :: args) w' = (w2, .ok out') ∧
      List.Forall₂ SaysSame (readEnvelopes out) (readEnvelopes out') := by
  obtain ⟨w1, out, m1, _, s1, shown, p1, q1⟩ := C142_all_the_money_is_there env hord o w accs _ text path h hf hr hfuel c args gs hc ha hj
    hn hs hd hslash
  obtain ⟨w2, out', m2, _, s2, shown', p2, q2⟩ := C142_all_the_money_is_there env hord o w' accs _ text' path h' hf' hr' hfuel c args gs hc
    ha hj hn hs' hd' hslash
  refine ⟨w1, out, w2, out', m1, m2, ?_⟩
  have sorted : ∀ {es : List BEntry} {ps : List DeclAccount} {rs : List AccountSays}, List.Forall₂ (SaysAll env.today es) ps rs →
      rs.Pairwise (fun a b => strLt a.account b.account = true) → ps.Pairwise (fun a b => strLt a.1 b.1 = true) := by
    intro es ps rs hq hp
    have e : ps.map Prod.fst = rs.map (·.account) := by
      clear hp
      induction hq with
      | nil => rfl
      | cons a _ ih => rw [List.map_cons, List.map_cons, a.account, ih]
    have := List.pairwise_map (f := fun r : AccountSays => r.account) (R := fun a b => strLt a b = true) |>.2 hp
    rw [← e] at this
    exact List.pairwise_map.1 this
  have e : shown' = shown := by
    refine (p2.trans p1.symm).eq_of_pairwise (le := fun a b => strLt a.1 b.1 = true) ?_ (sorted q2 s2) (sorted q1 s1)
    intro a b _ _ hab hba
    rw [strLt_asymm _ _ hab] at hba
    cases hba
  subst e
  have hm : ∀ p ∈ shown', p ∈ accs ∧ p.2 ≠ [] := fun p hp => by simpa using p2.mem_iff.1 hp
  have one : ∀ p r r', p ∈ accs → p.2 ≠ [] → SaysAll env.today (es ++ fs) p r → SaysAll env.today (b :: fs) p r' → SaysSame r r' := by
    intro p r r' hp hne k k'
    have hh : ∀ x ∈ p.2, heldOf p.1 x (b :: fs) = heldOf p.1 x (es ++ fs) := fun x hx => by
      rw [held_opened hb.names, hb.envelopes p hp x hx, held_append]
    have ho : ∀ x ∈ ofKind .expense p.2 ++ ofKind .goal p.2, x ∈ p.2 := by
      intro x hx
      rcases List.mem_append.1 hx with hx | hx
      · exact (List.mem_filter.1 hx).1
      · exact (List.mem_filter.1 hx).1
    refine ⟨by rw [k.account, k'.account], by rw [k.envelopes, k'.envelopes],
      same_figures k.each k'.each ?_ (fun x hx => hh x (ho x hx)), fun s => ?_⟩
    · intro x hx last hl
      obtain ⟨d, hd, hlt⟩ := hday p hp x (ho x hx)
      rw [hd] at hl
      cases hl
      have e1 : nowOf (some d) p.1 x [b] = nowOf (some d) p.1 x es := by
        rw [now_before (fun e he => hlt e (by simp at he; simp [he])), now_before (fun e he => hlt e (by simp [he])),
          held_opened hb.names, hb.envelopes p hp x (ho x hx)]
        exact add_zero _
      show nowOf (some d) p.1 x ([b] ++ fs) = _
      rw [now_append, now_append, e1]
    · rw [k.available, k'.available]
      unfold availableOf
      rw [written_opened, hb.money p hp hne, written_append]
      congr 2
      exact List.map_congr_left fun x hx => hh x (List.mem_filter.1 hx).1
  clear p1 p2 s1 s2 m1 m2
  generalize readEnvelopes out = rs at q1
  generalize readEnvelopes out' = rs' at q2
  induction q1 generalizing rs' with
  | nil => cases q2; exact .nil
  | @cons p r ps rs k1 _ ih =>
    cases q2 with
    | cons k2 k3 =>
      obtain ⟨hp, hne⟩ := hm p (by simp)
      exact .cons (one p _ _ hp hne k1 k2) (ih (fun q hq => hm q (by simp [hq])) _ k3)

/-! ### What is not carried forward, and a concrete case -/

/-- The entry the new journal begins with: the bank has $87.75, of which $18.25 are for food. -/
def exCarried : BEntry where
  date := s%"2024/06/12"
  mark := s%"*"
  title := s%"opening"
  day := ⟨2024, 6, 12, by decide⟩
  lines := [.posting ⟨s%" ", s%"bank", s%" ", s%"$87.75", some (351 / 4, some s%"$")⟩,
    .posting ⟨s%" ", s%"shop", s%" ", s%"12.25$", some (49 / 4, some s%"$")⟩,
    .posting ⟨s%" ", s%"pay", s%" ", s%"-100 $", some (-100, some s%"$")⟩,
    .move ⟨s%" ", s%" ", s%"bank", s%" ", s%"food", s%" ", s%"$18.25", (73 / 4, some s%"$")⟩]

def exCarriedText : Str := s%"account bank\n  expense food due every 10th\n    amount $40\n    for shop\naccount shop\naccount pay\n\n2024/06/12 * opening\n bank $87.75\n shop 12.25$\n pay -100 $\n envelope bank food $18.25\n2024/06/13 * save\n bank $5\n pay $-5"

/-- C152. What there is now and what is saved for the next time is not carried forward: in the old journal $ 18.25 are there
now for food, and the new journal says that there is nothing now and $ 18.25 are saved for the next time. -/
theorem C152_now_becomes_next :
    (∃ out, (mainProgram F64 (stdEnv june15) exOutside [s%"envelopes", s%"-f", s%"j", s%"-n"]
        (disk [("j", String.ofList exMorePayText)])).2 = .ok out ∧
      (readEnvelopes out).map (fun r => (sumIn (some s%"$") r.available,
        r.envelopes.map fun e => (e.1, sumIn (some s%"$") [e.2.1], sumIn (some s%"$") [e.2.2]))) =
        [(149 / 2, [(s%"food", 73 / 4, 0)])]) ∧
    ∃ out, (mainProgram F64 (stdEnv june15) exOutside [s%"envelopes", s%"-f", s%"j", s%"-n"]
        (disk [("j", String.ofList exCarriedText)])).2 = .ok out ∧
      (readEnvelopes out).map (fun r => (sumIn (some s%"$") r.available,
        r.envelopes.map fun e => (e.1, sumIn (some s%"$") [e.2.1], sumIn (some s%"$") [e.2.2]))) =
        [(149 / 2, [(s%"food", 0, 73 / 4)])] := by
  constructor <;> decide +kernel

/-- C152. The balance report is not carried forward: it counts again what lines that name envelopes set aside, but not what is
paid out of envelopes (see C137). Of the same money the old journal says $ 123.25 and the new one $ 111. -/
theorem C152_balance_is_not_carried :
    (∃ out, (mainProgram F64 (stdEnv june15) exOutside [s%"balance", s%"-f", s%"j", s%"-n"]
        (disk [("j", String.ofList exMorePayText)])).2 = .ok out ∧
      sumIn (some s%"$") (reportedFor out s%"bank") = 493 / 4) ∧
    ∃ out, (mainProgram F64 (stdEnv june15) exOutside [s%"balance", s%"-f", s%"j", s%"-n"]
        (disk [("j", String.ofList exCarriedText)])).2 = .ok out ∧
      sumIn (some s%"$") (reportedFor out s%"bank") = 111 := by
  constructor <;> decide +kernel

theorem exCarriedText_ok : EnvelopeJournal (stdEnv june15) exGroceriesAccounts (exCarried :: [exMorePay]) exCarriedText := by
  refine ⟨.of (by decide +kernel), exGroceriesText_ok.once, exGroceriesText_ok.names, exGroceriesText_ok.envelopes,
    exGroceriesText_ok.distinct, ?_⟩
  have hd : ValidSymbol '.' s%"$" := by decide
  have a1 : WrittenAmount s%"$87.75" (351 / 4) (some s%"$") :=
    ⟨s%"87.75", false, 8775, 2, ⟨s%"87", s%"75", by decide, by decide, by decide, by decide, by decide, by decide⟩,
      by norm_num, Or.inr ⟨_, rfl, hd, by decide⟩⟩
  have a2 : WrittenAmount s%"12.25$" (49 / 4) (some s%"$") :=
    ⟨s%"12.25", false, 1225, 2, ⟨s%"12", s%"25", by decide, by decide, by decide, by decide, by decide, by decide⟩,
      by norm_num, Or.inr ⟨_, rfl, hd, by decide⟩⟩
  have a3 : WrittenAmount s%"-100 $" (-100) (some s%"$") :=
    ⟨s%"-100", true, 100, 0, ⟨s%"100", [], by decide, by decide, by decide, by decide, by decide, by decide⟩,
      by norm_num, Or.inr ⟨_, rfl, hd, by decide⟩⟩
  have a4 : WrittenAmount s%"$18.25" (73 / 4) (some s%"$") :=
    ⟨s%"18.25", false, 1825, 2, ⟨s%"18", s%"25", by decide, by decide, by decide, by decide, by decide, by decide⟩,
      by norm_num, Or.inr ⟨_, rfl, hd, by decide⟩⟩
  intro e he
  simp only [List.mem_cons, List.not_mem_nil, or_false] at he
  rcases he with rfl | rfl
  · refine ⟨⟨by decide +kernel, by decide, by decide, by decide +kernel, ?_, by decide, ?_⟩, ?_, ?_⟩
    · intro l hl
      simp only [exCarried, BEntry.plain, List.filterMap_cons, List.filterMap_nil, List.mem_cons, List.not_mem_nil,
        or_false] at hl
      rcases hl with rfl | rfl | rfl
      · refine ⟨by decide, by decide, by decide, by decide, by decide, by decide +kernel, by simp, ?_⟩
        intro q s h; cases h; exact ⟨by decide, by decide +kernel, a1⟩
      · refine ⟨by decide, by decide, by decide, by decide, by decide, by decide +kernel, by simp, ?_⟩
        intro q s h; cases h; exact ⟨by decide, by decide +kernel, a2⟩
      · refine ⟨by decide, by decide, by decide, by decide, by decide, by decide +kernel, by simp, ?_⟩
        intro q s h; cases h; exact ⟨by decide, by decide +kernel, a3⟩
    · rintro ⟨l, hl, hv⟩
      simp only [exCarried, BEntry.plain, List.filterMap_cons, List.filterMap_nil, List.mem_cons, List.not_mem_nil,
        or_false] at hl
      rcases hl with rfl | rfl | rfl <;> cases hv
    · intro m hm
      simp only [exCarried, BEntry.moves, List.filterMap_cons, List.filterMap_nil, List.mem_cons, List.not_mem_nil,
        or_false] at hm
      subst hm
      exact ⟨by decide, by decide, by decide, by decide, by decide, by decide, a4⟩
    · intro _; decide
  · exact exMorePayText_ok.entries _ (by simp)

theorem exCarried_opens : exCarried.Opens exGroceriesAccounts [exSalaryIn, exShopping] := by
  refine ⟨by decide, ?_, by decide +kernel⟩
  intro p hp hne s
  simp only [exGroceriesAccounts, List.mem_cons, List.not_mem_nil, or_false] at hp
  rcases hp with rfl | rfl | rfl
  · by_cases e : s = some s%"$"
    · subst e; decide +kernel
    · have e1 : exCarried.plain.moves s%"bank" = [(351 / 4, some s%"$")] := by decide +kernel
      have e2 : ([exSalaryIn, exShopping].map BEntry.plain).flatMap (PEntry.moves s%"bank") = [(100, some s%"$"), (-49 / 4, some s%"$")] := by
        decide +kernel
      unfold BEntry.brings writtenSum
      rw [e1, e2]; simp [Ne.symm e]
  · exact absurd rfl hne
  · exact absurd rfl hne

/-- The journal of C150 is closed before its last entry. -/
example : ∃ w1 out w2 out', mainProgram F64 (stdEnv june15) exOutside [s%"envelopes", s%"-f", s%"j", s%"-n"]
      (disk [("j", String.ofList exMorePayText)]) = (w1, .ok out) ∧
    mainProgram F64 (stdEnv june15) exOutside [s%"envelopes", s%"-f", s%"j", s%"-n"]
      (disk [("j", String.ofList exCarriedText)]) = (w2, .ok out') ∧
    ∃ r ∈ readEnvelopes out, ∃ r' ∈ readEnvelopes out', Differs (s%"bank", [exGroceries]) (fun _ => 0) (fun _ => 0) r r' := by
  obtain ⟨w1, out, w2, out', h1, h2, _, h3⟩ := C152_carried_forward_partial (stdEnv june15) (fun _ l => List.Perm.refl l) exOutside
    (disk [("j", String.ofList exMorePayText)]) (disk [("j", String.ofList exCarriedText)]) exGroceriesAccounts [exSalaryIn, exShopping]
    [exMorePay] exCarried exMorePayText exCarriedText s%"j" exMorePayText_ok exCarriedText_ok
    ⟨june15_inner, exGroceries_fits.schedule, by decide +kernel, by decide +kernel⟩
    ⟨june15_inner, exGroceries_fits.schedule, by decide +kernel, by decide +kernel⟩ (by decide +kernel)
    (by decide +kernel) (by decide) s%"envelopes" [s%"-f", s%"j", s%"-n"] [.file s%"j", .noMove] rfl
    (.cons (.fileShort _) (.cons .noMoveShort .nil)) rfl (by simp)
    (small_books_of_all (by decide +kernel) (by decide +kernel) (by decide +kernel) (by decide +kernel))
    (small_books_of_all (by decide +kernel) (by decide +kernel) (by decide +kernel) (by decide +kernel))
    (by unfold Decided; decide +kernel) (by unfold Decided; decide +kernel)
    (by
      intro p hp x hx y hy
      simp only [exGroceriesAccounts, List.mem_cons, List.not_mem_nil, or_false] at hp
      rcases hp with rfl | rfl | rfl
      · simp only [List.mem_cons, List.not_mem_nil, or_false] at hx
        subst hx
        cases hy
        decide
      · cases hx
      · cases hx) exCarried_opens
  exact ⟨w1, out, w2, out', h1, h2, h3 (s%"bank", [exGroceries]) (by simp [exGroceriesAccounts]) (by simp)⟩

/-- An entry for a journal that is begun before the tenth. -/
def exReopened : BEntry := { exSalaryIn with date := s%"2024/06/09", title := s%"opening", day := ⟨2024, 6, 9, by decide⟩ }

def exReopenedText : Str := s%"account bank\n  expense food due every 10th\n    amount $40\n    for shop\naccount shop\naccount pay\n\n2024/06/09 * opening\n bank $100\n pay -100 $\n envelope bank food $30.50\n2024/06/12 * shopping\n shop 12.25$\n bank"

theorem exReopenedText_ok : EnvelopeJournal (stdEnv june15) exGroceriesAccounts (exReopened :: [exShopping]) exReopenedText := by
  refine ⟨.of (by decide +kernel), exGroceriesText_ok.once, exGroceriesText_ok.names, exGroceriesText_ok.envelopes,
    exGroceriesText_ok.distinct, ?_⟩
  intro e he
  simp only [List.mem_cons, List.not_mem_nil, or_false] at he
  rcases he with rfl | rfl
  · have h := exGroceriesText_ok.entries exSalaryIn (by simp)
    exact ⟨⟨by decide +kernel, by decide, by decide, by decide +kernel, h.plain.lines, h.plain.blanks, h.plain.oneCurrency⟩, h.moves, h.full⟩
  · exact exGroceriesText_ok.entries _ (by simp)

theorem exReopened_opens : exReopened.Opens exGroceriesAccounts [exSalaryIn] := by
  refine ⟨by decide, ?_, by decide +kernel⟩
  intro p _ _ s
  unfold BEntry.brings writtenSum
  rw [List.map_cons, List.map_nil, List.flatMap_cons, List.flatMap_nil, List.append_nil]
  rfl

/-- The journal is closed and begun again on the ninth, before the due date. -/
example : ∃ w1 out w2 out', mainProgram F64 (stdEnv june15) exOutside [s%"envelopes", s%"-f", s%"j", s%"-n"]
      (disk [("j", String.ofList exUnsavedText)]) = (w1, .ok out) ∧
    mainProgram F64 (stdEnv june15) exOutside [s%"envelopes", s%"-f", s%"j", s%"-n"]
      (disk [("j", String.ofList exReopenedText)]) = (w2, .ok out') ∧
    List.Forall₂ SaysSame (readEnvelopes out) (readEnvelopes out') :=
  C152_closed_before_the_due_date (stdEnv june15) (fun _ l => List.Perm.refl l) exOutside
    (disk [("j", String.ofList exUnsavedText)]) (disk [("j", String.ofList exReopenedText)]) exGroceriesAccounts [exSalaryIn]
    [exShopping] exReopened exUnsavedText exReopenedText s%"j" exUnsavedText_ok exReopenedText_ok
    ⟨june15_inner, exGroceries_fits.schedule, by decide +kernel, by decide +kernel⟩
    ⟨june15_inner, exGroceries_fits.schedule, by decide +kernel, by decide +kernel⟩ (by decide +kernel)
    (by decide +kernel) (by decide) s%"envelopes" [s%"-f", s%"j", s%"-n"] [.file s%"j", .noMove] rfl
    (.cons (.fileShort _) (.cons .noMoveShort .nil)) rfl (by simp)
    (small_books_of_all (by decide +kernel) (by decide +kernel) (by decide +kernel) (by decide +kernel))
    (small_books_of_all (by decide +kernel) (by decide +kernel) (by decide +kernel) (by decide +kernel))
    (by unfold Decided; decide +kernel) (by unfold Decided; decide +kernel)
    (by
      intro p hp x hx y hy
      simp only [exGroceriesAccounts, List.mem_cons, List.not_mem_nil, or_false] at hp
      rcases hp with rfl | rfl | rfl
      · simp only [List.mem_cons, List.not_mem_nil, or_false] at hx
        subst hx
        cases hy
        decide
      · cases hx
      · cases hx) exReopened_opens
    (by
      intro p hp x hx
      simp only [exGroceriesAccounts, List.mem_cons, List.not_mem_nil, or_false] at hp
      rcases hp with rfl | rfl | rfl
      · simp only [List.mem_cons, List.not_mem_nil, or_false] at hx
        subst hx
        exact ⟨⟨2024, 6, 10, by decide⟩, by decide +kernel, by decide +kernel⟩
      · cases hx
      · cases hx)

end Silverfox
