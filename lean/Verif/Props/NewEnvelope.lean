import Verif.Props.NowAndNext
import Verif.Props.FillText

/-
C158: a new envelope is empty, and leaves the others as they are.
-/

namespace Silverfox

set_option linter.unusedSectionVars false

/-! ### Specification -/

/-- Specification: what is said of the envelopes of an account in a currency: the name, what there is now, what is saved. -/
def AccountSays.figures (s : Option Str) (r : AccountSays) : List (Str × Rat × Rat) :=
  r.envelopes.map fun e => (e.1, saidNow s e, saidNext s e)

/-- Specification: no entry has to do with the envelope: none names it, and none pays an account it is for. -/
structure Unused (k : Str) (x : MeantDecl Rat) (es : List BEntry) : Prop where
  named : ∀ b ∈ es, ∀ m ∈ b.moves, ¬ (m.account = k ∧ m.envelope = x.1.name)
  paid : ∀ b ∈ es, b.moves = [] → ¬ b.Touches k x

/-! ### Figures -/

/-- The last due date. -/
def dueLast (today : Date) (x : MeantDecl Rat) : Option Date :=
  match x.2.1.lastDue today with
  | .ok last => last
  | .error _ => none

/-- What is to be said of an envelope. -/
def toSay (today : Date) (k : Str) (es : List BEntry) (s : Option Str) (x : MeantDecl Rat) : Str × Rat × Rat :=
  (x.1.name, if x.target.sym = s then max (nowOf (dueLast today x) k x es) 0 else 0,
    if x.target.sym = s then nextOf (dueLast today x) k x es + min (nowOf (dueLast today x) k x es) 0 else 0)

theorem figures_said {today : Date} {k : Str} {es : List BEntry} {xs : List (MeantDecl Rat)} {rs : List (Str × Str × Str)}
    (h : List.Forall₂ (EnvelopeSays today k es) xs rs) (s : Option Str) :
    (rs.map fun e => (e.1, saidNow s e, saidNext s e)) = xs.map (toSay today k es s) := by
  induction h with
  | nil => rfl
  | @cons x r xs rs h1 _ ih =>
    obtain ⟨n, a, b, ha, hb, _, last, hl, rfl, rfl⟩ := h1
    have e : dueLast today x = last := by unfold dueLast; rw [hl]
    rw [List.map_cons, List.map_cons, ih]
    congr 1
    unfold toSay saidNow saidNext
    rw [n, e, sumIn_cons _ _ _ ha, sumIn_cons _ _ _ hb]
    simp [sumIn]

theorem unused_movesIn {k : Str} {x : MeantDecl Rat} {es : List BEntry} (h : Unused k x es) {b : BEntry} (hb : b ∈ es) :
    b.movesIn k x = [] := by
  unfold BEntry.movesIn
  split
  · rw [List.filter_eq_nil_iff.2]
    · rfl
    · intro m hm hc
      exact h.named b hb m hm (of_decide_eq_true hc)
  · rename_i hm
    rw [not_not] at hm
    rw [if_neg (h.paid b hb hm)]

theorem unused_flatMap {α : Type} {es : List BEntry} {f : BEntry → List α} (h : ∀ b ∈ es, f b = []) : es.flatMap f = [] := by
  rw [List.flatMap_eq_nil_iff]
  exact h

theorem unused_toSay {today : Date} {k : Str} {x : MeantDecl Rat} {es : List BEntry} (h : Unused k x es) (s : Option Str) :
    toSay today k es s x = (x.1.name, 0, 0) := by
  have h1 : ∀ last, nowOf last k x es = 0 := fun last => by
    unfold nowOf
    rw [unused_flatMap fun b hb => by rw [unused_movesIn h hb]; rfl]; rfl
  have h2 : ∀ last, nextOf last k x es = 0 := fun last => by
    unfold nextOf
    rw [unused_flatMap fun b hb => by rw [unused_movesIn h hb]; rfl]; rfl
  unfold toSay
  rw [h1, h2]
  simp

theorem unused_held {k : Str} {x : MeantDecl Rat} {es : List BEntry} (h : Unused k x es) : heldOf k x es = 0 := by
  unfold heldOf
  rw [unused_flatMap fun b hb => unused_movesIn h hb]; rfl

theorem kinds_insert (x : MeantDecl Rat) (xs ys : List (MeantDecl Rat)) : ∃ l1 l2,
    ofKind .expense (xs ++ ys) ++ ofKind .goal (xs ++ ys) = l1 ++ l2 ∧
    ofKind .expense (xs ++ x :: ys) ++ ofKind .goal (xs ++ x :: ys) = l1 ++ x :: l2 := by
  unfold ofKind
  cases hk : x.1.kind with
  | expense =>
    refine ⟨xs.filter fun x => x.1.kind = .expense, (ys.filter fun x => x.1.kind = .expense) ++ (xs ++ ys).filter fun x => x.1.kind = .goal,
      ?_, ?_⟩
    · rw [← List.append_assoc, ← List.filter_append]
    · rw [List.filter_append, List.filter_append, List.filter_append, List.filter_cons_of_pos (by simpa using hk),
        List.filter_cons_of_neg (by simp [hk])]
      simp
  | goal =>
    refine ⟨((xs ++ ys).filter fun x => x.1.kind = .expense) ++ xs.filter fun x => x.1.kind = .goal, ys.filter fun x => x.1.kind = .goal,
      ?_, ?_⟩
    · rw [List.append_assoc, ← List.filter_append]
    · rw [List.filter_append, List.filter_append, List.filter_append, List.filter_cons_of_neg (by simp [hk]),
        List.filter_cons_of_pos (by simpa using hk)]
      simp

/-- C158. With doubles, as the program has them: an envelope is declared in addition, anywhere among those of an account, and no entry
has to do with it (journals as in C142, with the envelope and without). The envelope report says of the new envelope that there is
nothing now and nothing saved; of the other envelopes of the account, in the same order, and of what is available, what it said
before; and the same as before of every other account. -/
theorem C158_new_envelope (env : Env) (hord : FairOrder env.ord) (o : Outside) (w w' : World)
    (as bs : List DeclAccount) (k : Str) (xs ys : List (MeantDecl Rat)) (x : MeantDecl Rat) (es : List BEntry) (text text' path : Str)
    (h : EnvelopeJournal env (as ++ (k, xs ++ ys) :: bs) es text) (h' : EnvelopeJournal env (as ++ (k, xs ++ x :: ys) :: bs) es text')
    (hf : EnvelopesFit env.today (as ++ (k, xs ++ ys) :: bs) es) (hx : x.2.1.Safe ∧ x.2.1.Inner) (hr : w.read path = some text)
    (hr' : w'.read path = some text') (hfuel : o.fuel ≠ 0) (c : Str) (args : List Str) (gs : List Flag) (hc : c.head? = some 'e')
    (ha : Spelled gs args) (hj : journalFor o gs = some path) (hn : Flag.noMove ∈ gs) (hs : SmallBooks (as ++ (k, xs ++ ys) :: bs) es)
    (hs' : SmallBooks (as ++ (k, xs ++ x :: ys) :: bs) es) (hd : Decided (as ++ (k, xs ++ ys) :: bs) es)
    (hd' : Decided (as ++ (k, xs ++ x :: ys) :: bs) es)
    (hslash : ∀ p ∈ as ++ (k, xs ++ x :: ys) :: bs, ∀ x ∈ p.2, ∀ y, x.target.sym = some y → '/' ∉ y) (hu : Unused k x es) :
    ∃ w1 out w2 out', mainProgram F64 env o (c :: args) w = (w1, .ok out) ∧ mainProgram F64 env o (c :: args) w' = (w2, .ok out') ∧
      (xs ++ ys ≠ [] → ∃ r ∈ readEnvelopes out, ∃ r' ∈ readEnvelopes out', r.account = k ∧ r'.account = k ∧
        (∀ s, ∃ l1 l2, r.figures s = l1 ++ l2 ∧ r'.figures s = l1 ++ (x.1.name, 0, 0) :: l2) ∧
        ∀ s, sumIn s r'.available = sumIn s r.available) ∧
      (xs ++ ys = [] → ∃ r' ∈ readEnvelopes out', r'.account = k ∧ (∀ s, r'.figures s = [(x.1.name, 0, 0)]) ∧
        ∀ s, sumIn s r'.available = writtenSum k s (es.map BEntry.plain)) ∧
      ∀ p ∈ as ++ bs, p.2 ≠ [] → ∃ r ∈ readEnvelopes out, ∃ r' ∈ readEnvelopes out', r.account = p.1 ∧ r'.account = p.1 ∧
        (∀ s, r'.figures s = r.figures s) ∧ ∀ s, sumIn s r'.available = sumIn s r.available := by
  have hf' : EnvelopesFit env.today (as ++ (k, xs ++ x :: ys) :: bs) es := by
    have key : ∀ (P : Str → MeantDecl Rat → Prop), (∀ p ∈ as ++ (k, xs ++ ys) :: bs, ∀ x ∈ p.2, P p.1 x) → P k x →
        ∀ p ∈ as ++ (k, xs ++ x :: ys) :: bs, ∀ x ∈ p.2, P p.1 x := by
      intro P h0 h1 p hp z hz
      simp only [List.mem_append, List.mem_cons] at hp
      rcases hp with hp | rfl | hp
      · exact h0 p (by simp [hp]) z hz
      · simp only [List.mem_append, List.mem_cons] at hz
        rcases hz with hz | rfl | hz
        · exact h0 (k, xs ++ ys) (by simp) z (by simp [hz])
        · exact h1
        · exact h0 (k, xs ++ ys) (by simp) z (by simp [hz])
      · exact h0 p (by simp [hp]) z hz
    refine ⟨hf.today, key (fun _ x => x.2.1.Safe ∧ x.2.1.Inner) hf.schedule hx,
      key (fun k x => ∀ b ∈ es, ∀ m ∈ b.moves, m.account = k → m.envelope = x.1.name → m.value.2 = x.target.sym) hf.named
        (fun b hb m hm h1 h2 => absurd ⟨h1, h2⟩ (hu.named b hb m hm)),
      key (fun k x => ∀ b ∈ es, b.moves = [] → b.Touches k x → ∀ l ∈ b.plain.lines, ∀ v, b.plain.worth l = some v → v.2 = x.target.sym)
        hf.spent (fun b hb hm ht => absurd ht (hu.paid b hb hm))⟩
  have hslash0 : ∀ p ∈ as ++ (k, xs ++ ys) :: bs, ∀ x ∈ p.2, ∀ y, x.target.sym = some y → '/' ∉ y := by
    intro p hp z hz
    simp only [List.mem_append, List.mem_cons] at hp
    rcases hp with hp | rfl | hp
    · exact hslash p (by simp [hp]) z hz
    · refine hslash (k, xs ++ x :: ys) (by simp) z ?_
      simp only [List.mem_append, List.mem_cons] at hz ⊢
      tauto
    · exact hslash p (by simp [hp]) z hz
  obtain ⟨w1, out, m1, _, s1, shown, p1, z1⟩ := C142_all_the_money_is_there env hord o w _ _ text path h hf hr hfuel c args gs hc ha hj
    hn hs hd hslash0
  obtain ⟨w2, out', m2, _, s2, shown', p2, z2⟩ := C142_all_the_money_is_there env hord o w' _ _ text' path h' hf' hr' hfuel c args gs
    hc ha hj hn hs' hd' hslash
  have get : ∀ p ∈ as ++ (k, xs ++ ys) :: bs, p.2 ≠ [] → ∃ r ∈ readEnvelopes out, SaysAll env.today es p r := fun p hp hne =>
    forall₂_mem_left z1 (p1.mem_iff.2 (List.mem_filter.2 ⟨hp, by simpa using hne⟩))
  have get' : ∀ p ∈ as ++ (k, xs ++ x :: ys) :: bs, p.2 ≠ [] → ∃ r ∈ readEnvelopes out', SaysAll env.today es p r := fun p hp hne =>
    forall₂_mem_left z2 (p2.mem_iff.2 (List.mem_filter.2 ⟨hp, by simpa using hne⟩))
  obtain ⟨r', hr2, k'⟩ := get' (k, xs ++ x :: ys) (by simp) (by simp)
  have hav : ∀ s, availableOf (k, xs ++ x :: ys) s es = availableOf (k, xs ++ ys) s es := by
    intro s
    unfold availableOf
    show _ - (((xs ++ x :: ys).filter _).map _).sum = _ - (((xs ++ ys).filter _).map _).sum
    rw [List.filter_append, List.filter_append, List.map_append, List.map_append, List.sum_append, List.sum_append, List.filter_cons]
    split
    · rw [List.map_cons, List.sum_cons, unused_held hu, zero_add]
    · rfl
  refine ⟨w1, out, w2, out', m1, m2, fun hne => ?_, fun hnil => ?_, fun p hp hne => ?_⟩
  · obtain ⟨r, hr1, k1⟩ := get (k, xs ++ ys) (by simp) hne
    refine ⟨r, hr1, r', hr2, k1.account, k'.account, fun s => ?_, fun s => by rw [k1.available, k'.available, hav]⟩
    obtain ⟨l1, l2, e1, e2⟩ := kinds_insert x xs ys
    refine ⟨l1.map (toSay env.today k es s), l2.map (toSay env.today k es s), ?_, ?_⟩
    · have := figures_said k1.each s
      rw [e1, List.map_append] at this
      exact this
    · have := figures_said k'.each s
      rw [e2, List.map_append, List.map_cons, unused_toSay hu] at this
      exact this
  · refine ⟨r', hr2, k'.account, fun s => ?_, fun s => ?_⟩
    · obtain ⟨l1, l2, e1, e2⟩ := kinds_insert x xs ys
      rw [hnil] at e1
      obtain ⟨rfl, rfl⟩ := List.append_eq_nil_iff.1 e1.symm
      have := figures_said k'.each s
      rw [e2, List.nil_append, List.map_cons, List.map_nil, unused_toSay hu] at this
      exact this
    · rw [k'.available, hav, hnil]
      unfold availableOf
      simp
  · obtain ⟨r, hr1, k1⟩ := get p (by simp only [List.mem_append, List.mem_cons] at hp ⊢; tauto) hne
    obtain ⟨r', hr2, k2⟩ := get' p (by simp only [List.mem_append, List.mem_cons] at hp ⊢; tauto) hne
    refine ⟨r, hr1, r', hr2, k1.account, k2.account, fun s => ?_, fun s => by rw [k1.available, k2.available]⟩
    exact (figures_said k2.each s).trans (figures_said k1.each s).symm

/-! ### A concrete case -/

/-- The journal of C121 with a goal in addition. -/
def exAddedText : Str := s%"account bank\n  expense food due every 10th\n    amount $40\n    for shop\n  goal trip by 2024/06/23\n    amount $100\n    funding conservative\naccount shop\naccount pay\n\n2024/06/01 * salary\n bank $100\n pay -100 $\n envelope bank food $30.50\n2024/06/12 * shopping\n shop 12.25$\n bank\n2024/06/13 * save\n bank $5\n pay $-5\n envelope bank food $8"

theorem exAddedText_ok : EnvelopeJournal (stdEnv june15) ([] ++ (s%"bank", [exGroceries] ++ exTripGoal :: []) :: [(s%"shop", []), (s%"pay", [])])
    [exSalaryIn, exShopping, exSaving] exAddedText := by
  refine ⟨.of (by decide +kernel), by decide, by decide, ?_, ?_, exGroceriesText_ok.entries⟩
  · intro p hp x hx
    simp only [List.nil_append, List.mem_cons, List.not_mem_nil, or_false] at hp
    rcases hp with rfl | rfl | rfl
    · simp only [List.cons_append, List.nil_append, List.mem_cons, List.not_mem_nil, or_false] at hx
      rcases hx with rfl | rfl
      · exact exGroceries_ok
      · exact exTripGoal_ok
    · cases hx
    · cases hx
  · intro p hp k
    simp only [List.nil_append, List.mem_cons, List.not_mem_nil, or_false] at hp
    rcases hp with rfl | rfl | rfl <;> cases k <;> decide

/-- The goal is empty, and food is as before. -/
example : ∃ w1 out w2 out', mainProgram F64 (stdEnv june15) exOutside [s%"envelopes", s%"-f", s%"j", s%"-n"]
      (disk [("j", String.ofList exGroceriesText)]) = (w1, .ok out) ∧
    mainProgram F64 (stdEnv june15) exOutside [s%"envelopes", s%"-f", s%"j", s%"-n"]
      (disk [("j", String.ofList exAddedText)]) = (w2, .ok out') ∧
    ∃ r ∈ readEnvelopes out, ∃ r' ∈ readEnvelopes out', r.account = s%"bank" ∧ r'.account = s%"bank" ∧
      (∀ s, ∃ l1 l2, r.figures s = l1 ++ l2 ∧ r'.figures s = l1 ++ (s%"trip", 0, 0) :: l2) ∧
      ∀ s, sumIn s r'.available = sumIn s r.available := by
  obtain ⟨w1, out, w2, out', h1, h2, h3, _⟩ := C158_new_envelope (stdEnv june15) (fun _ l => List.Perm.refl l) exOutside
    (disk [("j", String.ofList exGroceriesText)]) (disk [("j", String.ofList exAddedText)]) [] [(s%"shop", []), (s%"pay", [])] s%"bank"
    [exGroceries] [] exTripGoal [exSalaryIn, exShopping, exSaving] exGroceriesText exAddedText s%"j" exGroceriesText_ok exAddedText_ok
    exGroceries_fits ⟨trivial, by show Date.Inner _; decide⟩ (by decide +kernel) (by decide +kernel) (by decide) s%"envelopes" [s%"-f", s%"j", s%"-n"]
    [.file s%"j", .noMove] rfl (.cons (.fileShort _) (.cons .noMoveShort .nil)) rfl (by simp)
    (small_books_of_all (by decide +kernel) (by decide +kernel) (by decide +kernel) (by decide +kernel))
    (small_books_of_all (by decide +kernel) (by decide +kernel) (by decide +kernel) (by decide +kernel))
    (by unfold Decided; decide +kernel) (by unfold Decided; decide +kernel) (by
      intro p hp x hx y hy
      simp only [List.nil_append, List.mem_cons, List.not_mem_nil, or_false] at hp
      rcases hp with rfl | rfl | rfl
      · simp only [List.cons_append, List.nil_append, List.mem_cons, List.not_mem_nil, or_false] at hx
        rcases hx with rfl | rfl
        · exact exGroceries_noSlash (s%"bank", [exGroceries]) (by simp [exGroceriesAccounts]) exGroceries (by simp) y hy
        · cases hy; decide
      · cases hx
      · cases hx) ⟨by decide +kernel, by decide +kernel⟩
  exact ⟨w1, out, w2, out', h1, h2, h3 (by simp)⟩

end Silverfox
