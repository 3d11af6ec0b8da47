import Verif.Props.RegisterExact
import Verif.Props.EnvelopeSums

/-
C137: what the balance report says of a journal with envelopes. C138: what the register says.
-/

namespace Silverfox

set_option linter.unusedSectionVars false

/-! ### Specification -/

/-- Specification: what the lines that name envelopes of an account move in an entry. -/
def BEntry.aside (k : Str) (b : BEntry) : List (Rat × Option Str) :=
  (b.moves.filter fun m => decide (m.account = k)).map MLine.value

/-- Specification: what they move in all entries, in a currency. -/
def asideSum (k : Str) (s : Option Str) (es : List BEntry) : Rat :=
  ((es.flatMap (BEntry.aside k)).map fun v => if v.2 = s then v.1 else 0).sum

/-- A line that names an envelope as if it were an ordinary line for the account. -/
def BLine.counted : BLine → PLine
  | .posting l => l
  | .move m => ⟨m.indent, m.account, m.gap3, (splitWs m.amount).flatten, some m.value⟩

/-- The entry as if lines that name envelopes were ordinary lines. -/
def BEntry.counted (b : BEntry) : PEntry := ⟨b.date, b.mark, b.title, b.day, b.lines.map BLine.counted⟩

/-! ### What is read -/

section

variable {M : Type} [Mag M]

/-- The same for what is read. -/
def Posting.counted : Posting M → Posting M
  | .classic c => .classic c
  | .envelope e => .classic ⟨e.account, some e.amount, none, none⟩

def Entry.counted (x : Entry M) : Entry M := { x with postings := x.postings.map Posting.counted }

theorem counted_account (p : Posting M) : p.counted.account = p.account := by cases p <;> rfl

theorem counted_amount (p : Posting M) : p.counted.amount = p.amount := by cases p <;> rfl

theorem counted_plain {x : Entry M} (h : ∀ p ∈ x.postings, p.isEnvelope = false) : x.counted = x := by
  have : x.postings.map Posting.counted = x.postings := by
    conv_rhs => rw [← List.map_id x.postings]
    refine List.map_congr_left fun p hp => ?_
    cases p with
    | classic c => rfl
    | envelope e => exact absurd (h _ hp) (by simp [Posting.isEnvelope])
  unfold Entry.counted
  rw [this]

/-- Where a posting is blank, there is no envelope posting. -/
def NoMixing (x : Entry M) : Prop := (∃ p ∈ x.postings, p.amount = none) → ∀ p ∈ x.postings, p.isEnvelope = false

theorem countStep_counted (k : Str) (x y : Entry M) (p : Posting M) (h : p.amount ≠ none ∨ x = y) (t : Option (Pool M)) :
    countStep k x t p.counted = countStep k y t p := by
  rcases h with h | rfl
  · unfold countStep
    rw [counted_account, counted_amount]
    cases ha : p.amount with
    | none => exact absurd ha h
    | some a => cases t <;> rfl
  · unfold countStep
    rw [counted_account, counted_amount]

theorem countAll_counted (k : Str) (es : List (Entry M)) (h : ∀ x ∈ es, NoMixing x) (t : Option (Pool M)) :
    countAll k (es.map Entry.counted) t = countAll k es t := by
  induction es generalizing t with
  | nil => rfl
  | cons x es ih =>
    have key : ∀ (ps : List (Posting M)) (t : Option (Pool M)), (∀ p ∈ ps, p.amount ≠ none ∨ x.counted = x) →
        (ps.map Posting.counted).foldl (countStep k x.counted) t = ps.foldl (countStep k x) t := by
      intro ps
      induction ps with
      | nil => intro _ _; rfl
      | cons p ps ih =>
        intro t hp
        rw [List.map_cons, List.foldl_cons, List.foldl_cons, countStep_counted k x.counted x p (hp p (by simp)),
          ih _ fun q hq => hp q (by simp [hq])]
    have h1 := key x.postings t (by
      intro p hp
      by_cases ha : p.amount = none
      · exact Or.inr (counted_plain (h x (by simp) ⟨p, hp, ha⟩))
      · exact Or.inl ha)
    show countAll k (es.map Entry.counted) ((x.postings.map Posting.counted).foldl (countStep k x.counted) t) =
      countAll k es (x.postings.foldl (countStep k x) t)
    rw [h1]
    exact ih (fun y hy => h y (by simp [hy])) _

theorem registerLoop_counted (x y : Entry M) (am : Option Str) (ps : List (Posting M))
    (h : ∀ p ∈ ps, p.amount ≠ none ∨ x = y) (pos neg : List Str) (pool : Pool M) :
    registerLoop x am (ps.map Posting.counted) pos neg pool = registerLoop y am ps pos neg pool := by
  induction ps generalizing pos neg pool with
  | nil => rfl
  | cons p ps ih =>
    have ih := ih fun q hq => h q (by simp [hq])
    simp only [List.map_cons, registerLoop, counted_account, counted_amount]
    cases ha : p.amount with
    | some a => simp only [bind, Except.bind, pure, Except.pure]; exact ih _ _ _
    | none =>
      rcases h p (by simp) with h | rfl
      · exact absurd ha h
      · simp only [bind, Except.bind]
        cases hb : x.blankAmount with
        | error f => rfl
        | ok b =>
          cases b with
          | none => rfl
          | some b => exact ih _ _ _

theorem registerData_counted (env : Env) (x : Entry M) (h : NoMixing x) (fmt : Str) (am : Option Str) :
    x.counted.registerData env fmt am = x.registerData env fmt am := by
  have h1 := registerLoop_counted x.counted x am x.postings (by
    intro p hp
    by_cases ha : p.amount = none
    · exact Or.inr (counted_plain (h ⟨p, hp, ha⟩))
    · exact Or.inl ha) [] [] []
  unfold Entry.registerData
  rw [show x.counted.postings = x.postings.map Posting.counted from rfl, h1]
  rfl

theorem rows_counted (env : Env) (fmt : Str) (am : Option Str) (xs : List (Entry M)) (h : ∀ x ∈ xs, NoMixing x) :
    Register.rows env fmt am (xs.map Entry.counted) = Register.rows env fmt am xs := by
  induction xs with
  | nil => rfl
  | cons x xs ih =>
    simp only [List.map_cons, Register.rows, registerData_counted env x (h x (by simp)), ih fun y hy => h y (by simp [hy])]

theorem select_counted (xs : List (Entry M)) (b e : Option Date) (am : Option Str) :
    Register.select (xs.map Entry.counted) b e am = (Register.select xs b e am).map Entry.counted := by
  unfold Register.select
  rw [List.filter_map]
  congr 1
  refine List.filter_congr fun x _ => ?_
  simp only [Function.comp, Entry.counted, List.any_map]
  congr 2
  funext p
  rw [Function.comp, counted_account]

/-- The register is the same. -/
theorem display_counted (env : Env) (terminal : Bool) (xs : List (Entry M)) (h : ∀ x ∈ xs, NoMixing x) (fmt : Str)
    (b e : Option Date) (am : Option Str) :
    Register.display env terminal (xs.map Entry.counted) fmt b e am = Register.display env terminal xs fmt b e am := by
  unfold Register.display
  rw [select_counted, rows_counted env fmt am (Register.select xs b e am) fun x hx => h x (List.mem_filter.1 hx).1]

theorem BEntry.Ok.noMixing {env : Env} {accs : List Str} {b : BEntry} (h : b.Ok env accs) {x : Entry M}
    (hx : BEntryOf b x) : NoMixing x := by
  rintro ⟨p, hp, ha⟩
  obtain ⟨hm, _⟩ := h.blankAmount hx ⟨p, hp, ha⟩
  intro q hq
  rw [(hx.plain hm).2] at hq
  obtain ⟨l, _, rfl⟩ := List.mem_map.1 hq
  rfl

theorem BEntryOf.counted {b : BEntry} {x : Entry M} (hx : BEntryOf b x) : EntryOf b.counted x.counted := by
  refine ⟨hx.1, ?_⟩
  show x.postings.map Posting.counted = (b.lines.map BLine.counted).map PLine.posting
  rw [hx.2, List.map_map, List.map_map]
  refine List.map_congr_left fun l _ => ?_
  cases l <;> rfl

theorem forall₂_counted {es : List BEntry} {xs : List (Entry M)} (h : List.Forall₂ BEntryOf es xs) :
    List.Forall₂ EntryOf (es.map BEntry.counted) (xs.map Entry.counted) := by
  rw [List.forall₂_map_left_iff, List.forall₂_map_right_iff]
  exact h.imp fun _ _ h => h.counted

theorem DateOrdered.counted {xs ys : List (Entry M)} (h : DateOrdered xs ys) :
    DateOrdered (xs.map Entry.counted) (ys.map Entry.counted) := by
  refine ⟨?_, h.same.map _, fun d => ?_⟩
  · rw [List.pairwise_map]; exact h.sorted
  · rw [List.filter_map, List.filter_map]
    exact congrArg _ (h.stable d)

end

/-! ### What is counted -/

theorem BEntry.Ok.counted_sound {env : Env} {accs : List Str} {b : BEntry} (h : b.Ok env accs) : b.counted.Sound := by
  refine ⟨?_, ?_⟩
  · intro l hl q s hv
    obtain ⟨j, hj, rfl⟩ := List.mem_map.1 hl
    cases j with
    | posting p => exact (((h.line hj).1 p rfl).given q s hv).2.2
    | move m =>
      have := ((h.line hj).2 m rfl).amount.close
      rw [show m.value = (q, s) from Option.some.inj hv] at this
      exact this
  · rintro ⟨l, hl, hv⟩
    obtain ⟨j, hj, rfl⟩ := List.mem_map.1 hl
    cases j with
    | move m => cases hv
    | posting p =>
      have hm : b.moves = [] := by
        by_contra hne
        exact h.full hne p (mem_plain.2 hj) hv
      have e : b.counted.lines = b.plain.lines := by
        show b.lines.map BLine.counted = b.plain.lines
        conv_lhs => rw [plain_lines hm, List.map_map]
        exact List.map_id _
      have := h.plain.oneCurrency ⟨p, mem_plain.2 hj, hv⟩
      unfold PEntry.given at this ⊢
      rw [e]
      exact this

/-- What is counted is what the ordinary lines bring and what is moved in the envelopes. -/
theorem counted_moves {env : Env} {accs : List Str} {b : BEntry} (h : b.Ok env accs) (k : Str) :
    (b.counted.moves k).Perm (b.plain.moves k ++ b.aside k) := by
  by_cases hm : b.moves = []
  · have e : b.counted.lines = b.plain.lines := by
      show b.lines.map BLine.counted = b.plain.lines
      conv_lhs => rw [plain_lines hm, List.map_map]
      exact List.map_id _
    have e2 : b.aside k = [] := by unfold BEntry.aside; rw [hm]; rfl
    rw [e2, List.append_nil]
    have e3 : b.counted.moves k = b.plain.moves k := by
      unfold PEntry.moves PEntry.worth PEntry.rest PEntry.given
      rw [e]
    rw [e3]
  · have hfull := h.full hm
    have key : ∀ ls : List BLine, (∀ l ∈ ls, l ∈ b.lines) →
        ((ls.map BLine.counted).filterMap fun l => if l.account = k then b.counted.worth l else none).Perm
        (((ls.filterMap fun l => match l with
          | .posting p => some p
          | .move _ => none).filterMap fun l => if l.account = k then b.plain.worth l else none) ++
         ((ls.filterMap fun l => match l with
          | .posting _ => none
          | .move m => some m).filter fun m => decide (m.account = k)).map MLine.value) := by
      intro ls
      induction ls with
      | nil => intro _; exact .refl _
      | cons l ls ih =>
        intro hl
        have ih := ih fun j hj => hl j (by simp [hj])
        cases l with
        | posting p =>
          obtain ⟨v, hv⟩ := Option.ne_none_iff_exists'.1 (hfull p (mem_plain.2 (hl _ (by simp))))
          have e1 : b.counted.worth p = some v := by unfold PEntry.worth; rw [hv]
          have e2 : b.plain.worth p = some v := by unfold PEntry.worth; rw [hv]
          rw [List.map_cons, List.filterMap_cons_some (a := BLine.posting p) (b := p) rfl,
            List.filterMap_cons_none (a := BLine.posting p) rfl]
          by_cases hk : p.account = k
          · rw [List.filterMap_cons_some (a := BLine.counted (.posting p)) (b := v) (by simp [BLine.counted, hk, e1]),
              List.filterMap_cons_some (a := p) (b := v) (by simp [hk, e2]), List.cons_append]
            exact ih.cons v
          · rw [List.filterMap_cons_none (a := BLine.counted (.posting p)) (by simp [BLine.counted, hk]),
              List.filterMap_cons_none (a := p) (by simp [hk])]
            exact ih
        | move m =>
          rw [List.map_cons, List.filterMap_cons_none (a := BLine.move m) rfl,
            List.filterMap_cons_some (a := BLine.move m) (b := m) rfl]
          by_cases hk : m.account = k
          · rw [List.filterMap_cons_some (a := BLine.counted (.move m)) (b := m.value)
              (by simp [BLine.counted, hk, PEntry.worth]), List.filter_cons_of_pos (by simp [hk]), List.map_cons]
            exact (ih.cons _).trans List.perm_middle.symm
          · rw [List.filterMap_cons_none (a := BLine.counted (.move m)) (by simp [BLine.counted, hk]),
              List.filter_cons_of_neg (by simp [hk])]
            exact ih
    exact key b.lines fun _ h => h

theorem counted_sum {env : Env} {accs : List Str} {es : List BEntry} (h : ∀ b ∈ es, b.Ok env accs) (k : Str)
    (s : Option Str) :
    writtenSum k s (es.map BEntry.counted) = writtenSum k s (es.map BEntry.plain) + asideSum k s es := by
  unfold writtenSum asideSum
  induction es with
  | nil => simp
  | cons b es ih =>
    have ih := ih fun e he => h e (by simp [he])
    simp only [List.map_cons, List.flatMap_cons, List.map_append, List.sum_append]
    rw [ih, ((counted_moves (h b (by simp)) k).map _).sum_eq]
    simp only [List.map_append, List.sum_append]
    ring

/-! ### C137 -/

/-- C137. What `silverfox balance --no-move` prints for a journal with envelopes, with doubles, as the program has them:
for every account and currency exactly the sum of what the ordinary lines bring, and of what the lines that name
envelopes move. -/
theorem C137_exact_rule (env : Env) (hord : FairOrder env.ord) (o : Outside) (w : World) (accs : List DeclAccount)
    (es : List BEntry) (text path : Str) (h : EnvelopeJournal env accs es text) (hf : EnvelopesFit env.today accs es)
    (hr : w.read path = some text) (hfuel : o.fuel ≠ 0) (c : Str) (args : List Str) (fs : List Flag)
    (hc : c.head? = some 'b') (ha : Spelled fs args) (hj : journalFor o fs = some path) (hn : Flag.noMove ∈ fs)
    (h8 : EightDecimals (es.map BEntry.counted)) (hseen : ∀ k, SeenBefore k (es.map BEntry.counted))
    (hsmall : ∀ k, Small k (es.map BEntry.counted)) :
    ∃ w' out, mainProgram F64 env o (c :: args) w = (w', .ok out) ∧ w'.file = w.file ∧
      (readReport out).Pairwise (fun a b => strLt a.1 b.1 = true) ∧
      (∀ k, k ∈ (readReport out).map Prod.fst ↔
        ∃ b ∈ es, (∃ l ∈ b.plain.lines, l.account = k) ∨ ∃ m ∈ b.moves, m.account = k) ∧
      ∀ k ts, (k, ts) ∈ readReport out → ∃ cs : List (Option Str), cs.Nodup ∧
        (∀ s, s ∈ cs ↔ ∃ b ∈ es, ∃ v ∈ b.plain.moves k ++ b.aside k, v.2 = s) ∧
        List.Forall₂ (fun t s => Amount.parse t '.' =
          .ok (⟨writtenSum k s (es.map BEntry.plain) + asideSum k s es, s⟩ : Amount Rat)) ts cs := by
  obtain ⟨fuel, hfu⟩ := Nat.exists_eq_succ_of_ne_zero hfuel
  obtain ⟨xs, l, h1, h2, h3, h4⟩ := h.loads (M := F64) hord hf fuel w path hr
  have hsound : ∀ e ∈ es.map BEntry.counted, e.Sound := by
    intro e he
    obtain ⟨b, hb, rfl⟩ := List.mem_map.1 he
    exact (h.entries b hb).counted_sound
  have hnear := fun k => all_near hsound h8 k (hsmall k)
  have hmix : ∀ x ∈ l.entries, NoMixing x := by
    intro x hx
    obtain ⟨b, hb, hbx⟩ := forall₂_mem_right h1 (h3.same.mem_iff.1 hx)
    exact (h.entries b hb).noMixing hbx
  have g1 := forall₂_counted h1
  have g3 := h3.counted
  have hinv := loaded_inv _ _ _ _ _ _ h4
  obtain ⟨tot, ht⟩ := totals_total l.entries [] hinv.blanks
  obtain ⟨out, hout⟩ : ∃ out, l.displayBalance env = .ok out := by
    unfold Ledger.displayBalance
    rw [show l.totals = .ok tot from ht]
    exact ⟨_, rfl⟩
  have hlf : LedgerFor env o fs w l (w.cdParent path) := ⟨path, l, _, hj, by rw [hfu]; exact h4, Or.inl ⟨hn, rfl, rfl⟩⟩
  have hsym : ReadableSymbols l.entries := by
    intro x hx p hp a hpa s hs
    obtain ⟨b, hb, hbx⟩ := forall₂_mem_right h1 (h3.same.mem_iff.1 hx)
    rw [hbx.2] at hp
    obtain ⟨j, hj, rfl⟩ := List.mem_map.1 hp
    cases j with
    | posting q =>
      obtain ⟨⟨m, y⟩, hv, rfl⟩ := read_sym hpa
      simp only at hs
      subst hs
      obtain ⟨_, _, _, _, _, _, hw | ⟨sym, e1, e2, _⟩⟩ := ((((h.entries b hb).line hj).1 q rfl).given m _ hv).2.2
      · cases hw.1
      · cases e1; exact e2
    | move m =>
      cases hpa
      obtain ⟨_, _, _, _, _, _, hw | ⟨sym, e1, e2, _⟩⟩ := (((h.entries b hb).line hj).2 m rfl).amount
      · rw [show m.value.2 = some s from hs] at hw; cases hw.1
      · rw [show m.value.2 = some s from hs] at e1; cases e1; exact e2
  have hposts : ∀ k, (∃ x ∈ l.entries, ∃ p ∈ x.postings, p.account = k) ↔
      ∃ b ∈ es, (∃ l ∈ b.plain.lines, l.account = k) ∨ ∃ m ∈ b.moves, m.account = k := by
    intro k
    constructor
    · rintro ⟨x, hx, p, hp, rfl⟩
      obtain ⟨b, hb, hbx⟩ := forall₂_mem_right h1 (h3.same.mem_iff.1 hx)
      rw [hbx.2] at hp
      obtain ⟨j, hj, rfl⟩ := List.mem_map.1 hp
      refine ⟨b, hb, ?_⟩
      cases j with
      | posting q => exact Or.inl ⟨q, mem_plain.2 hj, rfl⟩
      | move m => exact Or.inr ⟨m, mem_moves.2 hj, rfl⟩
    · rintro ⟨b, hb, hk⟩
      obtain ⟨x, hx, hbx⟩ := forall₂_mem_left h1 hb
      refine ⟨x, h3.same.mem_iff.2 hx, ?_⟩
      rw [hbx.2]
      rcases hk with ⟨q, hq, rfl⟩ | ⟨m, hm, rfl⟩
      · exact ⟨_, List.mem_map_of_mem (mem_plain.1 hq), rfl⟩
      · exact ⟨_, List.mem_map_of_mem (mem_moves.1 hm), rfl⟩
  have hpool : ∀ k pool, countAll k l.entries none = some pool →
      ∃ ms : List (Amount F64), ms.Perm ((es.map BEntry.counted).flatMap (PEntry.readMoves k)) ∧ pool = ms.foldl Pool.add [] := by
    intro k pool h5
    have hne : NoEnvelopeOf k (l.entries.map Entry.counted) := by
      intro x hx p hp he
      obtain ⟨e, _, hex⟩ := forall₂_mem_right g1 (g3.same.mem_iff.1 hx)
      rw [hex.2] at hp
      obtain ⟨q, _, rfl⟩ := List.mem_map.1 hp
      cases he
    rw [← countAll_counted k l.entries hmix, countAll_none k _ hne (seen_first g1 g3 (hseen k))] at h5
    split at h5
    · cases h5
      refine ⟨(l.entries.map Entry.counted).flatMap fun x => x.movesOf k, ?_, rfl⟩
      rw [← all_moves hsound g1 k]
      exact g3.same.flatMap_right _
    · cases h5
  obtain ⟨r1, r2, r3⟩ := report_reads_back env hord l out hout (loaded_words env (fuel + 1) w _ path l h4) hsym (by
    intro k pool hk a ha
    obtain ⟨ms, h5, rfl⟩ := hpool k pool hk
    exact fmtOk_f64 (line_shown (hsmall k) (hnear k) ms h5 a ha).1)
  refine ⟨_, out, C79_report_printed env o c args w (w.cdParent path) out .balance fs hc ha l hlf (.balance hout)
    (by simp) (by simp), rfl, r1, fun k => (r2 k).trans (hposts k), ?_⟩
  intro k ts hm
  obtain ⟨pool, h5, h6⟩ := r3 k ts hm
  have hq : ∀ b ∈ pool, ∀ s, b.sym = some s → ValidSymbol '.' s :=
    (countAll_syms (fun o => ∀ s, o = some s → ValidSymbol '.' s) (by simp) k l.entries hsym none (by simp) pool h5).1
  obtain ⟨ms, hperm, rfl⟩ := hpool k pool h5
  have hsyms := pool_syms ms
  refine ⟨(ms.foldl Pool.add []).map Amount.sym, hsyms.1, ?_, ?_⟩
  · intro s
    rw [hsyms.2 s, (hperm.map Amount.sym).mem_iff]
    have e1 : ((es.map BEntry.counted).flatMap (PEntry.readMoves (M := F64) k)).map Amount.sym =
        ((es.map BEntry.counted).flatMap (PEntry.moves k)).map Prod.snd := by
      have e2 : (es.map BEntry.counted).flatMap (PEntry.moves k) =
          ((es.map BEntry.counted).flatMap (PEntry.weighed k)).map Prod.fst := by
        rw [List.map_flatMap]
        exact List.flatMap_congr fun e _ => (weighed_moves k e).symm
      rw [e2, List.map_map]
      have := hnear k
      generalize (es.map BEntry.counted).flatMap (PEntry.readMoves (M := F64) k) = as at this
      generalize (es.map BEntry.counted).flatMap (PEntry.weighed k) = bs at this
      induction this with
      | nil => rfl
      | cons h1 _ ih => rw [List.map_cons, List.map_cons, ih, h1.1]; rfl
    rw [e1]
    simp only [List.mem_map, List.mem_flatMap]
    constructor
    · rintro ⟨v, ⟨e, ⟨b, hb, rfl⟩, hv⟩, rfl⟩
      exact ⟨b, hb, v, (counted_moves (h.entries b hb) k).mem_iff.1 hv, rfl⟩
    · rintro ⟨b, hb, v, hv, rfl⟩
      exact ⟨v, ⟨_, ⟨b, hb, rfl⟩, (counted_moves (h.entries b hb) k).mem_iff.2 hv⟩, rfl⟩
  · rw [List.forall₂_map_right_iff]
    refine forall₂_strengthen h6 ?_
    intro t a ha ⟨ht, _⟩
    obtain ⟨_, d, k', neg, q1, q2⟩ := line_shown (hsmall k) (hnear k) ms hperm a ha
    rw [ht, ← counted_sum h.entries]
    exact Amount.parse_display_as q1 q2 (hq a ha)

/-- C137. For an account in whose envelopes no line of the journal moves anything, what is printed is exactly the sum of
what the ordinary lines bring. -/
theorem C137_accounts_without_movements_partial (env : Env) (hord : FairOrder env.ord) (o : Outside) (w : World)
    (accs : List DeclAccount) (es : List BEntry) (text path : Str) (h : EnvelopeJournal env accs es text)
    (hf : EnvelopesFit env.today accs es) (hr : w.read path = some text) (hfuel : o.fuel ≠ 0) (c : Str) (args : List Str)
    (fs : List Flag) (hc : c.head? = some 'b') (ha : Spelled fs args) (hj : journalFor o fs = some path)
    (hn : Flag.noMove ∈ fs) (h8 : EightDecimals (es.map BEntry.counted)) (hseen : ∀ k, SeenBefore k (es.map BEntry.counted))
    (hsmall : ∀ k, Small k (es.map BEntry.counted)) :
    ∃ w' out, mainProgram F64 env o (c :: args) w = (w', .ok out) ∧ w'.file = w.file ∧
      ∀ k ts, (k, ts) ∈ readReport out → (∀ b ∈ es, ∀ m ∈ b.moves, m.account ≠ k) → ∃ cs : List (Option Str), cs.Nodup ∧
        (∀ s, s ∈ cs ↔ ∃ b ∈ es, ∃ v ∈ b.plain.moves k, v.2 = s) ∧
        List.Forall₂ (fun t s => Amount.parse t '.' =
          .ok (⟨writtenSum k s (es.map BEntry.plain), s⟩ : Amount Rat)) ts cs := by
  obtain ⟨w', out, h1, h2, _, _, h5⟩ := C137_exact_rule env hord o w accs es text path h hf hr hfuel c args fs hc ha hj hn h8
    hseen hsmall
  refine ⟨w', out, h1, h2, fun k ts hk hno => ?_⟩
  have e : ∀ b ∈ es, b.aside k = [] := by
    intro b hb
    unfold BEntry.aside
    rw [List.filter_eq_nil_iff.2 fun m hm => by simpa using hno b hb m hm]
    rfl
  obtain ⟨cs, c1, c2, c3⟩ := h5 k ts hk
  refine ⟨cs, c1, fun s => (c2 s).trans ?_, ?_⟩
  · constructor
    · rintro ⟨b, hb, v, hv, rfl⟩; rw [e b hb, List.append_nil] at hv; exact ⟨b, hb, v, hv, rfl⟩
    · rintro ⟨b, hb, v, hv, rfl⟩; exact ⟨b, hb, v, List.mem_append_left _ hv, rfl⟩
  · have e0 : ∀ s, asideSum k s es = 0 := by
      intro s
      unfold asideSum
      rw [show es.flatMap (BEntry.aside k) = [] from List.flatMap_eq_nil_iff.2 e]
      rfl
    simpa only [e0, add_zero] using c3

/-! ### C138 -/

/-- Specification: the entries in the order of their days; those of one day as they were. -/
structure InDayOrder (given es : List BEntry) : Prop where
  sorted : es.Pairwise fun a b => Date.lt b.day a.day = false
  same : es.Perm given
  stable : ∀ d : Date, (es.filter fun e => e.day = d) = given.filter fun e => e.day = d

theorem stableSort_inDayOrder (es : List BEntry) : InDayOrder es (stableSort (fun a b => Date.lt a.day b.day) es) := by
  refine ⟨stableSort_sorted _ ?_ ?_ _, stableSort_perm _ _, ?_⟩
  · intro a b c h1 h2
    rw [Date.lt_false_iff_dayNum] at h1 h2 ⊢
    omega
  · intro a b h1
    rw [Date.lt_iff_dayNum] at h1
    rw [Date.lt_false_iff_dayNum]
    omega
  · intro d
    rw [stableSort_filter]
    intro a b ha hb
    simp only [decide_eq_true_eq] at ha hb
    rw [Date.lt_false_iff_dayNum, ha, hb]

theorem read_in_order {M : Type} [Mag M] {es : List BEntry} {xs ys : List (Entry M)} (hx : List.Forall₂ BEntryOf es xs)
    (hd : DateOrdered xs ys) : ∃ ds, InDayOrder es ds ∧ List.Forall₂ BEntryOf ds ys := by
  refine ⟨_, stableSort_inDayOrder es, ?_⟩
  rw [C47_order_is_determined _ _ _ hd (stableSort_dateOrdered xs)]
  refine stableSort_rel _ _ _ ?_ _ _ hx
  intro a b c d h1 h2
  rw [h1.1.1, h2.1.1]

/-- C138. What `silverfox register --no-move` prints for a journal with envelopes, with doubles, as the program has them:
what it would print if the lines that name envelopes were ordinary lines for the accounts. It goes through the entries in
the order of their days, with exactly the changes and exactly the sums of all changes so far. -/
theorem C138_exact_rule (env : Env) (hord : FairOrder env.ord) (o : Outside) (w : World) (accs : List DeclAccount)
    (es : List BEntry) (text path : Str) (h : EnvelopeJournal env accs es text) (hf : EnvelopesFit env.today accs es)
    (hr : w.read path = some text) (hfuel : o.fuel ≠ 0) (hterm : o.terminal = true) (c : Str) (args : List Str)
    (fs : List Flag) (hc : c.head? = some 'r') (ha : Spelled fs args) (hj : journalFor o fs = some path)
    (hn : Flag.noMove ∈ fs) (hday : ∀ e ∈ es, ∃ d, env.fmtDate e.day s%"%Y/%m/%d" = some d)
    (h8 : EightDecimals (es.map BEntry.counted)) (hsmall : SwingSmall (es.map BEntry.counted)) :
    ∃ w' out, mainProgram F64 env o (c :: args) w = (w', .ok out) ∧ w'.file = w.file ∧
      ∃ ds cols blocks, InDayOrder es ds ∧ out = blocks.flatten ∧
        Listing (ListedAs env cols) [] (ds.map BEntry.counted) blocks := by
  obtain ⟨fuel, hfu⟩ := Nat.exists_eq_succ_of_ne_zero hfuel
  obtain ⟨xs, l, h1, h2, h3, h4⟩ := h.loads (M := F64) hord hf fuel w path hr
  have hlf : LedgerFor env o fs w l (w.cdParent path) := ⟨path, l, _, hj, by rw [hfu]; exact h4, Or.inl ⟨hn, rfl, rfl⟩⟩
  obtain ⟨out, hout⟩ := C73_shown env (fuel + 1) w _ path l none none none h4 (by
    intro x hx
    obtain ⟨e, he, hex⟩ := forall₂_mem_right h1 (h3.same.mem_iff.1 hx)
    rw [hex.1.1, h2.dateFormat]
    exact hday e he)
  obtain ⟨ds, d1, d2⟩ := read_in_order h1 h3
  have hmix : ∀ x ∈ l.entries, NoMixing x := by
    intro x hx
    obtain ⟨b, hb, hbx⟩ := forall₂_mem_right h1 (h3.same.mem_iff.1 hx)
    exact (h.entries b hb).noMixing hbx
  have g2 := forall₂_counted d2
  have hmem : ∀ e ∈ ds.map BEntry.counted, e ∈ es.map BEntry.counted := fun e he => (d1.same.map _).mem_iff.1 he
  have hsound : ∀ e ∈ ds.map BEntry.counted, e.Sound := by
    intro e he
    obtain ⟨b, hb, rfl⟩ := List.mem_map.1 (hmem e he)
    exact (h.entries b hb).counted_sound
  have hb : ∀ s, ((ds.map BEntry.counted).length + 3) * ((ds.map BEntry.counted).map (PEntry.swing s)).sum * 100000000 ≤
      (2 ^ 51 : Rat) := by
    intro s
    rw [(d1.same.map BEntry.counted).length_eq, ((d1.same.map BEntry.counted).map _).sum_eq]
    exact hsmall s
  have hch : List.Forall₂ ChangeAs (ds.map BEntry.counted) (l.entries.map Entry.counted) := by
    refine forall₂_left_with g2 fun e he x hx => ?_
    refine change_as (hsound e he) (h8 e (hmem e he)) hx ?_
    intro s
    have h2 : e.swing s ≤ ((ds.map BEntry.counted).map (PEntry.swing s)).sum := by
      refine List.single_le_sum ?_ _ (List.mem_map_of_mem he)
      intro y hy
      obtain ⟨z, _, rfl⟩ := List.mem_map.1 hy
      exact swing_nonneg s z
    have h3 := hb s
    have h0 := swing_nonneg s e
    have hlen : (1 : Rat) ≤ (ds.map BEntry.counted).length := by exact_mod_cast List.length_pos_of_mem he
    generalize ((ds.map BEntry.counted).map (PEntry.swing s)).sum = S at *
    generalize ((ds.map BEntry.counted).length : Rat) = n at *
    have h4 : 4 * S ≤ (n + 3) * S := mul_le_mul_of_nonneg_right (by linarith) (by linarith)
    linarith
  have hout' := hout
  rw [← display_counted env true l.entries hmix] at hout'
  obtain ⟨cols, blocks, b1, b2⟩ := C92_layout env true (l.entries.map Entry.counted) l.dateFormat none none none out hout'
  rw [h2.dateFormat] at b2
  refine ⟨_, out, C79_report_printed env o c args w (w.cdParent path) out .register fs hc ha l hlf (.register hout)
    (by simp) (fun _ => hterm), rfl, ds, cols, blocks, d1, b1, ?_⟩
  exact listing_of hb (ds.map BEntry.counted) (l.entries.map Entry.counted) g2 hch hsound [] [] [] .nil (by simp)
    (fun _ => rfl) blocks b2

theorem counted_assets {env : Env} {accs : List Str} {b : BEntry} (h : b.Ok env accs)
    (hno : ∀ m ∈ b.moves, ¬ s%"asset" <+: m.account) : b.counted.assets = b.plain.assets := by
  have key : ∀ ls : List BLine, (∀ l ∈ ls, l ∈ b.lines) →
      ((ls.map BLine.counted).filterMap fun l => if s%"asset" <+: l.account then b.counted.worth l else none) =
      (ls.filterMap fun l => match l with
        | .posting p => some p
        | .move _ => none).filterMap fun l => if s%"asset" <+: l.account then b.plain.worth l else none := by
    intro ls
    induction ls with
    | nil => intro _; rfl
    | cons l ls ih =>
      intro hl
      have ih := ih fun j hj => hl j (by simp [hj])
      cases l with
      | posting p =>
        have e : b.counted.worth p = b.plain.worth p := by
          unfold PEntry.worth
          cases hv : p.value with
          | some v => rfl
          | none =>
            have hm : b.moves = [] := by
              by_contra hne
              exact h.full hne p (mem_plain.2 (hl _ (by simp))) hv
            have e : b.counted.lines = b.plain.lines := by
              show b.lines.map BLine.counted = b.plain.lines
              conv_lhs => rw [plain_lines hm, List.map_map]
              exact List.map_id _
            unfold PEntry.rest PEntry.given
            rw [e]
        rw [List.map_cons, List.filterMap_cons_some (a := BLine.posting p) (b := p) rfl, List.filterMap_cons,
          List.filterMap_cons (a := p), ih]
        simp only [BLine.counted, e]
      | move m =>
        rw [List.map_cons, List.filterMap_cons_none (a := BLine.move m) rfl, List.filterMap_cons_none
          (a := BLine.counted (.move m)) (if_neg (show ¬ s%"asset" <+: m.account from hno m (mem_moves.2 (hl _ (by simp))))), ih]
  exact key b.lines fun _ h => h

theorem listing_counted {env : Env} {accs : List Str} {cols : Cols} {ds : List BEntry} (h : ∀ b ∈ ds, b.Ok env accs)
    (hno : ∀ b ∈ ds, ∀ m ∈ b.moves, ¬ s%"asset" <+: m.account) {before : List BEntry}
    (hb : ∀ b ∈ before, b.Ok env accs) (hnb : ∀ b ∈ before, ∀ m ∈ b.moves, ¬ s%"asset" <+: m.account)
    {blocks : List (List Str)}
    (hl : Listing (ListedAs env cols) (before.map BEntry.counted) (ds.map BEntry.counted) blocks) :
    Listing (ListedAs env cols) (before.map BEntry.plain) (ds.map BEntry.plain) blocks := by
  have hshift : ∀ b : BEntry, b.Ok env accs → (∀ m ∈ b.moves, ¬ s%"asset" <+: m.account) → ∀ s,
      b.counted.shift s = b.plain.shift s := by
    intro b h1 h2 s
    unfold PEntry.shift
    rw [counted_assets h1 h2]
  induction ds generalizing before blocks with
  | nil => cases hl; exact .done _
  | cons b ds ih =>
    have hok := h b (by simp)
    have hn := hno b (by simp)
    have ih := fun bl => ih (fun y hy => h y (by simp [hy])) (fun y hy => hno y (by simp [hy])) (before := before ++ [b])
      (blocks := bl) (by
      intro y hy
      rcases List.mem_append.1 hy with hy | hy
      · exact hb y hy
      · rw [List.mem_singleton.1 hy]; exact hok) (by
      intro y hy
      rcases List.mem_append.1 hy with hy | hy
      · exact hnb y hy
      · rw [List.mem_singleton.1 hy]; exact hn)
    simp only [List.map_append, List.map_cons, List.map_nil] at ih hl ⊢
    cases hl with
    | left_out h1 h2 => exact .left_out (fun s => by rw [← hshift b hok hn s]; exact h1 s) (ih _ h2)
    | listed h1 h2 =>
      refine .listed ?_ (ih _ h2)
      obtain ⟨f, g, gs, k1, k2, k3, k4, k5, k6, k7, k8, k9⟩ := h1
      refine ⟨f, g, gs, k1, k2, k3, k4, k5, k6, k7, ?_, k9⟩
      rw [counted_assets hok hn] at k8
      refine k8.imp fun s g hg => ⟨by rw [← hshift b hok hn s]; exact hg.1, ?_, hg.2.2⟩
      have e : (before.map BEntry.plain ++ [b.plain]).map (PEntry.shift s) =
          (before.map BEntry.counted ++ [b.counted]).map (PEntry.shift s) := by
        simp only [List.map_append, List.map_map, List.map_cons, List.map_nil, hshift b hok hn s]
        congr 1
        exact List.map_congr_left fun y hy => (hshift y (hb y hy) (hnb y hy) s).symm
      rw [e]
      exact hg.2.1

/-- C138. If no line moves anything in the envelopes of accounts that begin with "asset", then the register has the
ordinary lines: exactly the changes that they bring, and exactly the sums. -/
theorem C138_no_asset_set_aside_partial (env : Env) (hord : FairOrder env.ord) (o : Outside) (w : World)
    (accs : List DeclAccount) (es : List BEntry) (text path : Str) (h : EnvelopeJournal env accs es text)
    (hf : EnvelopesFit env.today accs es) (hr : w.read path = some text) (hfuel : o.fuel ≠ 0) (hterm : o.terminal = true)
    (c : Str) (args : List Str) (fs : List Flag) (hc : c.head? = some 'r') (ha : Spelled fs args)
    (hj : journalFor o fs = some path) (hn : Flag.noMove ∈ fs)
    (hday : ∀ e ∈ es, ∃ d, env.fmtDate e.day s%"%Y/%m/%d" = some d)
    (h8 : EightDecimals (es.map BEntry.counted)) (hsmall : SwingSmall (es.map BEntry.counted))
    (hno : ∀ b ∈ es, ∀ m ∈ b.moves, ¬ s%"asset" <+: m.account) :
    ∃ w' out, mainProgram F64 env o (c :: args) w = (w', .ok out) ∧ w'.file = w.file ∧
      ∃ ds cols blocks, InDayOrder es ds ∧ out = blocks.flatten ∧
        Listing (ListedAs env cols) [] (ds.map BEntry.plain) blocks := by
  obtain ⟨w', out, h1, h2, ds, cols, blocks, h3, h4, h5⟩ := C138_exact_rule env hord o w accs es text path h hf hr hfuel
    hterm c args fs hc ha hj hn hday h8 hsmall
  exact ⟨w', out, h1, h2, ds, cols, blocks, h3, h4, listing_counted (before := [])
    (fun b hb => h.entries b (h3.same.mem_iff.1 hb)) (fun b hb => hno b (h3.same.mem_iff.1 hb)) (by simp) (by simp) h5⟩

/-! ### The negations, and concrete cases -/

/-- A journal that sets aside money of an account whose name begins with "asset". -/
def exAssetText : Str := s%"account assets:bank\n  expense food due every 10th\n    amount $40\n    for shop\naccount shop\naccount pay\n2024/06/01 * salary\n assets:bank $100\n pay $-100\n envelope assets:bank food $30.50\n2024/06/02 * save\n envelope assets:bank food $8"

def exAssetAccounts : List DeclAccount := [(s%"assets:bank", [exGroceries]), (s%"shop", []), (s%"pay", [])]

def exAssetPay : BEntry where
  date := s%"2024/06/01"
  mark := s%"*"
  title := s%"salary"
  day := ⟨2024, 6, 1, by decide⟩
  lines := [.posting ⟨s%" ", s%"assets:bank", s%" ", s%"$100", some (100, some s%"$")⟩,
    .posting ⟨s%" ", s%"pay", s%" ", s%"$-100", some (-100, some s%"$")⟩,
    .move ⟨s%" ", s%" ", s%"assets:bank", s%" ", s%"food", s%" ", s%"$30.50", (61 / 2, some s%"$")⟩]

def exAssetSave : BEntry where
  date := s%"2024/06/02"
  mark := s%"*"
  title := s%"save"
  day := ⟨2024, 6, 2, by decide⟩
  lines := [.move ⟨s%" ", s%" ", s%"assets:bank", s%" ", s%"food", s%" ", s%"$8", (8, some s%"$")⟩]

/-- C137. Money that is set aside is counted once more: the account has $ 100, $ 38.50 of which are set aside for food,
and the balance report says $ 138.50. -/
theorem C137_set_aside_is_counted_twice : writtenSum s%"assets:bank" (some s%"$") ([exAssetPay, exAssetSave].map BEntry.plain) = 100 ∧
    asideSum s%"assets:bank" (some s%"$") [exAssetPay, exAssetSave] = 77 / 2 ∧
    ∃ out, (mainProgram F64 (stdEnv june15) exOutside [s%"balance", s%"-f", s%"j", s%"-n"]
      (disk [("j", String.ofList exAssetText)])).2 = .ok out ∧
      readReport out = [(s%"assets:bank", [s%"$ 138.5"]), (s%"pay", [s%"$-100"])] := by decide +kernel

/-- C138. The register has a row for an entry that only sets money aside, and says that the assets have become more. -/
theorem C138_setting_aside_is_listed : exAssetSave.plain.lines = [] ∧
    ∃ out, (mainProgram F64 (stdEnv june15) exOutside [s%"register", s%"-f", s%"j", s%"-n"]
      (disk [("j", String.ofList exAssetText)])).2 = .ok out ∧
      out = [s%"2024/06/01 * salary     pay -> assets:bank  $ 130.5  $ 130.5",
        s%"2024/06/02 * save    (none) -> assets:bank      $ 8  $ 138.5"] := by decide +kernel

/-- The journal is written well. -/
theorem exAssetText_ok : EnvelopeJournal (stdEnv june15) exAssetAccounts [exAssetPay, exAssetSave] exAssetText := by
  have hd : ValidSymbol '.' s%"$" := by decide
  have a1 : WrittenAmount s%"$100" 100 (some s%"$") :=
    ⟨s%"100", false, 100, 0, ⟨s%"100", [], by decide, by decide, by decide, by decide, by decide, by decide⟩,
      by norm_num, Or.inr ⟨_, rfl, hd, by decide⟩⟩
  have a2 : WrittenAmount s%"$-100" (-100) (some s%"$") :=
    ⟨s%"-100", true, 100, 0, ⟨s%"100", [], by decide, by decide, by decide, by decide, by decide, by decide⟩,
      by norm_num, Or.inr ⟨_, rfl, hd, by decide⟩⟩
  have a3 : WrittenAmount s%"$30.50" (61 / 2) (some s%"$") :=
    ⟨s%"30.50", false, 3050, 2, ⟨s%"30", s%"50", by decide, by decide, by decide, by decide, by decide, by decide⟩,
      by norm_num, Or.inr ⟨_, rfl, hd, by decide⟩⟩
  have a4 : WrittenAmount s%"$8" 8 (some s%"$") :=
    ⟨s%"8", false, 8, 0, ⟨s%"8", [], by decide, by decide, by decide, by decide, by decide, by decide⟩,
      by norm_num, Or.inr ⟨_, rfl, hd, by decide⟩⟩
  refine ⟨.of (by decide +kernel), by decide, by decide, ?_, ?_, ?_⟩
  · intro p hp x hx
    simp only [exAssetAccounts, List.mem_cons, List.not_mem_nil, or_false] at hp
    rcases hp with rfl | rfl | rfl
    · simp only [List.mem_cons, List.not_mem_nil, or_false] at hx
      rw [hx]; exact exGroceries_ok
    · cases hx
    · cases hx
  · intro p hp k
    simp only [exAssetAccounts, List.mem_cons, List.not_mem_nil, or_false] at hp
    rcases hp with rfl | rfl | rfl <;> cases k <;> decide
  intro e he
  simp only [List.mem_cons, List.not_mem_nil, or_false] at he
  rcases he with rfl | rfl
  · refine ⟨⟨by decide +kernel, by decide, by decide, by decide +kernel, ?_, by decide, ?_⟩, ?_, ?_⟩
    · intro l hl
      simp only [exAssetPay, BEntry.plain, List.filterMap_cons, List.filterMap_nil, List.mem_cons, List.not_mem_nil,
        or_false] at hl
      rcases hl with rfl | rfl
      · refine ⟨by decide, by decide, by decide, by decide, by decide, by decide +kernel, by simp, ?_⟩
        intro q s h; cases h; exact ⟨by decide, by decide +kernel, a1⟩
      · refine ⟨by decide, by decide, by decide, by decide, by decide, by decide +kernel, by simp, ?_⟩
        intro q s h; cases h; exact ⟨by decide, by decide +kernel, a2⟩
    · rintro ⟨l, hl, hv⟩
      simp only [exAssetPay, BEntry.plain, List.filterMap_cons, List.filterMap_nil, List.mem_cons, List.not_mem_nil,
        or_false] at hl
      rcases hl with rfl | rfl <;> cases hv
    · intro m hm
      simp only [exAssetPay, BEntry.moves, List.filterMap_cons, List.filterMap_nil, List.mem_cons, List.not_mem_nil,
        or_false] at hm
      subst hm
      exact ⟨by decide, by decide, by decide, by decide, by decide, by decide, a3⟩
    · intro _; decide
  · refine ⟨⟨by decide +kernel, by decide, by decide, by decide +kernel, ?_, by decide, ?_⟩, ?_, ?_⟩
    · intro l hl
      simp [exAssetSave, BEntry.plain] at hl
    · rintro ⟨l, hl, hv⟩
      simp [exAssetSave, BEntry.plain] at hl
    · intro m hm
      simp only [exAssetSave, BEntry.moves, List.filterMap_cons, List.filterMap_nil, List.mem_cons, List.not_mem_nil,
        or_false] at hm
      subst hm
      exact ⟨by decide, by decide, by decide, by decide, by decide, by decide, a4⟩
    · intro _; decide

theorem exAsset_fits : EnvelopesFit june15 exAssetAccounts [exAssetPay, exAssetSave] := by
  refine ⟨june15_inner, ?_, by decide +kernel, ?_⟩
  · intro p hp x hx
    simp only [exAssetAccounts, List.mem_cons, List.not_mem_nil, or_false] at hp
    rcases hp with rfl | rfl | rfl
    · simp only [List.mem_cons, List.not_mem_nil, or_false] at hx
      rw [hx]
      exact ⟨by show 1 ≤ 10 ∧ 10 ≤ 28; decide, trivial⟩
    · cases hx
    · cases hx
  · decide +kernel

/-- The amounts have at most eight decimals, and are small. -/
theorem exAsset_small : EightDecimals ([exAssetPay, exAssetSave].map BEntry.counted) ∧
    (∀ k, SeenBefore k ([exAssetPay, exAssetSave].map BEntry.counted)) ∧
    (∀ k, Small k ([exAssetPay, exAssetSave].map BEntry.counted)) ∧
    SwingSmall ([exAssetPay, exAssetSave].map BEntry.counted) := by
  refine ⟨?_, ?_, ?_, ?_⟩
  · intro e he v hv
    have hv : v = (100, some s%"$") ∨ v = (-100, some s%"$") ∨ v = (61 / 2, some s%"$") ∨ v = (8, some s%"$") := by
      simp only [List.map_cons, List.map_nil, List.mem_cons, List.not_mem_nil, or_false] at he
      rcases he with rfl | rfl
      · simp [PEntry.given, BEntry.counted, BLine.counted, exAssetPay] at hv
        grind
      · simp [PEntry.given, BEntry.counted, BLine.counted, exAssetSave] at hv
        grind
    rcases hv with rfl | rfl | rfl | rfl
    · exact ⟨10000000000, by norm_num⟩
    · exact ⟨-10000000000, by norm_num⟩
    · exact ⟨3050000000, by norm_num⟩
    · exact ⟨800000000, by norm_num⟩
  · intro k e he ⟨l, hl, _, hv⟩
    have h3 : ∀ e ∈ [exAssetPay, exAssetSave].map BEntry.counted, ∀ l ∈ e.lines, l.value ≠ none := by decide +kernel
    exact absurd hv (h3 e he l hl)
  · intro k
    apply small_of_all
    by_cases h1 : k = s%"assets:bank"
    · subst h1; decide +kernel
    · by_cases h2 : k = s%"pay"
      · subst h2; decide +kernel
      · have : ([exAssetPay, exAssetSave].map BEntry.counted).flatMap (PEntry.weighed k) = [] := by
          simp [PEntry.weighed, BEntry.counted, BLine.counted, exAssetPay, exAssetSave, Ne.symm h1, Ne.symm h2]
        rw [this]; norm_num
  · have h1 : exAssetPay.counted.assetsWeighed = [((100, some s%"$"), 100), ((61 / 2, some s%"$"), 61 / 2)] := by
      decide +kernel
    have h2 : exAssetSave.counted.assetsWeighed = [((8, some s%"$"), 8)] := by decide +kernel
    intro s
    simp only [List.map_cons, List.map_nil, List.sum_cons, List.sum_nil, PEntry.swing, h1, h2]
    by_cases hs : some s%"$" = s
    · subst hs; norm_num
    · rw [List.filter_cons_of_neg (by simpa using hs), List.filter_cons_of_neg (by simpa using hs),
        List.filter_cons_of_neg (by simpa using hs)]; norm_num

/-- So the general theorem says of this journal what the negation has found. -/
example : ∃ w' out, mainProgram F64 (stdEnv june15) exOutside [s%"balance", s%"-f", s%"j", s%"-n"]
      (disk [("j", String.ofList exAssetText)]) = (w', .ok out) ∧
    ∀ ts, (s%"assets:bank", ts) ∈ readReport out → ∃ cs : List (Option Str), cs.Nodup ∧
      List.Forall₂ (fun t s => Amount.parse t '.' =
        .ok (⟨writtenSum s%"assets:bank" s ([exAssetPay, exAssetSave].map BEntry.plain) +
          asideSum s%"assets:bank" s [exAssetPay, exAssetSave], s⟩ : Amount Rat)) ts cs := by
  obtain ⟨h8, hs, hsm, _⟩ := exAsset_small
  obtain ⟨w', out, h1, _, _, _, h2⟩ := C137_exact_rule (stdEnv june15) (fun _ l => List.Perm.refl l) exOutside
    (disk [("j", String.ofList exAssetText)]) exAssetAccounts _ exAssetText s%"j" exAssetText_ok exAsset_fits (by decide +kernel)
    (by decide) s%"balance" [s%"-f", s%"j", s%"-n"] [.file s%"j", .noMove] rfl
    (.cons (.fileShort _) (.cons .noMoveShort .nil)) rfl (by simp) h8 hs hsm
  refine ⟨w', out, h1, fun ts ht => ?_⟩
  obtain ⟨cs, c1, _, c3⟩ := h2 _ ts ht
  exact ⟨cs, c1, c3⟩

end Silverfox
