import Verif.Props.EnvelopeSums
import Verif.Props.Priority
import Verif.Props.Conserve
import Verif.Props.Statement

/-
C122: what filling the envelopes writes, from the text of the journal.
-/

namespace Silverfox

set_option linter.unusedSectionVars false

/-! ### Specification -/

/-- Specification: what an envelope that is due on `due` and has saved `next` for it wishes to receive today. (On the very day it is due
the quotient is zero here, but infinite in the program: see `wishBy` and `C134_due_today_gets_all`.) -/
def wishOf (today due : Date) (x : MeantDecl Rat) (next : Rat) : Rat :=
  match x.way with
  | .manual => 0
  | .aggressive => min x.target.mag (x.target.mag - next)
  | .conservative => min ((x.target.mag - next) / ((due.daysSince today : Int) : Rat)) (x.target.mag - next)

/-- Specification: an envelope gets nothing if it is filled by hand, if it will not be due again, or if the last entry
that did something to it is of today. -/
def Rests (today : Date) (k : Str) (es : List BEntry) (x : MeantDecl Rat) : Prop :=
  x.way = .manual ∨ IsDue today x none ∨ lastMoved k x es = some today

/-- Specification: what an envelope gets if `left` is left of its currency: what it wishes if there is enough, else what
there is, but what it owes in any case. -/
def FillOf (today : Date) (k : Str) (es : List BEntry) (x : MeantDecl Rat) (left f : Rat) : Prop :=
  (Rests today k es x → f = 0) ∧
  (¬ Rests today k es x → ∃ last due, x.2.1.lastDue today = .ok last ∧ IsDue today x (some due) ∧
    f = max (min (wishOf today due x (nextOf last k x es)) left) (max (-heldOf k x es) 0))

/-- Specification: the envelopes get something one after the other. -/
inductive FillsFrom (today : Date) (k : Str) (es : List BEntry) :
    List (MeantDecl Rat) → (Option Str → Rat) → List Rat → Prop
  | nil (left) : FillsFrom today k es [] left []
  | cons {x xs left f fs} : FillOf today k es x (left x.target.sym) f →
      FillsFrom today k es xs (fun s => left s - if x.target.sym = s then f else 0) fs →
      FillsFrom today k es (x :: xs) left (f :: fs)

/-- Specification: who comes first: the goals, the last one first, then the expenses, the last one first. -/
def serving (ds : List (MeantDecl Rat)) : List (MeantDecl Rat) := (ofKind .goal ds).reverse ++ (ofKind .expense ds).reverse

/-- Specification: the line that says that an envelope gets `f`, with the amount written as `t`. -/
def moveLine (k : Str) (x : MeantDecl Rat) (f : Rat) (t : Str) : MLine :=
  ⟨s%"    ", s%" ", k, s%" ", x.1.name, List.replicate (50 - (10 + k.length + x.1.name.length)) ' ' ++ s%" ", t,
    (f, x.target.sym)⟩

/-- Specification: the lines for an account: one for every envelope that gets something. -/
def AccountFills (today : Date) (es : List BEntry) (p : DeclAccount) (ms : List MLine) : Prop :=
  ∃ fs, FillsFrom today p.1 es (serving p.2) (fun s => availableOf p s es) fs ∧
    List.Forall₂ (fun xf m => ∃ t, m = moveLine p.1 xf.1 xf.2 t ∧ Shows t xf.2 xf.1.target.sym)
      (((serving p.2).zip fs).filter fun xf => decide (xf.2 ≠ 0)) ms

/-- Specification: the entry that is added. -/
def fillOf (today : Date) (day : Str) (ms : List MLine) : BEntry :=
  ⟨day, s%"~", s%"move to envelopes // automatically generated by silverfox", today, ms.map BLine.move⟩

/-- Specification: the text that is added to the file. -/
def BEntry.addition (b : BEntry) : Str :=
  '\n' :: b.plain.header ++ '\n' :: (b.lines.flatMap fun l => l.text ++ ['\n'])

/-! ### What is filled -/

/-- An envelope, and when something last happened to it. -/
def EnvelopeFull (today : Date) (k : Str) (es : List BEntry) (x : MeantDecl Rat) (e : Envelope Rat) : Prop :=
  EnvelopeAt today k es x e ∧ e.lastTx = (lastMoved k x es).getD Date.zero

/-- An account, and when something last happened to its envelopes. -/
structure AccountFull (today : Date) (es : List BEntry) (p : DeclAccount) (a : Account Rat) : Prop where
  here : AccountAt today es p a
  expenses : List.Forall₂ (EnvelopeFull today p.1 es) (ofKind .expense p.2) a.expenses
  goals : List.Forall₂ (EnvelopeFull today p.1 es) (ofKind .goal p.2) a.goals

theorem AccountNow.full {env : Env} {accs : List Str} {es : List BEntry} (hes : ∀ b ∈ es, b.Ok env accs) {p : DeclAccount}
    (hp : ∀ x ∈ p.2, DeclOk env x) {a : Account Rat} (h : AccountNow env.today es p a) : AccountFull env.today es p a := by
  have key : ∀ {xs : List (MeantDecl Rat)} {as : List (Envelope Rat)}, (∀ x ∈ xs, x ∈ p.2) →
      List.Forall₂ (EnvelopeNow env.today p.1 es) xs as → List.Forall₂ (EnvelopeFull env.today p.1 es) xs as := by
    intro xs as hx h
    induction h with
    | nil => exact .nil
    | cons h1 _ ih =>
      exact .cons ⟨h1.at hes (hp _ (hx _ (by simp))), by rw [h1.lastTx, lastRead_rat hes]⟩
        (ih fun y hy => hx y (by simp [hy]))
  exact ⟨h.at hes hp, key (fun x hx => (mem_ofKind hx).1) h.expenses, key (fun x hx => (mem_ofKind hx).1) h.goals⟩

theorem envelope_due {M : Type} [Mag M] {today : Date} {k : Str} {x : MeantDecl Rat} (ht : today.Inner) (hs : x.2.1.Inner)
    {e : Envelope M}
    (h : ReadEnvelope k x e) : ∃ due, e.nextDue today = .ok due ∧ IsDue today x due := by
  obtain ⟨d, hd⟩ := C28_next_due_never_crashes today x.2.1 ht hs
  unfold Envelope.nextDue
  rw [h.freq, h.starting]
  cases hst : x.2.2 with
  | none => exact ⟨d, hd, d, hd, by rw [hst]⟩
  | some s =>
    simp only [hd, bind, Except.bind, pure, Except.pure]
    cases d with
    | none => exact ⟨_, rfl, none, hd, by rw [hst]⟩
    | some d => exact ⟨_, rfl, some d, hd, by rw [hst]⟩

theorem IsDue.unique {today : Date} {x : MeantDecl Rat} {a b : Option Date} (h : IsDue today x a) (h' : IsDue today x b) :
    a = b := by
  obtain ⟨d, h1, h2⟩ := h
  obtain ⟨d', h3, h4⟩ := h'
  rw [h1] at h3; cases h3
  rw [h2, h4]

theorem EnvelopeAt.holds {today : Date} {k : Str} {es : List BEntry} {x : MeantDecl Rat} {e : Envelope Rat}
    (h : EnvelopeAt today k es x e) : e.holds = heldOf k x es := by
  unfold Envelope.holds
  rw [h.now, h.next, ← held_split]

theorem gets_fill {today : Date} (ht : today.Inner) (h0 : today ≠ Date.zero) {k : Str} {es : List BEntry}
    {x : MeantDecl Rat} (hs : x.2.1.Safe ∧ x.2.1.Inner) {e : Envelope Rat} (h : EnvelopeFull today k es x e) {left : Rat}
    {p : EnvPosting Rat} (hg : Gets today e left p) :
    p = ⟨k, x.1.name, ⟨p.amount.mag, x.target.sym⟩⟩ ∧ FillOf today k es x left p.amount.mag := by
  have hr := h.1.read
  obtain ⟨due, hd1, hd2⟩ := envelope_due ht hs.2 hr
  obtain ⟨last, hl⟩ := C28_last_due_never_crashes_partial today x.2.1 ht hs.2 hs.1
  have hlast : lastOf today x = last := by unfold lastOf; rw [hl]
  have hskip : e.Skipped today ↔ Rests today k es x := by
    unfold Envelope.Skipped Rests
    rw [hr.funding, h.2, hd1]
    refine or_congr Iff.rfl (or_congr ?_ ?_)
    · constructor
      · intro g; cases g; exact hd2
      · intro g; rw [hd2.unique g]
    · cases lastMoved k x es with
      | none => simpa using Ne.symm h0
      | some d => simp
  refine ⟨?_, fun g => hg.skipped (hskip.2 g), fun g => ?_⟩
  · rw [← hr.account, ← hr.name, ← hr.sym, ← hg.account, ← hg.envelope, ← hg.currency]
  · obtain ⟨d, g1, g2⟩ := hg.active fun c => g (hskip.1 c)
    rw [hd1] at g1; cases g1
    refine ⟨last, d, hl, hd2, ?_⟩
    rw [g2, h.1.holds]
    congr 2
    unfold Envelope.wish wishOf
    rw [hr.funding, h.1.goal, h.1.next, hlast]
    cases x.way <;> rfl

theorem served_fills {today : Date} (ht : today.Inner) (h0 : today ≠ Date.zero) {k : Str} {es : List BEntry}
    {xs : List (MeantDecl Rat)} {as : List (Envelope Rat)} (hs : ∀ x ∈ xs, x.2.1.Safe ∧ x.2.1.Inner)
    (h : List.Forall₂ (EnvelopeFull today k es) xs as) {left : Option Str → Rat} {ps : List (EnvPosting Rat)}
    (hg : Served today as left ps) :
    ∃ fs, FillsFrom today k es xs left fs ∧ fs.length = xs.length ∧
      ps = (xs.zip fs).map fun xf => (⟨k, xf.1.1.name, ⟨xf.2, xf.1.target.sym⟩⟩ : EnvPosting Rat) := by
  induction h generalizing left ps with
  | nil => cases hg; exact ⟨[], .nil _, rfl, rfl⟩
  | @cons x e xs as h1 _ ih =>
    cases hg with
    | @cons _ _ _ p ps hg hr =>
      obtain ⟨g1, g2⟩ := gets_fill ht h0 (hs x (by simp)) h1 hg
      have hsym : p.amount.sym = x.target.sym := by rw [g1]
      rw [hsym] at hr
      obtain ⟨fs, g3, g4, g5⟩ := ih (fun y hy => hs y (by simp [hy])) hr
      refine ⟨p.amount.mag :: fs, .cons ?_ g3, by simp [g4], ?_⟩
      · rw [← h1.1.read.sym]; exact g2
      · rw [List.zip_cons_cons, List.map_cons, ← g5, ← g1]

/-- The line of a posting. -/
def EnvPosting.line (p : EnvPosting Rat) : MLine :=
  ⟨s%"    ", s%" ", p.account, s%" ", p.envelope,
    List.replicate (50 - (10 + p.account.length + p.envelope.length)) ' ' ++ s%" ", p.amount.display, (p.amount.mag, p.amount.sym)⟩

theorem line_text (p : EnvPosting Rat) : p.line.text = s%"    " ++ (Posting.envelope p).display := by
  unfold EnvPosting.line MLine.text Posting.display EnvPosting.display padRight
  have : (s%"envelope " ++ p.account ++ ' ' :: p.envelope).length = 10 + p.account.length + p.envelope.length := by
    simp; omega
  simp only [this]
  simp [List.append_assoc]

theorem account_fills {env : Env} (ht : env.today.Inner) (h0 : env.today ≠ Date.zero) {es : List BEntry} {p : DeclAccount}
    (hp : ∀ x ∈ p.2, DeclOk env x) (hs : ∀ x ∈ p.2, x.2.1.Safe ∧ x.2.1.Inner) {a : Account Rat} (hw : a.WF)
    (h : AccountFull env.today es p a) :
    ∃ ps, a.fillingPostings env.today = .ok ps ∧
      (∀ q ∈ ps, ∃ x ∈ p.2, q.account = p.1 ∧ q.envelope = x.1.name ∧ q.amount.sym = x.target.sym) ∧
      AccountFills env.today es p ((ps.filter fun q => !Mag.eq q.amount.mag (Mag.zero : Rat)).map EnvPosting.line) := by
  have hmem : ∀ x ∈ serving p.2, x ∈ p.2 := by
    intro x hx
    unfold serving at hx
    rcases List.mem_append.1 hx with hx | hx <;> exact (mem_ofKind (List.mem_reverse.1 hx)).1
  have hall : List.Forall₂ (EnvelopeFull env.today p.1 es) (serving p.2) (a.goals.reverse ++ a.expenses.reverse) :=
    List.rel_append (List.rel_reverse h.goals) (List.rel_reverse h.expenses)
  obtain ⟨ps, h1⟩ := C43_filling_never_crashes env.today a hw fun e he => by
    obtain ⟨x, hx, hxe⟩ := forall₂_mem_right (List.rel_append h.expenses h.goals) he
    have hx : x ∈ p.2 := by
      rcases List.mem_append.1 hx with hx | hx <;> exact (mem_ofKind hx).1
    obtain ⟨d, hd, _⟩ := envelope_due ht (hs x hx).2 hxe.1.read
    exact ⟨d, hd⟩
  have h2 := C100_exact_rule env.today a ps h1
  have hleft : (fun s => (a.available.only s).mag) = fun s => availableOf p s es := by
    funext s
    exact account_bal h.here s
  rw [hleft] at h2
  obtain ⟨fs, h3, h4, h5⟩ := served_fills ht h0 (fun x hx => hs x (hmem x hx)) hall h2
  refine ⟨ps, h1, ?_, fs, h3, ?_⟩
  · intro q hq
    rw [h5] at hq
    obtain ⟨xf, hxf, rfl⟩ := List.mem_map.1 hq
    exact ⟨xf.1, hmem _ (List.of_mem_zip hxf).1, rfl, rfl, rfl⟩
  · have hf : ((fun q : EnvPosting Rat => !Mag.eq q.amount.mag (Mag.zero : Rat)) ∘ fun xf : MeantDecl Rat × Rat =>
        (⟨p.1, xf.1.1.name, ⟨xf.2, xf.1.target.sym⟩⟩ : EnvPosting Rat)) = fun xf => decide (xf.2 ≠ 0) := by
      funext xf
      simp [Mag.eq, Mag.zero]
    rw [h5, List.filter_map, List.map_map, List.forall₂_map_right_iff, hf, List.forall₂_same]
    intro xf hxf
    have hx := hmem _ (List.of_mem_zip (List.mem_filter.1 hxf).1).1
    exact ⟨_, rfl, shows_display ⟨xf.2, xf.1.target.sym⟩ (target_symbol (hp _ hx))⟩

theorem fillAll_fills {env : Env} (ht : env.today.Inner) (h0 : env.today ≠ Date.zero) {es : List BEntry}
    {ps : List DeclAccount} {as : List (Str × Account Rat)} (hp : ∀ p ∈ ps, ∀ x ∈ p.2, DeclOk env x)
    (hs : ∀ p ∈ ps, ∀ x ∈ p.2, x.2.1.Safe ∧ x.2.1.Inner) (hw : ∀ k a, (k, a) ∈ as → a.WF)
    (h : List.Forall₂ (fun p q => q.1 = p.1 ∧ AccountFull env.today es p q.2) ps as) :
    ∃ qs mss, Ledger.fillAll env.today as = .ok qs ∧ List.Forall₂ (AccountFills env.today es) ps mss ∧
      (∀ q ∈ qs, ∃ p ∈ ps, ∃ x ∈ p.2, q.account = p.1 ∧ q.envelope = x.1.name ∧ q.amount.sym = x.target.sym) ∧
      (qs.filter fun q => !Mag.eq q.amount.mag (Mag.zero : Rat)).map EnvPosting.line = mss.flatten := by
  induction h with
  | nil => exact ⟨[], [], rfl, .nil, by simp, rfl⟩
  | @cons p q ps as h1 _ ih =>
    obtain ⟨q1, m1, g1, g2⟩ := account_fills ht h0 (hp p (by simp)) (hs p (by simp)) (hw q.1 q.2 (by simp)) h1.2
    obtain ⟨q2, mss, g4, g5, g6, g7⟩ := ih (fun y hy => hp y (by simp [hy])) (fun y hy => hs y (by simp [hy]))
      fun k a hm => hw k a (by simp [hm])
    refine ⟨q1 ++ q2, _ :: mss, (fillAll_cons env.today q.1 q.2 as _).2 ⟨q1, q2, m1, g4, rfl⟩, .cons g2 g5, ?_, ?_⟩
    · intro r hr
      rcases List.mem_append.1 hr with hr | hr
      · obtain ⟨x, hx, k1⟩ := g1 r hr
        exact ⟨p, by simp, x, hx, k1⟩
      · obtain ⟨p', hp', k1⟩ := g6 r hr
        exact ⟨p', by simp [hp'], k1⟩
    · rw [List.filter_append, List.map_append, g7, List.flatten_cons]

/-! ### What becomes of the envelopes -/

theorem fillOf_moves (today : Date) (day : Str) (ms : List MLine) :
    (fillOf today day ms).moves = ms ∧ (fillOf today day ms).plain.lines = [] := by
  unfold BEntry.moves BEntry.plain fillOf
  constructor
  · induction ms with
    | nil => rfl
    | cons m ms ih => rw [List.map_cons, List.filterMap_cons_some (by rfl), ih]
  · induction ms with
    | nil => rfl
    | cons m ms ih =>
      simp only at ih ⊢
      rw [List.map_cons, List.filterMap_cons_none (by rfl), ih]

theorem fill_moves {today : Date} {day : Str} {ps : List (EnvPosting Rat)} (hne : ps ≠ []) {k : Str} {x : MeantDecl Rat}
    {e : Envelope Rat} (he : ReadEnvelope k x e) :
    (manualMoves (Ledger.fillEntry today ps) e).map Amount.mag = (fillOf today day (ps.map EnvPosting.line)).movesIn k x := by
  rw [manualMoves_fill, he.account, he.name]
  unfold BEntry.movesIn
  rw [(fillOf_moves today day _).1, if_pos (by simpa using hne), List.filter_map, List.map_map, List.map_map]
  unfold ofAccount
  rw [List.filter_filter]
  congr 1
  refine List.filter_congr fun p _ => ?_
  simp only [Function.comp, EnvPosting.line]
  rw [Bool.and_comm, ← Bool.decide_and]
  exact decide_eq_decide.2 Iff.rfl

theorem fill_step {today : Date} {day : Str} {ps : List (EnvPosting Rat)} (hne : ps ≠ []) {k : Str} {x : MeantDecl Rat}
    {es : List BEntry} {e : Envelope Rat} (he : EnvelopeAt today k es x e)
    (hl : x.2.1.lastDue today = .ok (lastOf today x))
    (hsym : ∀ q ∈ ps, q.account = k → q.envelope = x.1.name → q.amount.sym = x.target.sym) :
    ∃ e', e.processEntry today (Ledger.fillEntry today ps) = .ok e' ∧
      EnvelopeAt today k (es ++ [fillOf today day (ps.map EnvPosting.line)]) x e' := by
  have hr := he.read
  have hhas : (Ledger.fillEntry today ps).hasEnvelopePosting = true := by
    rw [fillEntry_has]
    cases ps with
    | nil => exact absurd rfl hne
    | cons _ _ => rfl
  have hsyms : ∀ a ∈ manualMoves (Ledger.fillEntry today ps) e, a.sym = e.amount.sym := by
    intro a ha
    rw [manualMoves_fill] at ha
    obtain ⟨q, hq, rfl⟩ := List.mem_map.1 ha
    obtain ⟨hq, h1⟩ := List.mem_filter.1 hq
    obtain ⟨hq, h2⟩ := List.mem_filter.1 hq
    rw [hr.sym]
    exact hsym q hq (by rw [← hr.account]; simpa using h2) (by rw [← hr.name]; simpa using h1)
  obtain ⟨e', h1, h2, h3, _⟩ := applyAll_value today (Ledger.fillEntry today ps).date (lastOf today x)
    (manualMoves (Ledger.fillEntry today ps) e) e hr.one (by rw [hr.freq]; exact hl) hsyms
  have hk := applyAll_keeps _ _ _ _ _ h1
  have hr' := hr.keeps ⟨hk.1, hk.2.1, hk.2.2.1⟩
  refine ⟨e', by rw [processEntry_manual _ _ _ hhas]; exact h1, hr', ?_, ?_, ?_⟩
  · rw [(SameButMoney.fields hk.1).2.2.1]; exact he.goal
  · rw [h2, fill_moves (day := day) hne hr, foldl_add_rat, he.now]
    unfold nowOf
    rw [List.flatMap_append, List.sum_append, sum_moved _ _ (fun v => (toNow_rat _ _ v).1) (by simp) (Or.inl rfl)]
    simp only [List.flatMap_cons, List.flatMap_nil, List.append_nil]
    rfl
  · rw [h3, fill_moves (day := day) hne hr, foldl_add_rat, he.next]
    unfold nextOf
    rw [List.flatMap_append, List.sum_append, sum_moved _ _ (fun v => (toNow_rat _ _ v).2) (by simp) (Or.inl rfl)]
    simp only [List.flatMap_cons, List.flatMap_nil, List.append_nil]
    rfl

theorem fill_envelopes {today : Date} {b : BEntry} {y : Entry Rat} {k : Str} {es : List BEntry}
    {xs : List (MeantDecl Rat)} {as : List (Envelope Rat)} (h : List.Forall₂ (EnvelopeAt today k es) xs as)
    (hstep : ∀ x ∈ xs, ∀ e : Envelope Rat, EnvelopeAt today k es x e → ∃ e', e.processEntry today y = .ok e' ∧
      EnvelopeAt today k (es ++ [b]) x e') :
    ∃ as', Account.processEnvelopes today y as = .ok as' ∧ List.Forall₂ (EnvelopeAt today k (es ++ [b])) xs as' := by
  induction h with
  | nil => exact ⟨[], rfl, .nil⟩
  | cons h1 _ ih =>
    obtain ⟨e', h2, h3⟩ := hstep _ (by simp) _ h1
    obtain ⟨as', h4, h5⟩ := ih fun x hx => hstep x (by simp [hx])
    exact ⟨e' :: as', by simp only [Account.processEnvelopes, h2, h4, bind, Except.bind]; rfl, .cons h3 h5⟩

theorem fill_account {today : Date} {day : Str} {ps : List (EnvPosting Rat)} (hne : ps ≠ []) {p : DeclAccount}
    {es : List BEntry} {a : Account Rat} (ha : AccountAt today es p a)
    (hl : ∀ x ∈ p.2, x.2.1.lastDue today = .ok (lastOf today x))
    (hsym : ∀ x ∈ p.2, ∀ q ∈ ps, q.account = p.1 → q.envelope = x.1.name → q.amount.sym = x.target.sym) :
    ∃ a', a.processEntry today (Ledger.fillEntry today ps) = .ok a' ∧
      AccountAt today (es ++ [fillOf today day (ps.map EnvPosting.line)]) p a' := by
  have hst := fun x (hx : x ∈ p.2) (e : Envelope Rat) (he : EnvelopeAt today p.1 es x e) =>
    fill_step (day := day) hne he (hl x hx) (hsym x hx)
  obtain ⟨e1, h1, h2⟩ := fill_envelopes ha.expenses fun x hx => hst x (mem_ofKind hx).1
  obtain ⟨e2, h3, h4⟩ := fill_envelopes ha.goals fun x hx => hst x (mem_ofKind hx).1
  have hall : ∀ q ∈ (Ledger.fillEntry today ps).postings, q.isEnvelope = true ∧ q.amount ≠ none := by
    intro q hq
    obtain ⟨q', _, rfl⟩ := List.mem_map.1 hq
    exact ⟨rfl, by simp [Posting.amount]⟩
  obtain ⟨r, hr⟩ := processReal_total a.name (Ledger.fillEntry today ps) (Ledger.fillEntry today ps).postings
    (fun q hq hn => absurd hn (hall q hq).2) a.real
  have hok : a.processEntry today (Ledger.fillEntry today ps) = .ok { a with expenses := e1, goals := e2, real := r } := by
    simp only [Account.processEntry, h1, h3, hr, bind, Except.bind]; rfl
  refine ⟨_, hok, ha.name, h2, h4, ?_⟩
  have := C45_envelope_postings_no_effect today _ a _ (fun q hq => (hall q hq).1) hok
  simp only at this ⊢
  rw [this, ha.real, List.flatMap_append]
  have : ([fillOf today day (ps.map EnvPosting.line)].flatMap fun b => b.plain.moves p.1) = [] := by
    simp only [List.flatMap_cons, List.flatMap_nil, List.append_nil]
    unfold PEntry.moves
    rw [(fillOf_moves today day _).2]
    rfl
  rw [this, List.append_nil]

theorem fill_all {today : Date} {day : Str} {ps : List (EnvPosting Rat)} (hne : ps ≠ []) {accs : List DeclAccount}
    {es : List BEntry} {as : List (Str × Account Rat)}
    (h : List.Forall₂ (fun p q => q.1 = p.1 ∧ AccountAt today es p q.2) accs as)
    (hl : ∀ p ∈ accs, ∀ x ∈ p.2, x.2.1.lastDue today = .ok (lastOf today x))
    (hsym : ∀ p ∈ accs, ∀ x ∈ p.2, ∀ q ∈ ps, q.account = p.1 → q.envelope = x.1.name → q.amount.sym = x.target.sym) :
    ∃ as', Ledger.processAll today (Ledger.fillEntry today ps) as = .ok as' ∧
      List.Forall₂ (fun p q => q.1 = p.1 ∧ AccountAt today (es ++ [fillOf today day (ps.map EnvPosting.line)]) p q.2)
        accs as' := by
  induction h with
  | nil => exact ⟨[], rfl, .nil⟩
  | @cons p q _ _ h1 _ ih =>
    obtain ⟨a', h2, h3⟩ := fill_account (day := day) hne h1.2 (hl p (by simp)) (hsym p (by simp))
    obtain ⟨as', h4, h5⟩ := ih (fun p hp => hl p (by simp [hp])) fun p hp => hsym p (by simp [hp])
    exact ⟨(q.1, a') :: as', by simp only [Ledger.processAll, h2, h4, bind, Except.bind]; rfl, .cons ⟨h1.1, h3⟩ h5⟩

theorem fill_text (env : Env) {day : Str} (hday : env.fmtDate env.today s%"%Y/%m/%d" = some day)
    (ps : List (EnvPosting Rat)) :
    ∃ t, (Ledger.fillEntry env.today ps).asParsable env s%"%Y/%m/%d" = .ok t ∧
      '\n' :: t = (fillOf env.today day (ps.map EnvPosting.line)).addition := by
  have hbody : ∀ ps : List (EnvPosting Rat), ((ps.map Posting.envelope).map fun p => s%"    " ++ p.display ++ ['\n']).flatten =
      ((ps.map EnvPosting.line).map BLine.move).flatMap fun l => l.text ++ ['\n'] := by
    intro ps
    rw [List.map_map, List.map_map, List.flatMap_map]
    show _ = (ps.map _).flatten
    congr 1
    refine List.map_congr_left fun p _ => ?_
    show s%"    " ++ (Posting.envelope p).display ++ ['\n'] = p.line.text ++ ['\n']
    rw [line_text]
  refine ⟨_, by
    unfold Entry.asParsable Ledger.fillEntry Entry.new
    simp only [hday, unwrap, bind, Except.bind, pure, Except.pure]
    rfl, ?_⟩
  unfold BEntry.addition BEntry.plain PEntry.header fillOf
  simp only [hbody]
  simp [Status.toChar, List.append_assoc]

/-! ### C122 -/

/-- C122. `silverfox envelopes` on a journal that declares accounts with envelopes and has entries, as written: the
envelopes of every account are served one after the other, goals before expenses and the last one first, from what is
available in the account; each gets what it wishes, or what is left, but at least what it owes, and nothing if it rests.
If any gets something, one entry of today with a line for each of them is added to the end of the journal, and nothing
else changes on disk; otherwise no file changes. What is printed is the report (see C121) with that entry. The lines of
an account stand together; in which order the accounts come is not said. -/
theorem C122_what_filling_writes (env : Env) (hord : FairOrder env.ord) (o : Outside) (w : World)
    (accs : List DeclAccount) (es : List BEntry) (text path day : Str) (h : EnvelopeJournal env accs es text)
    (hf : EnvelopesFit env.today accs es) (hr : w.read path = some text) (hfuel : o.fuel ≠ 0) (c : Str) (args : List Str)
    (fs : List Flag) (hc : c.head? = some 'e') (ha : Spelled fs args) (hj : journalFor o fs = some path)
    (hn : Flag.noMove ∉ fs) (hp : path.head? = some '/' ∨ '/' ∉ path)
    (hw : w.canAppend (resolve w.cwd path) = true)
    (hday : env.fmtDate env.today s%"%Y/%m/%d" = some day) (h0 : env.today ≠ Date.zero)
    (hcur : ∀ p ∈ accs, ∀ x ∈ p.2, ∀ y ∈ p.2, x.1.name = y.1.name → x.target.sym = y.target.sym) :
    ∃ (w' : World) (out : List Str) (served : List DeclAccount) (mss : List (List MLine)) (b : BEntry),
      mainProgram Rat env o (c :: args) w = (w', .ok out) ∧ w'.canAppend = w.canAppend ∧
      served.Perm accs ∧ List.Forall₂ (AccountFills env.today es) served mss ∧ b = fillOf env.today day mss.flatten ∧
      (b.lines = [] → w'.file = w.file) ∧
      (b.lines ≠ [] → w'.file (resolve w.cwd path) = some (text ++ b.addition) ∧
        ∀ f, f ≠ resolve w.cwd path → w'.file f = w.file f) ∧
      ∃ (shown : List DeclAccount) (blocks : List (List Str)), shown.Perm accs ∧
        shown.Pairwise (fun a b => strLt a.1 b.1 = true) ∧
        List.Forall₂ (AccountPart env.today (if b.lines = [] then es else es ++ [b])) shown blocks ∧
        out = blocks.flatten := by
  obtain ⟨fuel, hfu⟩ := Nat.exists_eq_succ_of_ne_zero hfuel
  obtain ⟨xs, l, _, hl, _, hload⟩ := h.loads (M := Rat) hord hf fuel w path hr
  have hinv := loaded_inv env _ _ _ _ l hload
  have hpath : l.filePath = path := (fromFile_sound env _ _ _ _ _ hload).1.choose_spec.filePath.1
  have hfull : List.Forall₂ (fun p q => q.1 = p.1 ∧ AccountFull env.today es p q.2) accs l.accounts := by
    have h1 := hl.accounts
    generalize l.accounts = as at h1
    have key : ∀ {ps : List DeclAccount}, (∀ p ∈ ps, p ∈ accs) →
        List.Forall₂ (fun p q => q.1 = p.1 ∧ AccountNow env.today es p q.2) ps as →
        List.Forall₂ (fun p q => q.1 = p.1 ∧ AccountFull env.today es p q.2) ps as := by
      clear h1
      intro ps hps h1
      induction h1 with
      | nil => exact .nil
      | cons h1 _ ih =>
        exact .cons ⟨h1.1, h1.2.full h.entries (h.envelopes _ (hps _ (by simp)))⟩ (ih fun y hy => hps y (by simp [hy]))
    exact key (fun _ h => h) h1
  obtain ⟨served, s1, s2⟩ := List.perm_comp_forall₂ (hord _ l.accounts) hfull.flip
  have s1 := s1.flip
  have hmem : ∀ p ∈ served, p ∈ accs := fun p hp => s2.mem_iff.1 hp
  obtain ⟨qs, mss, q1, q2, q3, q4⟩ := fillAll_fills hf.today h0 (fun p hp => h.envelopes p (hmem p hp))
    (fun p hp => hf.schedule p (hmem p hp)) (fun k a hm => hinv.wf k a ((hord _ l.accounts).mem_iff.1 hm)) s1
  obtain ⟨shown, n1, n2, n3⟩ := in_name_order hord h.once (names := l.accountNames) hl.names
  have hlines : (fillOf env.today day mss.flatten).lines = mss.flatten.map BLine.move := rfl
  by_cases hem : mss.flatten = []
  · have hnone : qs.filter (fun q => !Mag.eq q.amount.mag (Mag.zero : Rat)) = [] := by
      rw [hem] at q4
      exact List.map_eq_nil_iff.1 q4
    have hb : (fillOf env.today day mss.flatten).lines = [] := by rw [hlines, hem]; rfl
    obtain ⟨blocks, h4, h5⟩ := displayAccounts_parts (ok_symbols h.entries) h.envelopes hf.today hf.schedule
      (by rw [hl.names]; exact h.once) (hl.at h.entries h.envelopes) shown fun p hp => n2.mem_iff.1 hp
    refine ⟨w.cdParent path, blocks.flatten, served, mss, _, ?_, rfl, s2, q2, rfl, fun _ => rfl, fun g => absurd hb g, shown, blocks,
      n2, n3, by rw [if_pos hb]; exact h5, rfl⟩
    refine C79_report_printed env o c args w _ _ .envelopes fs hc ha l ?_ (.envelopes ?_) (by simp) (by simp)
    · refine ⟨path, l, _, hj, by rw [hfu]; exact hload, Or.inr ⟨hn, ?_⟩⟩
      unfold Ledger.fillEnvelopes
      simp only [q1, hnone]
      rfl
    · unfold Ledger.displayEnvelopes
      rw [n1]; exact h4
  · have hb : (fillOf env.today day mss.flatten).lines ≠ [] := by
      rw [hlines]; simpa using hem
    generalize hps : qs.filter (fun q => !Mag.eq q.amount.mag (Mag.zero : Rat)) = ps at q4
    have hne : ps ≠ [] := by
      rintro rfl
      exact hem q4.symm
    have hsym : ∀ p ∈ accs, ∀ x ∈ p.2, ∀ q ∈ ps, q.account = p.1 → q.envelope = x.1.name → q.amount.sym = x.target.sym := by
      intro p hp x hx q hq e1 e2
      rw [← hps] at hq
      obtain ⟨p', hp', x', hx', f1, f2, f3⟩ := q3 q (List.mem_filter.1 hq).1
      have : p' = p := List.inj_on_of_nodup_map h.once (hmem p' hp') hp (by rw [← f1, e1])
      subst this
      rw [f3]
      exact hcur p' hp x' hx' x hx (by rw [← f2, e2])
    obtain ⟨as', g1, g2⟩ := fill_all (day := day) hne (hl.at h.entries h.envelopes) (fun p hp x hx => hf.last hp hx) hsym
    rw [q4] at g2
    obtain ⟨t, t1, t2⟩ := fill_text env hday ps
    rw [q4] at t2
    have hread : endsInName path = true ∧ w.file (resolve w.cwd path) = some text := by
      unfold World.read at hr
      split at hr
      · rename_i he; exact ⟨he, hr⟩
      · cases hr
    have hcwd := resolve_again w path hp hread.1
    obtain ⟨l1, hl1⟩ : ∃ l1 : Ledger Rat, l1 = { l with
        accounts := as'
        entries := stableSort (fun a b => Date.lt a.date b.date) (l.entries ++ [Ledger.fillEntry env.today ps]) } := ⟨_, rfl⟩
    have hadd := (addEntry_iff env hord l l1 (Ledger.fillEntry env.today ps)).2 ⟨as', g1, hl1⟩
    have hacc : l1.accounts = as' := by rw [hl1]
    clear hl1
    have happ : l.appendEntry env (w.cdParent path) (Ledger.fillEntry env.today ps) =
        ((w.cdParent path).write (resolve w.cwd path) (text ++ '\n' :: t), .ok l1) := by
      unfold Ledger.appendEntry World.append
      rw [hpath, hcwd, hl.dateFormat, t1]
      simp only [hread.1]
      have e1 : (w.cdParent path).canAppend = w.canAppend := rfl
      have e2 : (w.cdParent path).file = w.file := rfl
      rw [e1, e2, hw, hread.2]
      simp only [Option.isSome]
      rw [← hadd]
      rfl
    have hfits : SymbolsFit (es ++ [fillOf env.today day mss.flatten]) := by
      intro b hb k v hv
      rcases List.mem_append.1 hb with hb | hb
      · exact ok_symbols h.entries b hb k v hv
      · rw [List.mem_singleton] at hb
        subst hb
        unfold PEntry.moves at hv
        rw [(fillOf_moves _ _ _).2] at hv
        cases hv
    have hnames : as'.map Prod.fst = accs.map Prod.fst := by
      clear g1 hadd happ hacc
      generalize es ++ [fillOf env.today day mss.flatten] = E at g2
      generalize accs = A at g2
      induction g2 with
      | nil => rfl
      | cons h1 _ ih => rw [List.map_cons, List.map_cons, ih, h1.1]
    obtain ⟨blocks, h4, h5⟩ := displayAccounts_parts hfits h.envelopes hf.today hf.schedule
      (by rw [hnames]; exact h.once) g2 shown fun p hp => n2.mem_iff.1 hp
    refine ⟨(w.cdParent path).write (resolve w.cwd path) (text ++ '\n' :: t), blocks.flatten, served, mss, _, ?_, rfl, s2, q2, rfl,
      fun g => absurd g hb, fun _ => ⟨?_, ?_⟩, shown, blocks, n2, n3, by rw [if_neg hb]; exact h5, rfl⟩
    rotate_left
    · show (if _ then _ else _) = _
      rw [if_pos rfl, ← t2]
    · intro f hne
      show (if _ then _ else _) = _
      rw [if_neg hne]
      rfl
    · refine C79_report_printed env o c args w _ _ .envelopes fs hc ha l1 ?_ (.envelopes ?_) (by simp) (by simp)
      · refine ⟨path, l, _, hj, by rw [hfu]; exact hload, Or.inr ⟨hn, ?_⟩⟩
        unfold Ledger.fillEnvelopes
        simp only [q1, hps]
        rw [if_neg (by simpa using hne)]
        exact happ
      · have hn1 : l1.accountNames = l.accountNames := by
          show l1.accounts.map _ = l.accounts.map _
          rw [hacc, hnames, hl.names]
        unfold Ledger.displayEnvelopes
        rw [hn1, n1, hacc]; exact h4

/-! ### A journal -/

/-- The journal of C121 with ways to fill the envelope, and with one more. -/
def exTripText : Str := s%"account bank\n  expense food due every 10th\n    amount $40\n    for shop\n    funding aggressive\n  goal trip by 2024/06/23\n    amount $100\n    funding conservative\naccount shop\naccount pay\n\n2024/06/01 * salary\n bank $100\n pay -100 $\n envelope bank food $30.50\n2024/06/12 * shopping\n shop 12.25$\n bank\n2024/06/13 * save\n bank $5\n pay $-5\n envelope bank food $8"

def exFoodFilled : MeantDecl Rat :=
  (⟨s%"  ", .expense, s%" ", s%"food", .due s%"every 10th", none,
    [(s%"    ", [], .amount s%"$40" ⟨40, some s%"$"⟩), (s%"    ", [], .forAccount s%"shop"),
      (s%"    ", [], .funding .aggressive)]⟩, .monthly 10, none)

def exTripGoal : MeantDecl Rat :=
  (⟨s%"  ", .goal, s%" ", s%"trip", .byDate s%"2024/06/23", none,
    [(s%"    ", [], .amount s%"$100" ⟨100, some s%"$"⟩), (s%"    ", [], .funding .conservative)]⟩,
    .once ⟨2024, 6, 23, by decide⟩, none)

def exTripAccounts : List DeclAccount := [(s%"bank", [exFoodFilled, exTripGoal]), (s%"shop", []), (s%"pay", [])]

theorem exFoodFilled_ok : DeclOk (stdEnv june15) exFoodFilled := by
  have hd : ValidSymbol '.' s%"$" := by decide
  refine ⟨⟨by decide, by decide, ⟨by decide, by decide, by decide, by decide, by decide⟩, ?_, .none, ?_⟩,
    ⟨by decide, by decide⟩, ?_⟩
  · exact .due _ _ (.monthly s%"10th" 10 ⟨by decide, s%"th", by decide, by decide, by decide⟩) (by decide)
  · intro p hp
    simp only [exFoodFilled, List.mem_cons, List.not_mem_nil, or_false] at hp
    rcases hp with rfl | rfl | rfl
    · exact ⟨by decide, by decide, by decide, by decide, by decide, by decide, ⟨_, _, rfl, by decide⟩,
        ⟨s%"$4", '0', rfl, by decide⟩, by
          show Amount.parse s%"$40" '.' = .ok (⟨40, some s%"$"⟩ : Amount Rat); decide +kernel⟩
    · exact ⟨by decide, by decide, by decide, by decide, by decide, by decide, ⟨_, _, rfl, by decide⟩,
        ⟨s%"sho", 'p', rfl, by decide⟩, by show isWord s%"shop"; decide⟩
    · exact ⟨by decide, by decide, by decide, by decide, by decide, by decide, ⟨_, _, rfl, by decide⟩,
        ⟨s%"aggressiv", 'e', rfl, by decide⟩, trivial⟩
  · intro p hp t a h
    simp only [exFoodFilled, List.mem_cons, List.not_mem_nil, or_false] at hp
    rcases hp with rfl | rfl | rfl
    · cases h
      exact ⟨s%"40", false, 40, 0, ⟨s%"40", [], by decide, by decide, by decide, by decide, by decide, by decide⟩,
        by norm_num, Or.inr ⟨_, rfl, hd, by decide⟩⟩
    · cases h
    · cases h

theorem exTripGoal_ok : DeclOk (stdEnv june15) exTripGoal := by
  have hd : ValidSymbol '.' s%"$" := by decide
  refine ⟨⟨by decide, by decide, ⟨by decide, by decide, by decide, by decide, by decide⟩, ?_, .none, ?_⟩,
    ⟨by decide, by decide⟩, ?_⟩
  · exact .byDate _ _ (.once s%"2024/06/23" _ (by decide) (by decide +kernel))
  · intro p hp
    simp only [exTripGoal, List.mem_cons, List.not_mem_nil, or_false] at hp
    rcases hp with rfl | rfl
    · exact ⟨by decide, by decide, by decide, by decide, by decide, by decide, ⟨_, _, rfl, by decide⟩,
        ⟨s%"$10", '0', rfl, by decide⟩, by
          show Amount.parse s%"$100" '.' = .ok (⟨100, some s%"$"⟩ : Amount Rat); decide +kernel⟩
    · exact ⟨by decide, by decide, by decide, by decide, by decide, by decide, ⟨_, _, rfl, by decide⟩,
        ⟨s%"conservativ", 'e', rfl, by decide⟩, trivial⟩
  · intro p hp t a h
    simp only [exTripGoal, List.mem_cons, List.not_mem_nil, or_false] at hp
    rcases hp with rfl | rfl
    · cases h
      exact ⟨s%"100", false, 100, 0, ⟨s%"100", [], by decide, by decide, by decide, by decide, by decide, by decide⟩,
        by norm_num, Or.inr ⟨_, rfl, hd, by decide⟩⟩
    · cases h

theorem exTripText_ok : EnvelopeJournal (stdEnv june15) exTripAccounts [exSalaryIn, exShopping, exSaving] exTripText := by
  refine ⟨.of (by decide +kernel), by decide, by decide, ?_, ?_, exGroceriesText_ok.entries⟩
  · intro p hp x hx
    simp only [exTripAccounts, List.mem_cons, List.not_mem_nil, or_false] at hp
    rcases hp with rfl | rfl | rfl
    · simp only [List.mem_cons, List.not_mem_nil, or_false] at hx
      rcases hx with rfl | rfl
      · exact exFoodFilled_ok
      · exact exTripGoal_ok
    · cases hx
    · cases hx
  · intro p hp k
    simp only [exTripAccounts, List.mem_cons, List.not_mem_nil, or_false] at hp
    rcases hp with rfl | rfl | rfl <;> cases k <;> decide

theorem exTrip_fits : EnvelopesFit june15 exTripAccounts [exSalaryIn, exShopping, exSaving] := by
  refine ⟨june15_inner, ?_, by decide +kernel, by decide +kernel⟩
  intro p hp x hx
  simp only [exTripAccounts, List.mem_cons, List.not_mem_nil, or_false] at hp
  rcases hp with rfl | rfl | rfl
  · simp only [List.mem_cons, List.not_mem_nil, or_false] at hx
    rcases hx with rfl | rfl
    · exact ⟨by show 1 ≤ 10 ∧ 10 ≤ 28; decide, trivial⟩
    · exact ⟨trivial, by show Date.Inner _; decide⟩
  · cases hx
  · cases hx

/-- The other hypotheses. -/
example : (stdEnv june15).fmtDate june15 s%"%Y/%m/%d" = some s%"2024/06/15" ∧ june15 ≠ Date.zero ∧
    (disk [("j", String.ofList exTripText)]).read s%"j" = some exTripText ∧
    ∀ p ∈ exTripAccounts, ∀ x ∈ p.2, ∀ y ∈ p.2, x.1.name = y.1.name → x.target.sym = y.target.sym := by decide +kernel

/-- What is printed and written: the trip, eight days ahead, gets an eighth; food gets what it lacks for July. -/
example : ∃ out, (mainProgram Rat (stdEnv june15) exOutside [s%"envelopes", s%"-f", s%"j"]
      (disk [("j", String.ofList exTripText)])).2 = .ok out ∧
      out = [s%"bank", s%"  available", s%"    $ 22", s%"  expenses", s%"    food",
        s%"      now                                  $ 18.25 / $ 40 |══════════════════                      |",
        s%"      next (on 2024-07-10)                    $ 40 / $ 40 |════════════════════════════════════════|",
        s%"  goals", s%"    trip",
        s%"      now                                     $ 0 / $ 100 |                                        |",
        s%"      next (on 2024-06-23)                 $ 12.5 / $ 100 |═════                                   |", []] := by
  decide +kernel

example : (mainProgram Rat (stdEnv june15) exOutside [s%"envelopes", s%"-f", s%"j"]
      (disk [("j", String.ofList exTripText)])).1.file [s%"h", s%"j"] = some (exTripText ++
    s%"\n2024/06/15 ~ move to envelopes // automatically generated by silverfox\n    envelope bank trip                                 $ 12.5\n    envelope bank food                                 $ 32\n") ∧
    (fillOf june15 s%"2024/06/15" [moveLine s%"bank" exTripGoal (25 / 2) s%"$ 12.5", moveLine s%"bank" exFoodFilled 32 s%"$ 32"]).addition =
      s%"\n2024/06/15 ~ move to envelopes // automatically generated by silverfox\n    envelope bank trip                                 $ 12.5\n    envelope bank food                                 $ 32\n" := by
  decide +kernel

end Silverfox
