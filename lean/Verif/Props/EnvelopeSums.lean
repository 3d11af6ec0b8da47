import Verif.Props.EnvelopeText

/-
C121: the envelope report is the sum of what is written.
-/

namespace Silverfox

set_option linter.unusedSectionVars false

/-! ### Specification: the report -/

/-- Specification: the text, perhaps after a space, is the amount as one may write it, to eight digits. -/
def Shows (t : Str) (q : Rat) (s : Option Str) : Prop :=
  ∃ r u, (t = u ∨ t = ' ' :: u) ∧ WrittenAmount u r s ∧ (∃ i : Int, r = (i : Rat) / 100000000) ∧ |r - q| ≤ 1 / 200000000

/-- Specification: a bar of forty cells, of which as many are full as the share of the goal, rounded down. (Nothing is
said of a share of nothing; see `C76_share_of_nothing`.) -/
def IsBar (q goal : Rat) (bar : Str) : Prop :=
  ∃ k : Nat, bar = '|' :: (List.replicate k '═' ++ List.replicate (40 - k) ' ') ++ ['|'] ∧ k ≤ 40 ∧
    (goal ≠ 0 → (k : Int) = (max 0 (min 40 (q * 40 / goal))).floor)

/-- Specification: a line of an envelope. -/
def barLine (label amount goal bar : Str) : Str :=
  s%"      " ++ padRight 20 label ++ ' ' :: padLeft 30 (amount ++ s%" / " ++ goal) ++ ' ' :: bar

/-- Specification: what is said about the next due date: the one of the schedule, but not before the first day. -/
def IsDue (today : Date) (x : MeantDecl Rat) (due : Option Date) : Prop :=
  ∃ d, x.2.1.nextDue today = .ok d ∧ due = (match x.2.2, d with
    | none, d => d
    | some s, none => some s
    | some s, some d => some (Date.max s d))

def dueLabel : Option Date → Str
  | none => s%"next"
  | some d => s%"next (on " ++ d.iso ++ s%")"

/-- Specification: the lines of an envelope. A debt is not shown as what there is now, but taken off what is saved for
the next time. -/
def EnvelopePart (today : Date) (k : Str) (es : List BEntry) (x : MeantDecl Rat) (ls : List Str) : Prop :=
  ∃ last due now next goal nowBar nextBar, x.2.1.lastDue today = .ok last ∧ IsDue today x due ∧
    ls = [s%"    " ++ x.1.name, barLine s%"now" now goal nowBar, barLine (dueLabel due) next goal nextBar] ∧
    Shows goal x.target.mag x.target.sym ∧
    Shows now (max (nowOf last k x es) 0) x.target.sym ∧
    Shows next (nextOf last k x es + min (nowOf last k x es) 0) x.target.sym ∧
    IsBar (max (nowOf last k x es) 0) x.target.mag nowBar ∧
    IsBar (nextOf last k x es + min (nowOf last k x es) 0) x.target.mag nextBar

/-- Specification: the lines of several envelopes, under a title unless there are none. -/
def SectionPart (today : Date) (k : Str) (es : List BEntry) (title : Str) (xs : List (MeantDecl Rat)) (ls : List Str) :
    Prop :=
  (xs = [] ∧ ls = []) ∨
    (xs ≠ [] ∧ ∃ blocks, ls = title :: blocks.flatten ∧ List.Forall₂ (EnvelopePart today k es) xs blocks)

/-- Specification: what is available, a line for every currency of which there is something or something is lacking. -/
def AvailablePart (p : DeclAccount) (es : List BEntry) (ls : List Str) : Prop :=
  ∃ ts : List (Str × Option Str), ls = ts.map (fun t => s%"    " ++ t.1) ∧ (ts.map Prod.snd).Nodup ∧
    (∀ s, s ∈ ts.map Prod.snd ↔ availableOf p s es ≠ 0) ∧ ∀ t ∈ ts, Shows t.1 (availableOf p t.2 es) t.2

/-- Specification: the lines of an account. -/
def AccountPart (today : Date) (es : List BEntry) (p : DeclAccount) (ls : List Str) : Prop :=
  (p.2 = [] ∧ ls = []) ∨
    (p.2 ≠ [] ∧ ∃ avail ex go, ls = p.1 :: s%"  available" :: (avail ++ ex ++ go) ++ [[]] ∧ AvailablePart p es avail ∧
      SectionPart today p.1 es s%"  expenses" (ofKind .expense p.2) ex ∧
      SectionPart today p.1 es s%"  goals" (ofKind .goal p.2) go)

/-! ### What is read is what is written -/

theorem foldl_add_rat (l : List Rat) (z : Rat) : l.foldl Mag.add z = z + l.sum := by
  induction l generalizing z with
  | nil => simp
  | cons x l ih => rw [List.foldl_cons, ih, List.sum_cons]; simp only [Mag.add]; ring

theorem readWorth_rat {env : Env} {accs : List Str} {e : PEntry} (h : e.Ok env accs) {l : PLine} (hl : l ∈ e.lines) :
    e.readWorth l = (e.worth l).map fun v => (⟨v.1, v.2⟩ : Amount Rat) := by
  unfold PEntry.readWorth PEntry.worth
  cases hv : l.value with
  | some v => simp only [Option.map, (h.lines l hl).mag_rat hv]
  | none => exact h.rest_rat

theorem readGain_rat {env : Env} {accs : List Str} {e : PEntry} (h : e.Ok env accs) (f : Str → Bool) :
    (e.readGain f : Rat) = e.gain f := by
  unfold PEntry.readGain PEntry.gain
  rw [foldl_add_rat]
  have : (e.lines.filterMap fun l => if f l.account then e.readWorth l else none) =
      (e.lines.filterMap fun l => if f l.account then e.worth l else none).map fun v => (⟨v.1, v.2⟩ : Amount Rat) := by
    rw [List.map_filterMap]
    refine List.filterMap_congr fun l hl => ?_
    split
    · exact readWorth_rat h hl
    · rfl
  rw [this, List.map_map]
  simp only [Mag.zero, zero_add]
  rfl

theorem magMin_rat (x y : Rat) : (Mag.min x y : Rat) = min x y := by
  simp only [Mag.min]
  split
  · rename_i h; rw [min_eq_right (le_of_lt h)]
  · rename_i h; rw [min_eq_left (not_lt.1 h)]

theorem magMax_rat (x y : Rat) : (Mag.max x y : Rat) = max x y := by
  simp only [Mag.max]
  split
  · rename_i h; rw [max_eq_right (le_of_lt h)]
  · rename_i h; rw [max_eq_left (not_lt.1 h)]

theorem magAbs_rat (x : Rat) : (Mag.abs x : Rat) = |x| := by
  simp only [Mag.abs]
  split
  · rename_i h; rw [abs_of_neg h]
  · rename_i h; rw [abs_of_nonneg (not_lt.1 h)]

theorem readAutomatic_rat {env : Env} {accs : List Str} {e : PEntry} (h : e.Ok env accs) (k : Str) (fors : List Str) :
    (e.readAutomatic k fors : Rat) = e.automatic k fors := by
  unfold PEntry.readAutomatic PEntry.automatic
  simp only [readGain_rat h, magMin_rat, magAbs_rat, Mag.lt, Mag.zero, Mag.neg, decide_eq_true_eq]

/-- What is moved is what is written, but for nothing. -/
theorem readIn_rat {env : Env} {accs : List Str} {b : BEntry} (h : b.Ok env accs) (k : Str) (x : MeantDecl Rat) :
    (b.readIn k x : List Rat) = b.movesIn k x ∨ ((b.readIn k x : List Rat) = [] ∧ b.movesIn k x = [0]) := by
  unfold BEntry.readIn BEntry.movesIn
  by_cases hm : b.moves ≠ []
  · rw [if_pos hm, if_pos hm]
    left
    refine List.map_congr_left fun m hm' => ?_
    exact (h.moves m (List.mem_filter.1 hm').1).amount.close.readMag_rat
  · rw [if_neg hm, if_neg hm]
    by_cases ht : b.Touches k x
    · rw [if_pos ht, if_pos ht]
      simp only
      split
      · rename_i hz
        right
        refine ⟨rfl, ?_⟩
        rw [readGain_rat h.plain, readGain_rat h.plain, magMin_rat, magAbs_rat] at hz
        simp only [Mag.eq, Mag.zero, decide_eq_true_eq] at hz
        unfold PEntry.automatic
        simp only [hz]
        simp
      · left
        rw [readAutomatic_rat h.plain]
    · rw [if_neg ht, if_neg ht]
      exact Or.inl rfl

theorem toNow_rat (last : Option Date) (day : Date) (v : Rat) :
    ([v].filter (toNow last day)).sum = (if ForNow last day v then v else 0) ∧
    ([v].filter (toNext last day)).sum = (if ForNow last day v then 0 else v) := by
  have hb : (last.any fun d => Date.lt day d) = true ↔ ∃ d, last = some d ∧ Date.lt day d = true := by
    cases last <;> simp
  unfold toNow toNext ForNow
  simp only [Mag.lt, Mag.zero, ← hb]
  rcases lt_trichotomy v 0 with h | h | h
  · simp [h]
  · subst h; simp
  · have h' : ¬ v < 0 := not_lt.2 h.le
    cases ha : (last.any fun d => Date.lt day d) <;> simp [h, h']

theorem sum_moved (f : Rat → Bool) (g : Rat → Rat) (hf : ∀ v, ([v].filter f).sum = g v) (h0 : g 0 = 0) {r m : List Rat}
    (h : r = m ∨ (r = [] ∧ m = [0])) : (r.filter f).sum = (m.map g).sum := by
  have key : ∀ l : List Rat, (l.filter f).sum = (l.map g).sum := by
    intro l
    induction l with
    | nil => rfl
    | cons v l ih =>
      rw [show v :: l = [v] ++ l from rfl, List.filter_append, List.sum_append, hf, ih]
      simp
  rcases h with rfl | ⟨rfl, rfl⟩
  · exact key r
  · simp [h0]

theorem nowRead_rat {env : Env} {accs : List Str} {es : List BEntry} (h : ∀ b ∈ es, b.Ok env accs) (last : Option Date)
    (k : Str) (x : MeantDecl Rat) : (nowRead last k x es : Rat) = nowOf last k x es := by
  unfold nowRead nowOf
  rw [foldl_add_rat]
  simp only [Mag.zero, zero_add]
  induction es with
  | nil => rfl
  | cons b es ih =>
    rw [List.flatMap_cons, List.flatMap_cons, List.sum_append, List.sum_append, ih fun c hc => h c (by simp [hc]),
      sum_moved _ (fun v => if ForNow last b.day v then v else 0) (fun v => (toNow_rat last b.day v).1) (by simp)
        (readIn_rat (h b (by simp)) k x)]

theorem nextRead_rat {env : Env} {accs : List Str} {es : List BEntry} (h : ∀ b ∈ es, b.Ok env accs) (last : Option Date)
    (k : Str) (x : MeantDecl Rat) : (nextRead last k x es : Rat) = nextOf last k x es := by
  unfold nextRead nextOf
  rw [foldl_add_rat]
  simp only [Mag.zero, zero_add]
  induction es with
  | nil => rfl
  | cons b es ih =>
    rw [List.flatMap_cons, List.flatMap_cons, List.sum_append, List.sum_append, ih fun c hc => h c (by simp [hc]),
      sum_moved _ (fun v => if ForNow last b.day v then 0 else v) (fun v => (toNow_rat last b.day v).2) (by simp)
        (readIn_rat (h b (by simp)) k x)]

theorem held_split (last : Option Date) (k : Str) (x : MeantDecl Rat) (es : List BEntry) :
    heldOf k x es = nowOf last k x es + nextOf last k x es := by
  unfold heldOf nowOf nextOf
  induction es with
  | nil => simp
  | cons b es ih =>
    simp only [List.flatMap_cons, List.sum_append, ih]
    have : ∀ l : List Rat, l.sum = (l.map fun v => if ForNow last b.day v then v else 0).sum +
        (l.map fun v => if ForNow last b.day v then 0 else v).sum := by
      intro l
      induction l with
      | nil => simp
      | cons v l ih =>
        simp only [List.map_cons, List.sum_cons]
        rw [ih]
        split <;> ring
    rw [this (b.movesIn k x)]
    ring

theorem into_rat {env : Env} {x : MeantDecl Rat} (h : DeclOk env x) : declInto Rat x = x := by
  have : x.1.into Rat = x.1 := by
    unfold EnvDecl.into
    have : (x.1.props.map fun p => (p.1, p.2.1, p.2.2.into Rat)) = x.1.props := by
      conv => rhs; rw [← List.map_id x.1.props]
      refine List.map_congr_left fun p hp => ?_
      obtain ⟨g, g', q⟩ := p
      cases q with
      | forAccount a => rfl
      | amount t a =>
        have := (h.amounts _ hp t a rfl).readMag_rat
        simp only [PropLine.into, this]
        rfl
      | funding f => rfl
    rw [this]
  unfold declInto
  rw [this]

/-- The day of the last entry that moves something in an envelope. -/
theorem lastRead_rat {env : Env} {accs : List Str} {es : List BEntry} (h : ∀ b ∈ es, b.Ok env accs) (k : Str)
    (x : MeantDecl Rat) : lastRead Rat k x es = (lastMoved k x es).getD Date.zero := by
  have hone : ∀ (l : List Rat) (d e : Date), l.foldl (fun _ _ => d) e = if l = [] then e else d := by
    intro l d
    induction l with
    | nil => intro e; rfl
    | cons v l ih =>
      intro e
      rw [List.foldl_cons, ih]
      simp
  have hact : ∀ b ∈ es, b.Acts k x ↔ (b.readIn k x : List Rat) ≠ [] := by
    intro b hb
    unfold BEntry.Acts
    rcases readIn_rat (h b hb) k x with h1 | ⟨h1, h2⟩
    · rw [h1]
      constructor
      · exact fun h => h.1
      · refine fun h2 => ⟨h2, fun hm h0 => ?_⟩
        have hr := h1
        rw [h0] at hr
        unfold BEntry.readIn at hr
        rw [if_neg (fun g => g hm)] at hr
        split at hr
        · simp only at hr
          split at hr
          · cases hr
          · rename_i hz
            have h3 := (List.cons.inj hr).1
            apply hz
            rw [readAutomatic_rat (h b hb).plain] at h3
            rw [readGain_rat (h b hb).plain, readGain_rat (h b hb).plain, magMin_rat, magAbs_rat]
            simp only [Mag.eq, Mag.zero, decide_eq_true_eq]
            unfold PEntry.automatic at h3
            simp only at h3
            split at h3
            · exact neg_eq_zero.1 h3
            · exact h3
        · cases hr
    · rw [h1]
      simp only [ne_eq, not_true_eq_false, iff_false, not_and]
      intro _
      by_cases hm : b.moves = []
      · exact fun g => g hm h2
      · exfalso
        unfold BEntry.readIn at h1
        unfold BEntry.movesIn at h2
        rw [if_pos hm] at h1 h2
        rw [List.map_eq_nil_iff] at h1
        rw [h1] at h2
        cases h2
  unfold lastRead lastMoved
  have key : ∀ d, es.foldl (fun d b => (b.readIn k x : List Rat).foldl (fun _ _ => b.day) d) d =
      (((es.filter fun b => decide (b.Acts k x)).getLast?).map BEntry.day).getD d := by
    induction es with
    | nil => intro d; rfl
    | cons b es ih =>
      intro d
      rw [List.foldl_cons, ih (fun c hc => h c (by simp [hc])) (fun c hc => hact c (by simp [hc])), hone]
      by_cases hb : b.Acts k x
      · rw [List.filter_cons_of_pos (by simpa using hb), if_neg ((hact b (by simp)).1 hb)]
        cases (es.filter fun b => decide (b.Acts k x)) with
        | nil => rfl
        | cons c cs => rw [List.getLast?_cons_cons, List.getLast?_eq_some_getLast (by simp)]; rfl
      · rw [List.filter_cons_of_neg (by simpa using hb)]
        have h0 := fun g => hb ((hact b (by simp)).2 g)
        rw [if_pos (by simpa using h0)]
  exact key _

/-- An envelope, in terms of what is written. -/
structure EnvelopeAt (today : Date) (k : Str) (es : List BEntry) (x : MeantDecl Rat) (e : Envelope Rat) : Prop where
  read : ReadEnvelope k x e
  goal : e.amount = x.target
  now : e.now.mag = nowOf (lastOf today x) k x es
  next : e.next.mag = nextOf (lastOf today x) k x es

/-- An account, in terms of what is written. -/
structure AccountAt (today : Date) (es : List BEntry) (p : DeclAccount) (a : Account Rat) : Prop where
  name : a.name = p.1
  expenses : List.Forall₂ (EnvelopeAt today p.1 es) (ofKind .expense p.2) a.expenses
  goals : List.Forall₂ (EnvelopeAt today p.1 es) (ofKind .goal p.2) a.goals
  real : a.real = ((es.flatMap fun b => b.plain.moves p.1).map fun v => (⟨v.1, v.2⟩ : Amount Rat)).foldl Pool.add []

theorem EnvelopeNow.at {env : Env} {accs : List Str} {es : List BEntry} (hes : ∀ b ∈ es, b.Ok env accs) {k : Str}
    {x : MeantDecl Rat} (hx : DeclOk env x) {e : Envelope Rat} (h : EnvelopeNow env.today k es x e) :
    EnvelopeAt env.today k es x e :=
  ⟨h.read, by rw [h.read.amount, into_rat hx], by rw [h.now, nowRead_rat hes], by rw [h.next, nextRead_rat hes]⟩

theorem AccountNow.at {env : Env} {accs : List Str} {es : List BEntry} (hes : ∀ b ∈ es, b.Ok env accs) {p : DeclAccount}
    (hp : ∀ x ∈ p.2, DeclOk env x) {a : Account Rat} (h : AccountNow env.today es p a) : AccountAt env.today es p a := by
  have key : ∀ {xs : List (MeantDecl Rat)} {as : List (Envelope Rat)}, (∀ x ∈ xs, x ∈ p.2) →
      List.Forall₂ (EnvelopeNow env.today p.1 es) xs as → List.Forall₂ (EnvelopeAt env.today p.1 es) xs as := by
    intro xs as hx h
    induction h with
    | nil => exact .nil
    | cons h1 _ ih => exact .cons (h1.at hes (hp _ (hx _ (by simp)))) (ih fun y hy => hx y (by simp [hy]))
  refine ⟨h.name, key (fun x hx => (mem_ofKind hx).1) h.expenses, key (fun x hx => (mem_ofKind hx).1) h.goals, ?_⟩
  rw [h.real, List.map_flatMap]
  congr 1
  exact List.flatMap_congr fun b hb => (hes b hb).plain.moves_rat p.1

/-! ### The parts of the report -/

theorem written_symbol {t : Str} {q : Rat} {s : Option Str} (h : WrittenAmount t q s) : ∀ y, s = some y → ValidSymbol '.' y := by
  obtain ⟨w, neg, d, k, _, _, h3⟩ := h
  rcases h3 with ⟨rfl, _⟩ | ⟨sym, rfl, hv, _⟩
  · intro y hy; cases hy
  · intro y hy; cases hy; exact hv

theorem target_symbol {env : Env} {x : MeantDecl Rat} (h : DeclOk env x) : ∀ y, x.target.sym = some y → ValidSymbol '.' y := by
  intro y hy
  unfold MeantDecl.target at hy
  generalize hg : (x.1.props.filterMap _).getLast? = g at hy
  cases g with
  | none => cases hy
  | some a =>
    obtain ⟨p, hp, hpa⟩ := List.mem_filterMap.1 (List.mem_of_getLast? hg)
    cases hq : p.2.2 with
    | forAccount b => rw [hq] at hpa; cases hpa
    | amount t b =>
      rw [hq] at hpa
      cases hpa
      exact written_symbol (h.amounts p hp t _ hq) y hy
    | funding f => rw [hq] at hpa; cases hpa

theorem shows_display (a : Amount Rat) (h : ∀ y, a.sym = some y → ValidSymbol '.' y) : Shows a.display a.mag a.sym := by
  obtain ⟨q, h1, h2, h3⟩ := C08_round_trip_exact a h
  have hq : q = round8 a.mag := by
    rw [Amount.parse_display (fmtOk_rat _) h] at h1
    cases h1; rfl
  obtain ⟨⟨neg, d, k, hn⟩, hp⟩ := fmtOk_rat a.mag
  have hval : q = (if neg then -1 else 1) * ((d : Rat) / 10 ^ k) := by
    obtain ⟨m, g1, g2⟩ := (C05_numbers hn).2
    rw [Amount.parse_numeral hn hp] at g1
    cases g1
    rw [hq, g2]
  obtain ⟨m, y⟩ := a
  simp only at h h3 hn hq ⊢
  cases y with
  | none =>
    refine ⟨q, Mag.fmt (round8 m), ?_, ⟨_, neg, d, k, hn, hval, Or.inl ⟨rfl, rfl⟩⟩, h2, h3⟩
    unfold Amount.display magText
    simp only
    split
    · exact Or.inl rfl
    · exact Or.inr rfl
  | some sym =>
    have hv := h sym rfl
    have key : ∀ u, u ∈ [sym ++ Mag.fmt (round8 m), Mag.fmt (round8 m) ++ sym, sym ++ s%" " ++ Mag.fmt (round8 m),
        Mag.fmt (round8 m) ++ s%" " ++ sym] → WrittenAmount u q (some sym) := fun u hu =>
      ⟨_, neg, d, k, hn, hval, Or.inr ⟨sym, rfl, hv, hu⟩⟩
    unfold Amount.display magText
    simp only
    split
    · split
      · exact ⟨q, _, Or.inl rfl, key _ (by simp), h2, h3⟩
      · exact ⟨q, _, Or.inl rfl, key _ (by simp), h2, h3⟩
    · split
      · exact ⟨q, _, Or.inl rfl, key _ (by simp), h2, h3⟩
      · exact ⟨q, _, Or.inr rfl, key _ (by simp), h2, h3⟩

theorem makeBar_isBar (e : Envelope Rat) (amt : Amount Rat) : ∃ bar, e.makeBar amt 40 = .ok bar ∧ IsBar amt.mag e.amount.mag bar := by
  obtain ⟨k, h1, h2⟩ := C76_bar_is_proportional e amt
  refine ⟨_, h1, k, rfl, ?_, fun _ => h2⟩
  have h3 : (max 0 (min 40 (amt.mag * 40 / e.amount.mag))).floor ≤ 40 := by
    have : (max 0 (min 40 (amt.mag * 40 / e.amount.mag))).floor ≤ (40 : Rat).floor :=
      Rat.floor_monotone (max_le (by norm_num) (min_le_left _ _))
    exact this
  omega

theorem envelope_part {env : Env} {es : List BEntry} {k : Str}
    {x : MeantDecl Rat} (hx : DeclOk env x) (ht : env.today.Inner) (hs : x.2.1.Safe ∧ x.2.1.Inner) {e : Envelope Rat}
    (h : EnvelopeAt env.today k es x e) :
    ∃ ls, e.display env.today = .ok ls ∧ EnvelopePart env.today k es x ls := by
  obtain ⟨last, hl⟩ := C28_last_due_never_crashes_partial env.today x.2.1 ht hs.2 hs.1
  obtain ⟨d, hd⟩ := C28_next_due_never_crashes env.today x.2.1 ht hs.2
  have hlast : lastOf env.today x = last := by unfold lastOf; rw [hl]
  have hnow : e.now = ⟨nowOf last k x es, x.target.sym⟩ := by
    have h1 := h.now
    rw [hlast] at h1
    rw [← h1, ← h.read.sym, ← h.read.one.1]
  have hnext : e.next = ⟨nextOf last k x es, x.target.sym⟩ := by
    have h1 := h.next
    rw [hlast] at h1
    rw [← h1, ← h.read.sym, ← h.read.one.2]
  have hgoal : e.amount = x.target := h.goal
  obtain ⟨due, hdue, hisdue⟩ : ∃ due, e.nextDue env.today = .ok due ∧ IsDue env.today x due := by
    unfold Envelope.nextDue
    rw [h.read.freq, h.read.starting]
    cases hst : x.2.2 with
    | none => exact ⟨d, hd, d, hd, by rw [hst]⟩
    | some s =>
      simp only [hd, bind, Except.bind, pure, Except.pure]
      cases d with
      | none => exact ⟨_, rfl, none, hd, by rw [hst]⟩
      | some d => exact ⟨_, rfl, some d, hd, by rw [hst]⟩
  have hsym := target_symbol hx
  obtain ⟨b1, g1, g2⟩ := makeBar_isBar e ⟨max (nowOf last k x es) 0, x.target.sym⟩
  obtain ⟨b2, g3, g4⟩ := makeBar_isBar e ⟨nextOf last k x es + min (nowOf last k x es) 0, x.target.sym⟩
  rw [hgoal] at g2 g4
  refine ⟨_, ?_, last, due, (⟨max (nowOf last k x es) 0, x.target.sym⟩ : Amount Rat).display,
    (⟨nextOf last k x es + min (nowOf last k x es) 0, x.target.sym⟩ : Amount Rat).display, x.target.display, b1, b2, hl,
    hisdue, rfl, shows_display _ hsym, shows_display _ hsym, shows_display _ hsym, g2, g4⟩
  unfold Envelope.display
  rw [hnow, hnext]
  simp only [hdue, bind, Except.bind, pure, Except.pure, magMin_rat, magMax_rat]
  simp only [Mag.add, Mag.zero]
  rw [g3]
  simp only [g1, Envelope.textProgress, hgoal, h.read.name]
  congr 2
  cases due <;> rfl

theorem section_part {env : Env} {es : List BEntry} {k : Str}
    {xs : List (MeantDecl Rat)} (hx : ∀ x ∈ xs, DeclOk env x) (ht : env.today.Inner)
    (hs : ∀ x ∈ xs, x.2.1.Safe ∧ x.2.1.Inner) {as : List (Envelope Rat)}
    (h : List.Forall₂ (EnvelopeAt env.today k es) xs as) :
    ∃ blocks, Account.displayAll env.today as = .ok blocks.flatten ∧ List.Forall₂ (EnvelopePart env.today k es) xs blocks := by
  induction h with
  | nil => exact ⟨[], rfl, .nil⟩
  | cons h1 _ ih =>
    obtain ⟨ls, h2, h3⟩ := envelope_part (hx _ (by simp)) ht (hs _ (by simp)) h1
    obtain ⟨bs, h4, h5⟩ := ih (fun x hm => hx x (by simp [hm])) fun x hm => hs x (by simp [hm])
    exact ⟨ls :: bs, by simp only [Account.displayAll, h2, h4, bind, Except.bind]; rfl, .cons h3 h5⟩

theorem available_foldl (a : Account Rat) :
    a.available = (a.envelopes.flatMap fun e => [e.next.neg, e.now.neg]).foldl Pool.add a.real := by
  unfold Account.available
  generalize a.real = p
  induction a.envelopes generalizing p with
  | nil => rfl
  | cons e es ih => rw [List.foldl_cons, ih, List.flatMap_cons, List.foldl_append]; rfl

theorem kinds_perm (ds : List (MeantDecl Rat)) : (ofKind .expense ds ++ ofKind .goal ds).Perm ds := by
  have h : ofKind .goal ds = ds.filter fun x => !decide (x.1.kind = .expense) := by
    unfold ofKind
    refine List.filter_congr fun x _ => ?_
    cases x.1.kind <;> simp
  rw [h]
  exact List.filter_append_perm _ ds

theorem account_bal {today : Date} {es : List BEntry} {p : DeclAccount}
    {a : Account Rat} (h : AccountAt today es p a) (s : Option Str) : a.available.bal s = availableOf p s es := by
  have henv : List.Forall₂ (EnvelopeAt today p.1 es) (ofKind .expense p.2 ++ ofKind .goal p.2) a.envelopes :=
    List.rel_append h.expenses h.goals
  have hone : ∀ e ∈ a.envelopes, e.OneCurrency := by
    intro e he
    obtain ⟨x, _, hx⟩ := forall₂_mem_right henv he
    exact hx.read.one
  show (a.available.only s).mag = _
  rw [C44_available_holds a s hone]
  unfold availableOf
  congr 1
  · show a.real.bal s = _
    rw [h.real, bal_foldl_add]
    unfold writtenSum
    rw [List.flatMap_map, List.map_map]
    have h0 : Pool.bal ([] : Pool Rat) s = 0 := rfl
    rw [h0, zero_add]
    rfl
  · rw [(((kinds_perm p.2).symm.filter _).map _).sum_eq]
    generalize ofKind .expense p.2 ++ ofKind .goal p.2 = xs at henv
    generalize a.envelopes = as at henv
    clear hone
    induction henv with
    | nil => rfl
    | @cons x e xs as h1 _ ih =>
      have hsym : e.amount.sym = x.target.sym := h1.read.sym
      have hh : e.holds = heldOf p.1 x es := by
        unfold Envelope.holds
        rw [h1.now, h1.next, ← held_split]
      by_cases hs : x.target.sym = s
      · rw [List.filter_cons_of_pos (by simp [hsym, hs]), List.filter_cons_of_pos (by simp [hs]), List.map_cons, List.map_cons,
          List.sum_cons, List.sum_cons, ih, hh]
      · rw [List.filter_cons_of_neg (by simp [hsym, hs]), List.filter_cons_of_neg (by simp [hs]), ih]

theorem moves_symbol {env : Env} {accs : List Str} {e : PEntry} (h : e.Ok env accs) {k : Str} {v : Rat × Option Str}
    (hv : v ∈ e.moves k) : ∀ y, v.2 = some y → ValidSymbol '.' y := by
  have hval : ∀ l ∈ e.lines, ∀ u, l.value = some u → ∀ y, u.2 = some y → ValidSymbol '.' y := by
    intro l hl u hu
    exact written_symbol ((h.lines l hl).given u.1 u.2 hu).2.2
  obtain ⟨l, hl, hw⟩ := List.mem_filterMap.1 hv
  split at hw
  · unfold PEntry.worth at hw
    cases hu : l.value with
    | some u => rw [hu] at hw; cases hw; exact hval l hl v hu
    | none =>
      rw [hu] at hw
      simp only [PEntry.rest] at hw
      cases hg : e.given with
      | nil => rw [hg] at hw; cases hw
      | cons u us =>
        rw [hg] at hw
        cases hw
        obtain ⟨j, hj, hju⟩ := List.mem_filterMap.1 (show u ∈ e.lines.filterMap PLine.value by
          show u ∈ e.given
          rw [hg]; simp)
        exact hval j hj u hju
  · cases hw

/-- The symbols are such that they can be read. -/
def SymbolsFit (es : List BEntry) : Prop :=
  ∀ b ∈ es, ∀ k, ∀ v ∈ b.plain.moves k, ∀ y, v.2 = some y → ValidSymbol '.' y

theorem available_part {env : Env} {es : List BEntry} (hes : SymbolsFit es) {p : DeclAccount}
    (hp : ∀ x ∈ p.2, DeclOk env x) {a : Account Rat} (h : AccountAt env.today es p a) :
    AvailablePart p es ((a.available.filter fun x => !Mag.eq x.mag (Mag.zero : Rat)).map fun x => s%"    " ++ x.display) := by
  have henv : List.Forall₂ (EnvelopeAt env.today p.1 es) (ofKind .expense p.2 ++ ofKind .goal p.2) a.envelopes :=
    List.rel_append h.expenses h.goals
  have hfold : a.available = (((es.flatMap fun b : BEntry => b.plain.moves p.1).map fun v => (⟨v.1, v.2⟩ : Amount Rat)) ++
      (a.envelopes.flatMap fun e : Envelope Rat => [e.next.neg, e.now.neg])).foldl Pool.add [] := by
    rw [available_foldl, h.real, List.foldl_append]
  obtain ⟨hnd, hmem⟩ := pool_syms (M := Rat)
    (((es.flatMap fun b : BEntry => b.plain.moves p.1).map fun v => (⟨v.1, v.2⟩ : Amount Rat)) ++
      (a.envelopes.flatMap fun e : Envelope Rat => [e.next.neg, e.now.neg]))
  rw [← hfold] at hnd hmem
  have hval : ∀ c ∈ a.available, ∀ y, c.sym = some y → ValidSymbol '.' y := by
    intro c hc y hy
    have := (hmem c.sym).1 (List.mem_map_of_mem hc)
    rw [List.map_append, List.mem_append] at this
    rcases this with h1 | h1
    · obtain ⟨m, hm, hms⟩ := List.mem_map.1 h1
      obtain ⟨v, hv, rfl⟩ := List.mem_map.1 hm
      obtain ⟨b, hb, hv⟩ := List.mem_flatMap.1 hv
      exact hes b hb p.1 v hv y (by rw [← hy, ← hms])
    · obtain ⟨m, hm, hms⟩ := List.mem_map.1 h1
      obtain ⟨e, he, hm⟩ := List.mem_flatMap.1 hm
      obtain ⟨x, hx, hxe⟩ := forall₂_mem_right henv he
      have hx : x ∈ p.2 := (kinds_perm p.2).mem_iff.1 hx
      refine target_symbol (hp x hx) y ?_
      rw [← hxe.read.sym, ← hy, ← hms]
      simp only [List.mem_cons, List.not_mem_nil, or_false] at hm
      rcases hm with rfl | rfl
      · exact hxe.read.one.2.symm
      · exact hxe.read.one.1.symm
  have hmag : ∀ c ∈ a.available, c.mag = availableOf p c.sym es := by
    intro c hc
    rw [← account_bal h, Pool.bal_eq, line_of_mem _ hnd c hc]
    rfl
  refine ⟨(a.available.filter fun x => !Mag.eq x.mag (Mag.zero : Rat)).map fun x => (x.display, x.sym), ?_, ?_, ?_, ?_⟩
  · rw [List.map_map]; rfl
  · rw [List.map_map]
    exact List.Nodup.sublist (List.Sublist.map _ List.filter_sublist) hnd
  · intro s
    rw [List.map_map, List.mem_map]
    constructor
    · rintro ⟨c, hc, rfl⟩
      obtain ⟨h1, h2⟩ := List.mem_filter.1 hc
      show availableOf p c.sym es ≠ 0
      rw [← hmag c h1]
      simpa [Mag.eq, Mag.zero] using h2
    · intro hne
      rw [← account_bal h, Pool.bal_eq] at hne
      cases hl : a.available.line s with
      | none => rw [hl] at hne; simp at hne
      | some c =>
        rw [hl] at hne
        refine ⟨c, List.mem_filter.2 ⟨List.mem_of_find?_eq_some hl, ?_⟩, Pool.line_sym hl⟩
        simpa [Mag.eq, Mag.zero] using hne
  · intro t ht
    obtain ⟨c, hc, rfl⟩ := List.mem_map.1 ht
    have hc := (List.mem_filter.1 hc).1
    show Shows c.display (availableOf p c.sym es) c.sym
    rw [← hmag c hc]
    exact shows_display c (hval c hc)

theorem account_part {env : Env} {es : List BEntry} (hes : SymbolsFit es) {p : DeclAccount}
    (hp : ∀ x ∈ p.2, DeclOk env x) (ht : env.today.Inner) (hs : ∀ x ∈ p.2, x.2.1.Safe ∧ x.2.1.Inner) {a : Account Rat}
    (h : AccountAt env.today es p a) : ∃ ls, a.display env.today = .ok ls ∧ AccountPart env.today es p ls := by
  obtain ⟨b1, h1, h2⟩ := section_part (fun x hx => hp x (mem_ofKind hx).1) ht (fun x hx => hs x (mem_ofKind hx).1) h.expenses
  obtain ⟨b2, h3, h4⟩ := section_part (fun x hx => hp x (mem_ofKind hx).1) ht (fun x hx => hs x (mem_ofKind hx).1) h.goals
  have hsec : ∀ (title : Str) (xs : List (MeantDecl Rat)) (as : List (Envelope Rat)) (bs : List (List Str)),
      List.Forall₂ (EnvelopeAt env.today p.1 es) xs as → List.Forall₂ (EnvelopePart env.today p.1 es) xs bs →
      SectionPart env.today p.1 es title xs (if as.isEmpty then [] else title :: bs.flatten) := by
    intro title xs as bs g1 g2
    cases g1 with
    | nil => exact Or.inl ⟨rfl, rfl⟩
    | cons _ _ => exact Or.inr ⟨by simp, bs, rfl, g2⟩
  have hempty : (a.expenses.isEmpty && a.goals.isEmpty) = true ↔ p.2 = [] := by
    have g : p.2 = [] ↔ ofKind .expense p.2 ++ ofKind .goal p.2 = [] := by
      constructor
      · intro h; rw [h]; rfl
      · intro h
        have := kinds_perm p.2
        rw [h] at this
        exact this.symm.eq_nil
    rw [g, List.append_eq_nil_iff]
    have e1 := h.expenses.length_eq
    have e2 := h.goals.length_eq
    rw [Bool.and_eq_true, List.isEmpty_iff_length_eq_zero, List.isEmpty_iff_length_eq_zero, ← e1, ← e2,
      List.length_eq_zero_iff, List.length_eq_zero_iff]
  unfold Account.display
  by_cases he : p.2 = []
  · rw [if_pos (hempty.2 he)]
    exact ⟨_, rfl, Or.inl ⟨he, rfl⟩⟩
  · rw [if_neg (fun h => he (hempty.1 h))]
    simp only [h1, h3, bind, Except.bind, pure, Except.pure]
    refine ⟨_, rfl, Or.inr ⟨he, _, _, _, ?_, available_part hes hp h, hsec _ _ _ _ h.expenses h2, hsec _ _ _ _ h.goals h4⟩⟩
    rw [h.name]
    simp

theorem displayAccounts_parts {env : Env} {accs : List DeclAccount} {es : List BEntry}
    (hes : SymbolsFit es) (hp : ∀ p ∈ accs, ∀ x ∈ p.2, DeclOk env x) (ht : env.today.Inner)
    (hs : ∀ p ∈ accs, ∀ x ∈ p.2, x.2.1.Safe ∧ x.2.1.Inner) {as : List (Str × Account Rat)}
    (hnd : (as.map Prod.fst).Nodup)
    (h : List.Forall₂ (fun p q => q.1 = p.1 ∧ AccountAt env.today es p q.2) accs as) (ps : List DeclAccount)
    (hps : ∀ p ∈ ps, p ∈ accs) :
    ∃ blocks, Ledger.displayAccounts env.today as (ps.map Prod.fst) = .ok blocks.flatten ∧
      List.Forall₂ (AccountPart env.today es) ps blocks := by
  induction ps with
  | nil => exact ⟨[], rfl, .nil⟩
  | cons p ps ih =>
    obtain ⟨bs, h1, h2⟩ := ih fun q hq => hps q (by simp [hq])
    have hpa := hps p (by simp)
    obtain ⟨q, hq, hq1, hq2⟩ := forall₂_mem_left h hpa
    have hget : mapGet as p.1 = some q.2 := by
      rw [← hq1]
      exact mapGet_of_mem hnd hq
    obtain ⟨ls, h3, h4⟩ := account_part hes (hp p hpa) ht (hs p hpa) hq2
    exact ⟨ls :: bs, by
      simp only [List.map_cons, Ledger.displayAccounts, hget, unwrap, h3, h1, bind, Except.bind]; rfl, .cons h4 h2⟩

theorem ok_symbols {env : Env} {accs : List Str} {es : List BEntry} (hes : ∀ b ∈ es, b.Ok env accs) : SymbolsFit es :=
  fun b hb _ _ hv => moves_symbol (hes b hb).plain hv

theorem EnvelopeLedger.at {env : Env} {accs : List DeclAccount} {es : List BEntry}
    (hes : ∀ b ∈ es, b.Ok env (accs.map Prod.fst)) (hp : ∀ p ∈ accs, ∀ x ∈ p.2, DeclOk env x) {l : Ledger Rat}
    (h : EnvelopeLedger env.today accs es l) :
    List.Forall₂ (fun p q => q.1 = p.1 ∧ AccountAt env.today es p q.2) accs l.accounts := by
  have h := h.accounts
  generalize l.accounts = as at h
  have key : ∀ {ps : List DeclAccount}, (∀ p ∈ ps, p ∈ accs) →
      List.Forall₂ (fun p q => q.1 = p.1 ∧ AccountNow env.today es p q.2) ps as →
      List.Forall₂ (fun p q => q.1 = p.1 ∧ AccountAt env.today es p q.2) ps as := by
    clear h
    intro ps hps h
    induction h with
    | nil => exact .nil
    | cons h1 _ ih => exact .cons ⟨h1.1, h1.2.at hes (hp _ (hps _ (by simp)))⟩ (ih fun y hy => hps y (by simp [hy]))
  exact key (fun _ h => h) h

/-- Accounts in the order in which their names are sorted. -/
theorem in_name_order {env : Env} (hord : FairOrder env.ord) {accs : List DeclAccount} (hnd : (accs.map Prod.fst).Nodup)
    {names : List Str} (hn : names = accs.map Prod.fst) :
    ∃ shown : List DeclAccount, stableSort strLt (env.ord names) = shown.map Prod.fst ∧ shown.Perm accs ∧
      shown.Pairwise fun a b => strLt a.1 b.1 = true := by
  have hperm : (stableSort strLt (env.ord names)).Perm (accs.map Prod.fst) := by
    rw [← hn]
    exact (stableSort_perm _ _).trans (hord _ _)
  have hkeys : List.Forall₂ (fun k (p : DeclAccount) => k = p.1) (accs.map Prod.fst) accs := by
    rw [List.forall₂_map_left_iff, List.forall₂_same]
    exact fun _ _ => rfl
  obtain ⟨shown, h1, h2⟩ := List.perm_comp_forall₂ hperm hkeys
  have h3 : stableSort strLt (env.ord names) = shown.map Prod.fst := by
    have := (List.forall₂_map_right_iff (R := Eq) (f := Prod.fst)).2 h1
    rwa [List.forall₂_eq_eq_eq] at this
  refine ⟨shown, h3, h2, ?_⟩
  have hs := stableSort_sorted strLt strLt_not_trans strLt_asymm (env.ord names)
  rw [h3] at hs
  have hnd : (shown.map Prod.fst).Nodup := (h2.map Prod.fst).nodup_iff.2 hnd
  unfold SortedBy at hs
  have := List.pairwise_map.1 (hs.and hnd)
  refine this.imp fun {x y} hxy => ?_
  cases h5 : strLt x.1 y.1 with
  | true => rfl
  | false => exact absurd (strLt_total _ _ h5 hxy.1) hxy.2

/-! ### C121 -/

/-- C121. `silverfox envelopes --no-move` on a journal that declares accounts with envelopes and has entries, as written:
the report has, in the order of the names, a part for every account with envelopes. What is available is what the lines
bring to the account without what its envelopes hold; for every envelope, what there is now is the sum of what was taken
out and of what was put in before its last due date, and what is saved for the next time is the sum of what was put in
since. What is put in or taken out is what lines that name the envelope say; an entry without such lines that concerns
the account and one the envelope is for moves the smaller of the two changes. No file changes. -/
theorem C121_from_text_to_envelopes (env : Env) (hord : FairOrder env.ord) (o : Outside) (w : World)
    (accs : List DeclAccount) (es : List BEntry) (text path : Str) (h : EnvelopeJournal env accs es text)
    (hf : EnvelopesFit env.today accs es) (hr : w.read path = some text) (hfuel : o.fuel ≠ 0) (c : Str) (args : List Str)
    (fs : List Flag) (hc : c.head? = some 'e') (ha : Spelled fs args) (hj : journalFor o fs = some path)
    (hn : Flag.noMove ∈ fs) :
    ∃ w' out, mainProgram Rat env o (c :: args) w = (w', .ok out) ∧ w'.file = w.file ∧
      ∃ (shown : List DeclAccount) (blocks : List (List Str)), shown.Perm accs ∧
        shown.Pairwise (fun a b => strLt a.1 b.1 = true) ∧
        List.Forall₂ (AccountPart env.today es) shown blocks ∧ out = blocks.flatten := by
  obtain ⟨fuel, hfu⟩ := Nat.exists_eq_succ_of_ne_zero hfuel
  obtain ⟨xs, l, _, hl, _, hload⟩ := h.loads (M := Rat) hord hf fuel w path hr
  obtain ⟨shown, h1, h2, h3⟩ := in_name_order hord h.once (names := l.accountNames) hl.names
  obtain ⟨blocks, h4, h5⟩ := displayAccounts_parts (ok_symbols h.entries) h.envelopes hf.today hf.schedule
    (by rw [hl.names]; exact h.once) (hl.at h.entries h.envelopes) shown fun p hp => h2.mem_iff.1 hp
  refine ⟨w.cdParent path, blocks.flatten, ?_, rfl, shown, blocks, h2, h3, h5, rfl⟩
  refine C79_report_printed env o c args w _ _ .envelopes fs hc ha l ?_ (.envelopes ?_) (by simp) (by simp)
  · exact ⟨path, l, _, hj, by rw [hfu]; exact hload, Or.inl ⟨hn, rfl, rfl⟩⟩
  · unfold Ledger.displayEnvelopes
    rw [h1]; exact h4

/-! ### A journal -/

def exGroceriesText : Str := s%"account bank\n  expense food due every 10th\n    amount $40\n    for shop\naccount shop\naccount pay\n\n2024/06/01 * salary\n bank $100\n pay -100 $\n envelope bank food $30.50\n2024/06/12 * shopping\n shop 12.25$\n bank\n2024/06/13 * save\n bank $5\n pay $-5\n envelope bank food $8"

def exGroceries : MeantDecl Rat :=
  (⟨s%"  ", .expense, s%" ", s%"food", .due s%"every 10th", none,
    [(s%"    ", [], .amount s%"$40" ⟨40, some s%"$"⟩), (s%"    ", [], .forAccount s%"shop")]⟩, .monthly 10, none)

def exGroceriesAccounts : List DeclAccount := [(s%"bank", [exGroceries]), (s%"shop", []), (s%"pay", [])]

def exSalaryIn : BEntry where
  date := s%"2024/06/01"
  mark := s%"*"
  title := s%"salary"
  day := ⟨2024, 6, 1, by decide⟩
  lines := [.posting ⟨s%" ", s%"bank", s%" ", s%"$100", some (100, some s%"$")⟩,
    .posting ⟨s%" ", s%"pay", s%" ", s%"-100 $", some (-100, some s%"$")⟩,
    .move ⟨s%" ", s%" ", s%"bank", s%" ", s%"food", s%" ", s%"$30.50", (61 / 2, some s%"$")⟩]

def exShopping : BEntry where
  date := s%"2024/06/12"
  mark := s%"*"
  title := s%"shopping"
  day := ⟨2024, 6, 12, by decide⟩
  lines := [.posting ⟨s%" ", s%"shop", s%" ", s%"12.25$", some (49 / 4, some s%"$")⟩,
    .posting ⟨s%" ", s%"bank", [], [], none⟩]

def exSaving : BEntry where
  date := s%"2024/06/13"
  mark := s%"*"
  title := s%"save"
  day := ⟨2024, 6, 13, by decide⟩
  lines := [.posting ⟨s%" ", s%"bank", s%" ", s%"$5", some (5, some s%"$")⟩,
    .posting ⟨s%" ", s%"pay", s%" ", s%"$-5", some (-5, some s%"$")⟩,
    .move ⟨s%" ", s%" ", s%"bank", s%" ", s%"food", s%" ", s%"$8", (8, some s%"$")⟩]

theorem exGroceries_ok : DeclOk (stdEnv june15) exGroceries := by
  have hd : ValidSymbol '.' s%"$" := by decide
  refine ⟨⟨by decide, by decide, ⟨by decide, by decide, by decide, by decide, by decide⟩, ?_, .none, ?_⟩,
    ⟨by decide, by decide⟩, ?_⟩
  · exact .due _ _ (.monthly s%"10th" 10 ⟨by decide, s%"th", by decide, by decide, by decide⟩) (by decide)
  · intro p hp
    simp only [exGroceries, List.mem_cons, List.not_mem_nil, or_false] at hp
    rcases hp with rfl | rfl
    · exact ⟨by decide, by decide, by decide, by decide, by decide, by decide, ⟨_, _, rfl, by decide⟩,
        ⟨s%"$4", '0', rfl, by decide⟩, by
          show Amount.parse s%"$40" '.' = .ok (⟨40, some s%"$"⟩ : Amount Rat); decide +kernel⟩
    · exact ⟨by decide, by decide, by decide, by decide, by decide, by decide, ⟨_, _, rfl, by decide⟩,
        ⟨s%"sho", 'p', rfl, by decide⟩, by show isWord s%"shop"; decide⟩
  · intro p hp t a h
    simp only [exGroceries, List.mem_cons, List.not_mem_nil, or_false] at hp
    rcases hp with rfl | rfl
    · cases h
      exact ⟨s%"40", false, 40, 0, ⟨s%"40", [], by decide, by decide, by decide, by decide, by decide, by decide⟩,
        by norm_num, Or.inr ⟨_, rfl, hd, by decide⟩⟩
    · cases h

/-- It is written well. -/
theorem exGroceriesText_ok : EnvelopeJournal (stdEnv june15) exGroceriesAccounts [exSalaryIn, exShopping, exSaving] exGroceriesText := by
  have hd : ValidSymbol '.' s%"$" := by decide
  have a1 : WrittenAmount s%"$100" 100 (some s%"$") :=
    ⟨s%"100", false, 100, 0, ⟨s%"100", [], by decide, by decide, by decide, by decide, by decide, by decide⟩,
      by norm_num, Or.inr ⟨_, rfl, hd, by decide⟩⟩
  have a2 : WrittenAmount s%"-100 $" (-100) (some s%"$") :=
    ⟨s%"-100", true, 100, 0, ⟨s%"100", [], by decide, by decide, by decide, by decide, by decide, by decide⟩,
      by norm_num, Or.inr ⟨_, rfl, hd, by decide⟩⟩
  have a3 : WrittenAmount s%"12.25$" (49 / 4) (some s%"$") :=
    ⟨s%"12.25", false, 1225, 2, ⟨s%"12", s%"25", by decide, by decide, by decide, by decide, by decide, by decide⟩,
      by norm_num, Or.inr ⟨_, rfl, hd, by decide⟩⟩
  have a4 : WrittenAmount s%"$5" 5 (some s%"$") :=
    ⟨s%"5", false, 5, 0, ⟨s%"5", [], by decide, by decide, by decide, by decide, by decide, by decide⟩,
      by norm_num, Or.inr ⟨_, rfl, hd, by decide⟩⟩
  have a5 : WrittenAmount s%"$-5" (-5) (some s%"$") :=
    ⟨s%"-5", true, 5, 0, ⟨s%"5", [], by decide, by decide, by decide, by decide, by decide, by decide⟩,
      by norm_num, Or.inr ⟨_, rfl, hd, by decide⟩⟩
  have a6 : WrittenAmount s%"$30.50" (61 / 2) (some s%"$") :=
    ⟨s%"30.50", false, 3050, 2, ⟨s%"30", s%"50", by decide, by decide, by decide, by decide, by decide, by decide⟩,
      by norm_num, Or.inr ⟨_, rfl, hd, by decide⟩⟩
  have a7 : WrittenAmount s%"$8" 8 (some s%"$") :=
    ⟨s%"8", false, 8, 0, ⟨s%"8", [], by decide, by decide, by decide, by decide, by decide, by decide⟩,
      by norm_num, Or.inr ⟨_, rfl, hd, by decide⟩⟩
  refine ⟨.of (by decide +kernel), by decide, by decide, ?_, ?_, ?_⟩
  · intro p hp x hx
    simp only [exGroceriesAccounts, List.mem_cons, List.not_mem_nil, or_false] at hp
    rcases hp with rfl | rfl | rfl
    · simp only [List.mem_cons, List.not_mem_nil, or_false] at hx
      rw [hx]; exact exGroceries_ok
    · cases hx
    · cases hx
  · intro p hp k
    simp only [exGroceriesAccounts, List.mem_cons, List.not_mem_nil, or_false] at hp
    rcases hp with rfl | rfl | rfl <;> cases k <;> decide
  intro e he
  simp only [List.mem_cons, List.not_mem_nil, or_false] at he
  rcases he with rfl | rfl | rfl
  · refine ⟨⟨by decide +kernel, by decide, by decide, by decide +kernel, ?_, by decide, ?_⟩, ?_, ?_⟩
    · intro l hl
      simp only [exSalaryIn, BEntry.plain, List.filterMap_cons, List.filterMap_nil, List.mem_cons, List.not_mem_nil,
        or_false] at hl
      rcases hl with rfl | rfl
      · refine ⟨by decide, by decide, by decide, by decide, by decide, by decide +kernel, by simp, ?_⟩
        intro q s h; cases h; exact ⟨by decide, by decide +kernel, a1⟩
      · refine ⟨by decide, by decide, by decide, by decide, by decide, by decide +kernel, by simp, ?_⟩
        intro q s h; cases h; exact ⟨by decide, by decide +kernel, a2⟩
    · rintro ⟨l, hl, hv⟩
      simp only [exSalaryIn, BEntry.plain, List.filterMap_cons, List.filterMap_nil, List.mem_cons, List.not_mem_nil,
        or_false] at hl
      rcases hl with rfl | rfl <;> cases hv
    · intro m hm
      simp only [exSalaryIn, BEntry.moves, List.filterMap_cons, List.filterMap_nil, List.mem_cons, List.not_mem_nil,
        or_false] at hm
      subst hm
      exact ⟨by decide, by decide, by decide, by decide, by decide, by decide, a6⟩
    · intro _; decide
  · refine ⟨⟨by decide +kernel, by decide, by decide, by decide +kernel, ?_, by decide, ?_⟩, ?_, ?_⟩
    · intro l hl
      simp only [exShopping, BEntry.plain, List.filterMap_cons, List.filterMap_nil, List.mem_cons, List.not_mem_nil,
        or_false] at hl
      rcases hl with rfl | rfl
      · refine ⟨by decide, by decide, by decide, by decide, by decide, by decide +kernel, by simp, ?_⟩
        intro q s h; cases h; exact ⟨by decide, by decide +kernel, a3⟩
      · refine ⟨by decide, by decide, by decide, by decide, by decide, by decide +kernel, by simp, ?_⟩
        intro q s h; cases h
    · intro _
      exact ⟨by decide, some s%"$", by decide⟩
    · intro m hm
      simp [exShopping, BEntry.moves] at hm
    · intro h
      exact absurd rfl h
  · refine ⟨⟨by decide +kernel, by decide, by decide, by decide +kernel, ?_, by decide, ?_⟩, ?_, ?_⟩
    · intro l hl
      simp only [exSaving, BEntry.plain, List.filterMap_cons, List.filterMap_nil, List.mem_cons, List.not_mem_nil,
        or_false] at hl
      rcases hl with rfl | rfl
      · refine ⟨by decide, by decide, by decide, by decide, by decide, by decide +kernel, by simp, ?_⟩
        intro q s h; cases h; exact ⟨by decide, by decide +kernel, a4⟩
      · refine ⟨by decide, by decide, by decide, by decide, by decide, by decide +kernel, by simp, ?_⟩
        intro q s h; cases h; exact ⟨by decide, by decide +kernel, a5⟩
    · rintro ⟨l, hl, hv⟩
      simp only [exSaving, BEntry.plain, List.filterMap_cons, List.filterMap_nil, List.mem_cons, List.not_mem_nil,
        or_false] at hl
      rcases hl with rfl | rfl <;> cases hv
    · intro m hm
      simp only [exSaving, BEntry.moves, List.filterMap_cons, List.filterMap_nil, List.mem_cons, List.not_mem_nil,
        or_false] at hm
      subst hm
      exact ⟨by decide, by decide, by decide, by decide, by decide, by decide, a7⟩
    · intro _; decide

theorem exGroceries_fits : EnvelopesFit june15 exGroceriesAccounts [exSalaryIn, exShopping, exSaving] := by
  refine ⟨june15_inner, ?_, by decide +kernel, ?_⟩
  · intro p hp x hx
    simp only [exGroceriesAccounts, List.mem_cons, List.not_mem_nil, or_false] at hp
    rcases hp with rfl | rfl | rfl
    · simp only [List.mem_cons, List.not_mem_nil, or_false] at hx
      rw [hx]
      exact ⟨by show 1 ≤ 10 ∧ 10 ≤ 28; decide, trivial⟩
    · cases hx
    · cases hx
  · decide +kernel

/-- $ 30.50 were put in before the last due date and $ 12.25 were spent; $ 8 were put in since. -/
example : (Frequency.monthly 10).lastDue june15 = .ok (some ⟨2024, 6, 10, by decide⟩) ∧
    nowOf (some ⟨2024, 6, 10, by decide⟩) s%"bank" exGroceries [exSalaryIn, exShopping, exSaving] = 73 / 4 ∧
    nextOf (some ⟨2024, 6, 10, by decide⟩) s%"bank" exGroceries [exSalaryIn, exShopping, exSaving] = 8 ∧
    availableOf (s%"bank", [exGroceries]) (some s%"$") [exSalaryIn, exShopping, exSaving] = 133 / 2 := by decide +kernel

/-- What is printed. -/
example : (disk [("j", String.ofList exGroceriesText)]).read s%"j" = some exGroceriesText ∧
    ∃ out, (mainProgram Rat (stdEnv june15) exOutside [s%"envelopes", s%"-f", s%"j", s%"-n"]
      (disk [("j", String.ofList exGroceriesText)])).2 = .ok out ∧
      out = [s%"bank", s%"  available", s%"    $ 66.5", s%"  expenses", s%"    food",
        s%"      now                                  $ 18.25 / $ 40 |══════════════════                      |",
        s%"      next (on 2024-07-10)                     $ 8 / $ 40 |════════                                |", []] := by
  decide +kernel

end Silverfox
