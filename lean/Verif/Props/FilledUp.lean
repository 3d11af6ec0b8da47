import Verif.Props.DaysDoubles

/-
C136: an envelope for which there is enough money is full to the last digit, with doubles.
-/

namespace Silverfox

set_option linter.unusedSectionVars false

/-! ### Specification -/

/-- Specification: what is missing in an envelope. -/
def missing (today : Date) (k : Str) (es : List BEntry) (x : MeantDecl Rat) : Rat :=
  x.target.mag - nextOf (lastOf today x) k x es

/-- Specification: the envelope wants all that is missing today: it is filled at once, or bit by bit and due today or
tomorrow. -/
def WantsAll (today : Date) (k : Str) (es : List BEntry) (x : MeantDecl Rat) : Prop :=
  (x.way = .aggressive ∧ 0 ≤ nextOf (lastOf today x) k x es) ∨
    x.way = .conservative ∧ ∃ due, IsDue today x (some due) ∧ (due = today ∨ due.daysSince today = 1)

/-- Specification: what an envelope asks for today is covered. -/
def Covers (today : Date) (k : Str) (es : List BEntry) (x : MeantDecl Rat) (v : Rat) : Prop :=
  0 ≤ v ∧ (¬ Rests today k es x → ∀ due, IsDue today x (some due) →
    wishBy today due x (nextOf (lastOf today x) k x es) ≤ v)

/-- Specification: the envelope can be filled up today: it does not rest and wants all that is missing; its last due date
is not yet to come; no envelope of this currency in the account is in debt, and there is enough for what they ask for
today; the envelopes of the account have different names. -/
structure CanFill (today : Date) (p : DeclAccount) (es : List BEntry) (x : MeantDecl Rat) : Prop where
  active : ¬ Rests today p.1 es x
  wants : WantsAll today p.1 es x
  room : 0 ≤ missing today p.1 es x
  past : ∀ d, lastOf today x = some d → Date.lt today d = false
  names : (p.2.map (·.1.name)).Nodup
  paid : ∀ y ∈ p.2, y.target.sym = x.target.sym → 0 ≤ heldOf p.1 y es
  enough : ∃ v : MeantDecl Rat → Rat, (∀ y ∈ p.2, y.target.sym = x.target.sym → Covers today p.1 es y (v y)) ∧
    ((p.2.filter fun y => y.target.sym = x.target.sym).map v).sum ≤ availableOf p x.target.sym es

/-- Specification: the report with doubles (see C123). -/
def EnvelopeReportF (today : Date) (accs : List DeclAccount) (es : List BEntry) (out : List Str) : Prop :=
  ∃ (shown : List DeclAccount) (blocks : List (List Str)), shown.Perm accs ∧
    shown.Pairwise (fun a b => strLt a.1 b.1 = true) ∧ List.Forall₂ (AccountPartF today es) shown blocks ∧
    out = blocks.flatten

/-! ### One envelope -/

theorem FillBy.last {today : Date} {k : Str} {es : List BEntry} {x : MeantDecl Rat} {L f : Rat}
    (h : FillBy today k es x L f) (hr : ¬ Rests today k es x) :
    ∃ due, IsDue today x (some due) ∧
      f = max (min (wishBy today due x (nextOf (lastOf today x) k x es)) L) (max (-heldOf k x es) 0) := by
  obtain ⟨last, due, h1, h2, h3⟩ := h.2 hr
  have : lastOf today x = last := by unfold lastOf; rw [h1]
  rw [this]
  exact ⟨due, h2, h3⟩

theorem FillBy.le {today : Date} {k : Str} {es : List BEntry} {x : MeantDecl Rat} {L f v : Rat}
    (h : FillBy today k es x L f) (hp : 0 ≤ heldOf k x es) (hv : Covers today k es x v) : f ≤ v := by
  by_cases hr : Rests today k es x
  · rw [h.1 hr]; exact hv.1
  · obtain ⟨due, h2, h3⟩ := h.last hr
    rw [h3]
    exact max_le (le_trans (min_le_left _ _) (hv.2 hr due h2)) (max_le (by linarith [hv.1]) hv.1)

theorem WantsAll.wish {today : Date} {k : Str} {es : List BEntry} {x : MeantDecl Rat} (hw : WantsAll today k es x)
    {due : Date} (h2 : IsDue today x (some due)) :
    wishBy today due x (nextOf (lastOf today x) k x es) = missing today k es x := by
  rcases hw with ⟨w1, w2⟩ | ⟨w1, d, w2, w3⟩
  · unfold wishBy wishOf missing
    rw [w1]
    simp only [reduceCtorEq, false_and, if_false]
    exact min_eq_right (by linarith)
  · cases h2.unique w2
    unfold wishBy
    split
    · rfl
    · rename_i hne
      unfold wishOf
      rw [w1]
      rcases w3 with w3 | w3
      · exact absurd ⟨w1, w3⟩ hne
      · simp only [w3]
        show min (missing today k es x / ((1 : Int) : Rat)) (missing today k es x) = _
        simp

theorem FillBy.all {today : Date} {k : Str} {es : List BEntry} {x : MeantDecl Rat} {L f : Rat}
    (h : FillBy today k es x L f) (hr : ¬ Rests today k es x) (hw : WantsAll today k es x)
    (hm : 0 ≤ missing today k es x) (hp : 0 ≤ heldOf k x es) (hL : missing today k es x ≤ L) :
    f = missing today k es x := by
  obtain ⟨due, h2, h3⟩ := h.last hr
  rw [h3, hw.wish h2, min_eq_left hL]
  exact max_eq_left (max_le (by linarith) hm)

/-! ### The envelopes of an account -/

theorem forall₂_split_left {α β : Type} {r : α → β → Prop} {a b : List α} {l : List β} (h : List.Forall₂ r (a ++ b) l) :
    ∃ l1 l2, List.Forall₂ r a l1 ∧ List.Forall₂ r b l2 ∧ l = l1 ++ l2 := by
  induction a generalizing l with
  | nil => exact ⟨[], l, .nil, h, rfl⟩
  | cons x a ih =>
    cases h with
    | cons h1 h2 =>
      obtain ⟨l1, l2, g1, g2, rfl⟩ := ih h2
      exact ⟨_ :: l1, l2, .cons h1 g1, g2, rfl⟩

theorem fills_at {today : Date} {k : Str} {es : List BEntry} {x : MeantDecl Rat} {l1 l2 : List (MeantDecl Rat)}
    {left : Option Str → Rat} {fs : List Rat} (h : FillsBy today k es (l1 ++ x :: l2) left fs)
    (hp : ∀ y ∈ l1, y.target.sym = x.target.sym → 0 ≤ heldOf k y es)
    {v : MeantDecl Rat → Rat} (hv : ∀ y ∈ l1, y.target.sym = x.target.sym → Covers today k es y (v y))
    (he : (((l1 ++ [x]).filter fun y => y.target.sym = x.target.sym).map v).sum ≤ left x.target.sym) :
    ∃ f1 f f2, fs = f1 ++ f :: f2 ∧ f1.length = l1.length ∧ ∃ L, FillBy today k es x L f ∧ v x ≤ L := by
  induction l1 generalizing left fs with
  | nil =>
    cases h with
    | @cons _ _ _ f fs h1 h2 =>
      refine ⟨[], f, fs, rfl, rfl, _, h1, ?_⟩
      simp only [List.nil_append, decide_true, List.filter_cons_of_pos, List.filter_nil, List.map_cons, List.map_nil,
        List.sum_cons, List.sum_nil, add_zero] at he
      exact he
  | cons y l1 ih =>
    cases h with
    | @cons _ _ _ f fs h1 h2 =>
      obtain ⟨f1, g, f2, e1, e2, e3⟩ := ih h2 (fun z hz => hp z (by simp [hz])) (fun z hz => hv z (by simp [hz])) (by
        by_cases hy : y.target.sym = x.target.sym
        · rw [if_pos hy]
          rw [List.cons_append, List.filter_cons_of_pos (by simpa using hy), List.map_cons, List.sum_cons] at he
          have := h1.le (hp y (by simp) hy) (hv y (by simp) hy)
          linarith
        · rw [if_neg hy, sub_zero]
          rw [List.cons_append, List.filter_cons_of_neg (by simpa using hy)] at he
          exact he)
      exact ⟨f :: f1, g, f2, by rw [e1]; rfl, by simp [e2], e3⟩

theorem FillLine.named {today : Date} {k : Str} {es : List BEntry} {xf : MeantDecl Rat × Rat} {m : MLine}
    (h : FillLine today k es xf (some m)) : m.account = k ∧ m.envelope = xf.1.1.name := by
  obtain ⟨_, t, u, r, rfl, _⟩ := h
  exact ⟨rfl, rfl⟩

theorem lines_named {today : Date} {k : Str} {es : List BEntry} {xfs : List (MeantDecl Rat × Rat)} {os : List (Option MLine)}
    (h : List.Forall₂ (FillLine today k es) xfs os) {m : MLine} (hm : m ∈ os.filterMap id) :
    m.account = k ∧ ∃ xf ∈ xfs, m.envelope = xf.1.1.name := by
  obtain ⟨o, ho, he⟩ := List.mem_filterMap.1 hm
  obtain ⟨xf, hx, hl⟩ := forall₂_mem_right h ho
  have he : o = some m := he
  subst he
  exact ⟨hl.named.1, xf, hx, hl.named.2⟩

/-- The lines of the account for an envelope that can be filled up. -/
theorem account_line {today : Date} {es : List BEntry} {p : DeclAccount} {ms : List MLine}
    (h : AccountFillsF today es p ms) {x : MeantDecl Rat} (hx : x ∈ p.2) (hc : CanFill today p es x)
    (hd : ∃ i : Int, missing today p.1 es x = i / 100000000) :
    (ms.filter fun m => decide (m.account = p.1 ∧ m.envelope = x.1.name)) = [] ∧ missing today p.1 es x = 0 ∨
    ∃ m, (ms.filter fun m => decide (m.account = p.1 ∧ m.envelope = x.1.name)) = [m] ∧
      m.value.1 = missing today p.1 es x := by
  obtain ⟨fs, os, h1, h2, rfl⟩ := h
  have hperm := serving_perm p.2
  obtain ⟨l1, l2, hl⟩ := List.append_of_mem (hperm.mem_iff.2 hx)
  have hnames : ((l1 ++ x :: l2).map (·.1.name)).Nodup := by
    rw [← hl]
    exact (hperm.map _).nodup_iff.2 hc.names
  rw [hl] at h1 h2
  have hmem : ∀ y ∈ l1, y ∈ p.2 := fun y hy => hperm.mem_iff.1 (by rw [hl]; simp [hy])
  obtain ⟨v, hv, hle⟩ := hc.enough
  have hsum : (((l1 ++ [x]).filter fun y => y.target.sym = x.target.sym).map v).sum ≤ availableOf p x.target.sym es := by
    refine le_trans ?_ hle
    rw [← ((hperm.filter _).map _).sum_eq, hl]
    refine List.Sublist.sum_le_sum (List.Sublist.map _ (List.Sublist.filter _ ?_)) ?_
    · rw [show l1 ++ x :: l2 = (l1 ++ [x]) ++ l2 by simp]
      exact List.sublist_append_left _ _
    · intro a ha
      obtain ⟨y, hy, rfl⟩ := List.mem_map.1 ha
      rw [← hl] at hy
      obtain ⟨hy, hs⟩ := List.mem_filter.1 hy
      exact (hv y (hperm.mem_iff.1 hy) (of_decide_eq_true hs)).1
  obtain ⟨f1, f, f2, e1, e2, L, e3, e4⟩ := fills_at h1 (fun y hy => hc.paid y (hmem y hy)) (fun y hy => hv y (hmem y hy)) hsum
  replace e4 : missing today p.1 es x ≤ L := by
    obtain ⟨due, h2, _⟩ := e3.last hc.active
    rw [← hc.wants.wish h2]
    exact le_trans ((hv x hx rfl).2 hc.active due h2) e4
  have hf := e3.all hc.active hc.wants hc.room (hc.paid x hx rfl) e4
  subst e1
  rw [List.zip_append e2.symm] at h2
  obtain ⟨o1, o2, g1, g2, rfl⟩ := forall₂_split_left h2
  obtain ⟨o, o3, g3, g4, rfl⟩ := List.forall₂_cons_left_iff.1 g2
  rw [List.map_append, List.map_cons, List.nodup_append] at hnames
  obtain ⟨_, n2, n3⟩ := hnames
  rw [List.nodup_cons] at n2
  have hz : ∀ {xfs : List (MeantDecl Rat × Rat)} {os : List (Option MLine)}, List.Forall₂ (FillLine today p.1 es) xfs os →
      (∀ xf ∈ xfs, xf.1.1.name ≠ x.1.name) →
      (os.filterMap id).filter (fun m => decide (m.account = p.1 ∧ m.envelope = x.1.name)) = [] := by
    intro xfs os h hne
    rw [List.filter_eq_nil_iff]
    intro m hm hd
    obtain ⟨_, xf, hx, he⟩ := lines_named h hm
    exact hne xf hx (by rw [← he]; exact (of_decide_eq_true hd).2)
  have z1 := hz g1 fun xf hxf hn => n3 _ (List.mem_map.2 ⟨xf.1, (List.of_mem_zip hxf).1, rfl⟩) _ (by simp) hn
  have z2 := hz g4 fun xf hxf hn => n2.1 (List.mem_map.2 ⟨xf.1, (List.of_mem_zip hxf).1, hn⟩)
  rw [List.filterMap_append, List.filter_append, z1, List.nil_append]
  cases o with
  | none =>
    left
    rw [List.filterMap_cons_none rfl]
    exact ⟨z2, by rw [← hf]; exact (FillLine.exact g3 (by rw [hf]; exact hd)).1 rfl⟩
  | some m =>
    right
    obtain ⟨t, u, q1, _⟩ := (FillLine.exact g3 (by rw [hf]; exact hd)).2 m rfl
    refine ⟨m, ?_, by rw [q1, ← hf]; rfl⟩
    rw [List.filterMap_cons_some (f := id) (show id (some m) = some m from rfl), List.filter_cons_of_pos, z2]
    exact decide_eq_true g3.named

/-! ### The entries afterwards -/

theorem accounts_line {today : Date} {es : List BEntry} {served : List DeclAccount} {mss : List (List MLine)}
    (h : List.Forall₂ (AccountFillsF today es) served mss) (hn : (served.map Prod.fst).Nodup) {p : DeclAccount}
    (hp : p ∈ served) (name : Str) :
    ∃ ms, AccountFillsF today es p ms ∧ mss.flatten.filter (fun m => decide (m.account = p.1 ∧ m.envelope = name)) =
      ms.filter fun m => decide (m.account = p.1 ∧ m.envelope = name) := by
  have hother : ∀ {q : DeclAccount} {ms : List MLine}, AccountFillsF today es q ms → q.1 ≠ p.1 →
      ms.filter (fun m => decide (m.account = p.1 ∧ m.envelope = name)) = [] := by
    rintro q ms ⟨fs, os, _, h2, rfl⟩ hne
    rw [List.filter_eq_nil_iff]
    intro m hm hd
    exact hne ((lines_named h2 hm).1.symm.trans (of_decide_eq_true hd).1)
  induction h with
  | nil => cases hp
  | @cons q ms qs mss h1 h2 ih =>
    rw [List.map_cons, List.nodup_cons] at hn
    rw [List.flatten_cons, List.filter_append]
    rcases List.mem_cons.1 hp with rfl | hp
    · refine ⟨ms, h1, ?_⟩
      have : mss.flatten.filter (fun m => decide (m.account = p.1 ∧ m.envelope = name)) = [] := by
        rw [List.filter_eq_nil_iff]
        intro m hm hd
        obtain ⟨ms', hms, hm⟩ := List.mem_flatten.1 hm
        obtain ⟨q, hq, hf⟩ := forall₂_mem_right h2 hms
        have : q.1 ≠ p.1 := fun e => hn.1 (by rw [← e]; exact List.mem_map_of_mem hq)
        have := hother hf this
        rw [List.filter_eq_nil_iff] at this
        exact this m hm hd
      rw [this, List.append_nil]
    · obtain ⟨ms', g1, g2⟩ := ih hn.2 hp
      refine ⟨ms', g1, ?_⟩
      rw [hother h1 fun e => hn.1 (by rw [e]; exact List.mem_map_of_mem hp), g2]
      rfl

theorem reads_same_named {ms ms' : List MLine} (h : List.Forall₂ ReadsSame ms ms') (k name : Str) :
    (ms'.filter fun m => decide (m.account = k ∧ m.envelope = name)).map (fun m => m.value.1) =
      (ms.filter fun m => decide (m.account = k ∧ m.envelope = name)).map fun m => m.value.1 := by
  induction h with
  | nil => rfl
  | @cons m m' ms ms' h1 _ ih =>
    by_cases hd : m.account = k ∧ m.envelope = name
    · rw [List.filter_cons_of_pos (by rw [h1.1.account, h1.1.envelope]; exact decide_eq_true hd),
        List.filter_cons_of_pos (by exact decide_eq_true hd), List.map_cons, List.map_cons, ih, h1.2]
    · rw [List.filter_cons_of_neg (by rw [h1.1.account, h1.1.envelope]; simpa using hd),
        List.filter_cons_of_neg (by simpa using hd), ih]

theorem nextOf_after (last : Option Date) (k : Str) (x : MeantDecl Rat) (es : List BEntry) (b : BEntry) :
    nextOf last k x (es ++ [b]) = nextOf last k x es +
      ((b.movesIn k x).map fun v => if ForNow last b.day v then 0 else v).sum := by
  unfold nextOf
  rw [List.flatMap_append, List.sum_append, List.flatMap_singleton]

/-- An envelope that can be filled up is full afterwards. -/
theorem filled_up {accs : List DeclAccount} (honce : (accs.map Prod.fst).Nodup) {m : Morning} {es after : List BEntry}
    {text : Str} (h : FilledOnF accs m es after text) {p : DeclAccount} (hp : p ∈ accs) {x : MeantDecl Rat} (hx : x ∈ p.2)
    (hc : CanFill m.today p es x) (hd : ∃ i : Int, missing m.today p.1 es x = i / 100000000) :
    nextOf (lastOf m.today x) p.1 x after = x.target.mag := by
  obtain ⟨served, mss, h1, h2, h3⟩ := h
  obtain ⟨ms, g1, g2⟩ := accounts_line h2 ((h1.map _).nodup_iff.2 honce) (h1.mem_iff.2 hp) x.1.name
  have hfull : missing m.today p.1 es x = 0 → nextOf (lastOf m.today x) p.1 x es = x.target.mag := by
    intro h; unfold missing at h; linarith
  rcases h3 with ⟨e1, rfl, _⟩ | ⟨_, _, ms', e3, rfl⟩
  · rcases account_line g1 hx hc hd with ⟨_, h0⟩ | ⟨y, hy, _⟩
    · exact hfull h0
    · rw [← g2, e1] at hy; cases hy
  · have hne : ms' ≠ [] := by
      rintro rfl
      rename_i hne _
      cases hx : mss.flatten with
      | nil => exact hne hx
      | cons y ys => rw [hx] at e3; cases e3
    obtain ⟨r1, _⟩ := refill_moves m.today m.day ms'
    have hin : (refill m.today m.day ms').movesIn p.1 x =
        (ms.filter fun m => decide (m.account = p.1 ∧ m.envelope = x.1.name)).map fun m => m.value.1 := by
      unfold BEntry.movesIn
      rw [r1, if_pos hne, reads_same_named e3, g2]
    rw [nextOf_after, hin]
    rcases account_line g1 hx hc hd with ⟨hl, h0⟩ | ⟨y, hl, hv⟩
    · rw [hl, hfull h0]; simp
    · rw [hl, List.map_singleton, List.map_singleton, List.sum_singleton, hv, if_neg]
      · unfold missing; ring
      · rintro (h | ⟨d, h, h'⟩)
        · exact absurd hc.room (not_le.2 h)
        · rw [show (refill m.today m.day ms').day = m.today from rfl, hc.past d h] at h'
          cases h'

theorem missing_whole {env : Env} {accs : List DeclAccount} {es : List BEntry} (hes : ∀ b ∈ es, b.Ok env (accs.map Prod.fst))
    (hs : SmallBooks accs es) (hd : Decided accs es) {p : DeclAccount} (hp : p ∈ accs) {x : MeantDecl Rat} (hx : x ∈ p.2)
    (today : Date) : ∃ i : Int, missing today p.1 es x = i / 100000000 := by
  obtain ⟨G, g1, _⟩ := hs.goals p hp x hx
  obtain ⟨N, E, W, _, h2, _⟩ := held_near (lastOf today x) p.1 x es (entries_near hes hs hd hp hx) (by
    have := heldWeight_nonneg p.1 x es
    have := small_held hs hp hx
    linarith)
  refine ⟨G - E, ?_⟩
  unfold missing
  push_cast
  rw [← g1, ← h2]
  ring

/-- What has been written, read again. -/
theorem fill_reread {env : Env} {accs : List DeclAccount} {es : List BEntry} {text : Str} (h : EnvelopeJournal env accs es text)
    {m : Morning} (hm : m.Ok env accs) (hf : EnvelopesFit m.today accs es) {served : List DeclAccount} {mss : List (List MLine)}
    (hs : served.Perm accs) (hfill : List.Forall₂ (AccountFillsF m.today es) served mss)
    (hcur : ∀ p ∈ accs, ∀ x ∈ p.2, ∀ y ∈ p.2, x.1.name = y.1.name → x.target.sym = y.target.sym) :
    ∃ after filled, FilledOnF accs m es after filled ∧ (mss.flatten = [] → filled = []) ∧
      (mss.flatten ≠ [] → filled = (fillOf m.today m.day mss.flatten).addition) ∧
      EnvelopeJournal env accs after (text ++ filled) ∧ EnvelopesFit m.today accs after ∧
      (BothSides accs es → BothSides accs after) := by
  by_cases hem : mss.flatten = []
  · exact ⟨es, [], ⟨served, mss, hs, hfill, Or.inl ⟨hem, rfl, rfl⟩⟩, fun _ => rfl, fun g => absurd hem g,
      by rw [List.append_nil]; exact h, hf, id⟩
  · obtain ⟨ms', r1, r2⟩ := same_lines (env := env) hfill (fun p hp => h.names p (hs.mem_iff.1 hp))
      fun p hp => h.envelopes p (hs.mem_iff.1 hp)
    have hne : ms' ≠ [] := by
      rintro rfl
      cases hx : mss.flatten with
      | nil => exact hem hx
      | cons y ys => rw [hx] at r1; cases r1
    obtain ⟨t, t1, t2⟩ := addition_lines hm (r1.imp fun _ _ g => g.1)
    have hok : ∀ x ∈ ms', x.Ok := by
      intro x hx
      obtain ⟨y, _, hy⟩ := forall₂_mem_right r1 hx
      exact hy.1.ok
    refine ⟨es ++ [refill m.today m.day ms'], (fillOf m.today m.day mss.flatten).addition,
      ⟨served, mss, hs, hfill, Or.inr ⟨hem, rfl, ⟨ms', r1, rfl⟩⟩⟩, fun g => absurd g hem, fun _ => rfl, ?_, ?_, ?_⟩
    · rw [t1]
      exact h.append t2 fun b hb => by
        rw [List.mem_singleton] at hb
        subst hb
        exact refill_ok hm hok
    · exact hf.append (refill_fits h.once ⟨hf.today, hf.schedule, hm.fits.named, hm.fits.spent⟩ hne (fun y hy => by
        obtain ⟨p, hp, x, hx, q⟩ := r2 y hy
        exact ⟨p, hs.mem_iff.1 hp, x, hx, q⟩) hcur)
    · intro hb p hp x hx b hbm h0
      rcases List.mem_append.1 hbm with hbm | hbm
      · exact hb p hp x hx b hbm h0
      · rw [List.mem_singleton] at hbm
        subst hbm
        rw [(refill_moves m.today m.day ms').1] at h0
        exact absurd h0 hne

/-! ### C136 -/

/-- C136. With doubles, as the program has them: `silverfox envelopes` is run on a journal as in C134, and then
`silverfox envelopes --no-move` on the same day. The first run adds what C134 says. An envelope that can be filled up today
(see `CanFill`) is then full to the last digit: what is written in the journal is saved for it is exactly its amount. If the
journal is still small enough, the second run changes nothing and shows exactly what is written, what the first run has
added included. -/
theorem C136_filled_to_the_last_digit (env : Env) (hord : FairOrder env.ord) (o : Outside) (w : World)
    (accs : List DeclAccount) (es : List BEntry) (text path day : Str) (h : EnvelopeJournal env accs es text)
    (hf : EnvelopesFit env.today accs es) (hr : w.read path = some text) (hfuel : o.fuel ≠ 0) (c : Str) (args : List Str)
    (fs : List Flag) (hc : c.head? = some 'e') (ha : Spelled fs args) (hj : journalFor o fs = some path)
    (hn : Flag.noMove ∉ fs) (hp : path.head? = some '/' ∨ '/' ∉ path)
    (hw : w.canAppend (resolve w.cwd path) = true)
    (hday : env.fmtDate env.today s%"%Y/%m/%d" = some day ∧ env.parseDate day s%"%Y/%m/%d" = some env.today)
    (hplain : isWord day ∧ NoComment day ∧ day ∉ keywords) (h0 : env.today ≠ Date.zero)
    (hcur : ∀ p ∈ accs, ∀ x ∈ p.2, ∀ y ∈ p.2, x.1.name = y.1.name → x.target.sym = y.target.sym)
    (hsmall : SmallJournal accs es) :
    ∃ (w' : World) (out : List Str) (after : List BEntry) (filled : Str),
      mainProgram F64 env o (c :: args) w = (w', .ok out) ∧ FilledOnF accs ⟨env.today, day, [], []⟩ es after filled ∧
      w'.file (resolve w.cwd path) = some (text ++ filled) ∧ (∀ f, f ≠ resolve w.cwd path → w'.file f = w.file f) ∧
      (∀ p ∈ accs, ∀ x ∈ p.2, CanFill env.today p es x → nextOf (lastOf env.today x) p.1 x after = x.target.mag) ∧
      (SmallBooks accs after → ∀ (c2 : Str) (args2 : List Str) (fs2 : List Flag), c2.head? = some 'e' → Spelled fs2 args2 →
        journalFor o fs2 = some path → Flag.noMove ∈ fs2 →
        ∃ w2 out2, mainProgram F64 env o (c2 :: args2) { w' with cwd := w.cwd } = (w2, .ok out2) ∧ w2.file = w'.file ∧
          EnvelopeReportF env.today accs after out2) := by
  obtain ⟨m, hm⟩ : ∃ m : Morning, m = ⟨env.today, day, [], []⟩ := ⟨_, rfl⟩
  have hmt : m.today = env.today := by rw [hm]
  have hmd : m.day = day := by rw [hm]
  have hmok : m.Ok env accs := by
    rw [hm]
    exact ⟨Or.inl ⟨rfl, rfl⟩, by simp, ⟨hf.today, hf.schedule, by simp, by simp⟩, hday, hplain, h0⟩
  obtain ⟨w', out, served, mss, b, k1, k2, k3, k4, rfl, k6, k7⟩ := C134_what_filling_writes_in_doubles env hord o
    w accs es text path day h hf hr hfuel c args fs hc ha hj hn hp hw hday.1 h0 hcur hsmall.books hsmall.sides hsmall.fills
  have hrd : endsInName path = true ∧ w.file (resolve w.cwd path) = some text := by
    unfold World.read at hr
    split at hr
    · rename_i he; exact ⟨he, hr⟩
    · cases hr
  rw [← hmt] at k4
  obtain ⟨after, filled, g1, g2, g3, g4, g5, g6⟩ := fill_reread h hmok (by rw [hmt]; exact hf) k3 k4 hcur
  rw [hmt, hmd] at g3
  rw [hmt] at g5
  have hlines : (fillOf env.today day mss.flatten).lines = [] ↔ mss.flatten = [] := by
    show mss.flatten.map BLine.move = [] ↔ _
    exact List.map_eq_nil_iff
  have hfile : w'.file (resolve w.cwd path) = some (text ++ filled) ∧ ∀ f, f ≠ resolve w.cwd path → w'.file f = w.file f := by
    by_cases hem : mss.flatten = []
    · rw [k6 (hlines.2 hem), g2 hem, List.append_nil]
      exact ⟨hrd.2, fun _ _ => rfl⟩
    · rw [g3 hem]
      exact k7 fun c => hem (hlines.1 c)
  refine ⟨w', out, after, filled, k1, by rw [← hm]; exact g1, hfile.1, hfile.2, ?_, ?_⟩
  · intro p hp x hx hcan
    rw [← hmt] at hcan ⊢
    exact filled_up h.once g1 hp hx hcan (missing_whole h.entries hsmall.books hsmall.sides.decided hp hx _)
  · intro hsb c2 args2 fs2 hc2 ha2 hj2 hn2
    obtain ⟨w2, out2, e1, e2, e3⟩ := C123_from_text_to_envelopes_in_doubles env hord o { w' with cwd := w.cwd } accs after
      (text ++ filled) path g4 g5 (by unfold World.read; rw [hrd.1]; exact hfile.1) hfuel c2 args2 fs2 hc2 ha2 hj2 hn2 hsb
      (g6 hsmall.sides).decided
    exact ⟨w2, out2, e1, e2, e3⟩

/-! ### Journals -/

theorem exFood_due : ∀ {due}, IsDue june15 exFoodFilled due ↔ due = some ⟨2024, 7, 10, by decide⟩ := by
  have h : IsDue june15 exFoodFilled (some ⟨2024, 7, 10, by decide⟩) := ⟨some ⟨2024, 7, 10, by decide⟩, by decide +kernel, by decide⟩
  exact fun {due} => ⟨fun g => g.unique h, fun g => by rw [g]; exact h⟩

theorem exTripGoal_due : ∀ {due}, IsDue june15 exTripGoal due ↔ due = some ⟨2024, 6, 23, by decide⟩ := by
  have h : IsDue june15 exTripGoal (some ⟨2024, 6, 23, by decide⟩) := ⟨some ⟨2024, 6, 23, by decide⟩, by decide +kernel, by decide⟩
  exact fun {due} => ⟨fun g => g.unique h, fun g => by rw [g]; exact h⟩

/-- Food can be filled up in the journal of C122: there is enough for it and an eighth of the trip. -/
theorem exFood_can_fill : CanFill june15 (s%"bank", [exFoodFilled, exTripGoal]) [exSalaryIn, exShopping, exSaving] exFoodFilled := by
  refine ⟨?_, Or.inl ⟨by decide, by decide +kernel⟩, by decide +kernel, ?_, by decide, by decide +kernel,
    fun y => if y.1.name = s%"food" then 32 else 25 / 2, ?_, by decide +kernel⟩
  · rintro (h | h | h)
    · exact absurd h (by decide)
    · cases exFood_due.1 h
    · exact absurd h (by decide +kernel)
  · intro d hd
    have : lastOf june15 exFoodFilled = some ⟨2024, 6, 10, by decide⟩ := by decide +kernel
    rw [this] at hd
    cases hd
    decide
  · intro y hy _
    simp only [List.mem_cons, List.not_mem_nil, or_false] at hy
    rcases hy with rfl | rfl
    · refine ⟨by decide +kernel, fun _ due hd => ?_⟩
      cases exFood_due.1 hd
      decide +kernel
    · refine ⟨by decide +kernel, fun _ due hd => ?_⟩
      cases exTripGoal_due.1 hd
      decide +kernel

/-- What has been added, and what is shown right afterwards. -/
example : ∃ out, (mainProgram F64 (stdEnv june15) exOutside [s%"envelopes", s%"-f", s%"j", s%"-n"]
      { (mainProgram F64 (stdEnv june15) exOutside [s%"envelopes", s%"-f", s%"j"]
        (disk [("j", String.ofList exTripText)])).1 with cwd := [s%"h"] }).2 = .ok out ∧
      out = [s%"bank", s%"  available", s%"    $ 22", s%"  expenses", s%"    food",
        s%"      now                                  $ 18.25 / $ 40 |══════════════════                      |",
        s%"      next (on 2024-07-10)                    $ 40 / $ 40 |════════════════════════════════════════|",
        s%"  goals", s%"    trip",
        s%"      now                                     $ 0 / $ 100 |                                        |",
        s%"      next (on 2024-06-23)                 $ 12.5 / $ 100 |═════                                   |", []] := by
  decide +kernel

end Silverfox
