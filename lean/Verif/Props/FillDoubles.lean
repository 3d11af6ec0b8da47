import Verif.Props.FillCent

/-
C134: what filling the envelopes writes, with doubles: from the text of the journal.
-/

namespace Silverfox

set_option linter.unusedSectionVars false

/-! ### When something last happened to an envelope -/

theorem lastRead_acts {M : Type} [Mag M] {es : List BEntry} {k : Str} {x : MeantDecl Rat}
    (hact : ∀ b ∈ es, b.Acts k x ↔ (b.readIn k x : List M) ≠ []) :
    lastRead M k x es = (lastMoved k x es).getD Date.zero := by
  have hone : ∀ (l : List M) (d e : Date), l.foldl (fun _ _ => d) e = if l.isEmpty then e else d := by
    intro l d
    induction l with
    | nil => intro e; rfl
    | cons v l ih =>
      intro e
      rw [List.foldl_cons, ih]
      simp
  unfold lastRead lastMoved
  have key : ∀ d, es.foldl (fun d b => (b.readIn k x : List M).foldl (fun _ _ => b.day) d) d =
      (((es.filter fun b => decide (b.Acts k x)).getLast?).map BEntry.day).getD d := by
    induction es with
    | nil => intro d; rfl
    | cons b es ih =>
      intro d
      rw [List.foldl_cons, ih (fun c hc => hact c (by simp [hc])), hone]
      by_cases hb : b.Acts k x
      · rw [List.filter_cons_of_pos (by simpa using hb), if_neg (by simpa using (hact b (by simp)).1 hb)]
        cases (es.filter fun b => decide (b.Acts k x)) with
        | nil => rfl
        | cons c cs => rw [List.getLast?_cons_cons, List.getLast?_eq_some_getLast (by simp)]; rfl
      · rw [List.filter_cons_of_neg (by simpa using hb)]
        have h0 := fun g => hb ((hact b (by simp)).2 g)
        rw [if_pos (by simpa using h0)]
  exact key _

theorem automatic_zero {e : PEntry} {k : Str} {fors : List Str} (h : e.automatic k fors = 0) :
    e.gain (fun n => n == k) = 0 ∨ e.gain (fun n => n != k && fors.contains n) = 0 := by
  unfold PEntry.automatic at h
  simp only at h
  have : min (e.gain fun n => n != k && fors.contains n) |e.gain fun n => n == k| = 0 := by
    split at h
    · exact neg_eq_zero.1 h
    · exact h
  rcases min_choice (e.gain fun n => n != k && fors.contains n) |e.gain fun n => n == k| with g | g
  · right; rw [← g]; exact this
  · left; rw [g] at this; exact abs_eq_zero.1 this

theorem acts_near {k : Str} {x : MeantDecl Rat} {es : List BEntry} (h : EntriesNear k x es)
    (hb : ∀ b ∈ es, b.moves = [] → b.Touches k x → b.plain.gain (fun n => n == k) ≠ 0 ∧
      b.plain.gain (fun n => n != k && x.fors.contains n) ≠ 0) :
    ∀ b ∈ es, b.Acts k x ↔ (b.readIn k x : List F64) ≠ [] := by
  intro b hbm
  have hfst := weighedMoves_fst k x b
  unfold BEntry.Acts
  by_cases hm : b.moves = []
  · by_cases ht : b.Touches k x
    · obtain ⟨g1, g2⟩ := hb b hbm hm ht
      have hmi : b.movesIn k x = [b.plain.automatic k x.fors] := by
        unfold BEntry.movesIn; rw [if_neg (fun g => g hm), if_pos ht]
      have hne : b.plain.automatic k x.fors ≠ 0 := by
        intro h0
        rcases automatic_zero h0 with g | g
        · exact g1 g
        · exact g2 g
      rw [hmi] at hfst ⊢
      refine ⟨fun _ => ?_, fun _ => ⟨by simp, fun _ => by simpa using hne⟩⟩
      rcases h.near b hbm with h1 | ⟨_, w, W, _, h3⟩
      · intro h0
        rw [h0] at h1
        cases hh : b.weighedMoves k x with
        | nil => rw [hh] at hfst; cases hfst
        | cons _ _ => rw [hh] at h1; cases h1
      · rw [h3] at hfst
        exact absurd (List.cons.inj hfst).1.symm hne
    · have h1 : b.movesIn k x = [] := by
        unfold BEntry.movesIn; rw [if_neg (fun g => g hm), if_neg ht]
      have h2 : (b.readIn k x : List F64) = [] := by
        unfold BEntry.readIn; rw [if_neg (fun g => g hm), if_neg ht]
      rw [h1, h2]; simp
  · unfold BEntry.movesIn BEntry.readIn
    rw [if_pos hm, if_pos hm]
    simp [hm]

theorem EnvelopeNow.fillable {env : Env} {accs : List DeclAccount} {es : List BEntry}
    (hes : ∀ b ∈ es, b.Ok env (accs.map Prod.fst)) (hf : EnvelopesFit env.today accs es) (h : SmallBooks accs es)
    (hd : BothSides accs es) (h0 : env.today ≠ Date.zero) {p : DeclAccount}
    (hp : p ∈ accs) {x : MeantDecl Rat} (hx : x ∈ p.2) (hok : DeclOk env x) {e : Envelope F64}
    (he : EnvelopeNow env.today p.1 es x e) : Fillable env.today p.1 es x e := by
  have hn := he.near hes h hd.decided hp hx hok
  have hl := he.lastTx
  rw [lastRead_acts (acts_near (entries_near hes h hd.decided hp hx) (hd p hp x hx))] at hl
  obtain ⟨due, hd1, hd2⟩ := envelope_due hf.today (hf.schedule p hp x hx).2 he.read
  refine ⟨hn, hf.last hp hx, ⟨due, hd1, hd2⟩, ?_⟩
  unfold Envelope.Skipped Rests
  rw [he.read.funding, hl, hd1]
  refine or_congr Iff.rfl (or_congr ?_ ?_)
  · constructor
    · intro g; cases g; exact hd2
    · intro g; rw [hd2.unique g]
  · cases lastMoved p.1 x es with
    | none => simpa using Ne.symm h0
    | some d => simp

/-! ### What is available -/

/-- How much the rounding of what is available counts. -/
def availableWeight (p : DeclAccount) (s : Option Str) (es : List BEntry) : Rat :=
  ((availableWeights p s es).length + 3) * (availableWeights p s es).sum * 100000000

theorem available_close {today : Date} {accs : List DeclAccount} {es : List BEntry} (hsb : SmallBooks accs es)
    {p : DeclAccount} (hpa : p ∈ accs) {a : Account F64} (h : AccountNear today es p a) (s : Option Str) :
    Close (a.available.only s).mag (availableOf p s es * 100000000) (availableWeight p s es / 2 ^ 52) ∧
      |availableOf p s es * 100000000| ≤ availableWeight p s es := by
  have henv : List.Forall₂ (EnvelopeNear today p.1 es) (ofKind .expense p.2 ++ ofKind .goal p.2) a.envelopes :=
    List.rel_append h.expenses h.goals
  have hfold : a.available = ((es.flatMap fun b : BEntry => b.plain.readMoves p.1) ++
      (a.envelopes.flatMap fun e : Envelope F64 => [e.next.neg, e.now.neg])).foldl Pool.add [] := by
    rw [available_foldlF, h.real, List.foldl_append]
  have hms : List.Forall₂ ReadAs ((es.flatMap fun b : BEntry => b.plain.readMoves p.1) ++
      (a.envelopes.flatMap fun e : Envelope F64 => [e.next.neg, e.now.neg]))
      ((es.flatMap fun b : BEntry => b.plain.weighed p.1) ++
        (ofKind .expense p.2 ++ ofKind .goal p.2).flatMap (takenOff today p.1 es)) :=
    List.rel_append h.lines (takenOff_near henv)
  generalize hm : (es.flatMap fun b : BEntry => b.plain.readMoves p.1) ++
      (a.envelopes.flatMap fun e : Envelope F64 => [e.next.neg, e.now.neg]) = ms at hfold hms
  have hmag : (a.available.only s).mag = sumF (partsOf s ms) := by
    rw [hfold, plus_runAll, only_parts, plus_parts]
    cases partsOf s ms <;> rfl
  obtain ⟨p1, p2, p3⟩ := parts_near s _ _ hms
  have hp1 : ((((es.flatMap fun b : BEntry => b.plain.weighed p.1) ++
      (ofKind .expense p.2 ++ ofKind .goal p.2).flatMap (takenOff today p.1 es)).filter fun w => w.1.2 = s).map Prod.snd).Perm
      (availableWeights p s es) := by
    rw [List.filter_append, List.map_append, (takenOff_sums _ _ _ _ _).2]
    unfold availableWeights weighedIn
    rw [List.flatMap_map]
    exact List.Perm.append_left _ (((kinds_perm p.2).filter _).flatMap_right _)
  have hsum : ((((es.flatMap fun b : BEntry => b.plain.weighed p.1) ++
      (ofKind .expense p.2 ++ ofKind .goal p.2).flatMap (takenOff today p.1 es)).filter fun w => w.1.2 = s).map fun w => w.1.1).sum =
      availableOf p s es := by
    rw [List.filter_append, List.map_append, List.sum_append, (takenOff_sums _ _ _ _ _).1]
    unfold availableOf
    rw [writtenSum_weighed, sub_eq_add_neg, (((kinds_perm p.2).filter _).map _).sum_eq]
    unfold weighedIn
    rw [List.flatMap_map]
  generalize (((es.flatMap fun b : BEntry => b.plain.weighed p.1) ++
      (ofKind .expense p.2 ++ ofKind .goal p.2).flatMap (takenOff today p.1 es)).filter fun w => decide (w.1.2 = s)) = F at *
  rw [hsum] at p2
  have hsm := hsb.small p hpa s
  have hA : availableWeight p s es = ((F.length : Rat) + 3) * ((F.map fun w => (u8 w.2).natAbs).sum : Nat) := by
    unfold availableWeight
    rw [← hp1.length_eq, ← hp1.sum_eq, mul_assoc, p3, List.length_map]
  have hsm : availableWeight p s es ≤ 2 ^ 51 := hsm
  rw [hA] at hsm
  have hnear := sumF_near _ _ p1 (by
    rw [List.length_map, List.map_map]
    exact_mod_cast hsm)
  rw [← hmag, List.map_map, List.map_map, List.length_map] at hnear
  have e1 : (Prod.fst ∘ fun w : (Rat × Option Str) × Rat => (u8 w.1.1, (u8 w.2).natAbs)) = fun w => u8 w.1.1 := rfl
  have e2 : (Prod.snd ∘ fun w : (Rat × Option Str) × Rat => (u8 w.1.1, (u8 w.2).natAbs)) = fun w => (u8 w.2).natAbs := rfl
  rw [e1, e2] at hnear
  rw [hA, p2]
  have hc := hnear.close
  have hb : |(((F.map fun w => u8 w.1.1).sum : Int) : Rat)| ≤ (((F.length + 2) * (F.map fun w => (u8 w.2).natAbs).sum : Nat) : Rat) := by
    rw [← Int.cast_abs, ← Nat.cast_natAbs]
    exact Nat.cast_le.2 hnear.2.2
  have hle : ∀ n S : Nat, (((n + 2) * S : Nat) : Rat) ≤ ((n : Rat) + 3) * (S : Rat) := by
    intro n S
    push_cast
    exact mul_le_mul_of_nonneg_right (by linarith) (Nat.cast_nonneg _)
  exact ⟨hc.mono (div_le_div_of_nonneg_right (hle _ _) (by norm_num)), le_trans hb (hle _ _)⟩

/-! ### An account -/

/-- The line of a posting: its text, and how near the amount is to the one kept. -/
structure LineOf (q : EnvPosting F64) (m : MLine) : Prop where
  text : m.text = s%"    " ++ (Posting.envelope q).display
  account : m.account = q.account
  sym : m.value.2 = q.amount.sym
  close : Close q.amount.mag (m.value.1 * 100000000) (5 / 8)

theorem serving_perm (ds : List (MeantDecl Rat)) : (serving ds).Perm ds := by
  unfold serving
  refine List.Perm.trans ?_ (kinds_perm ds)
  exact (List.perm_append_comm).trans ((List.reverse_perm _).append (List.reverse_perm _))

theorem filled_lines {today : Date} {k : Str} {es : List BEntry} {xfs : List (MeantDecl Rat × Rat)} {ps : List (EnvPosting F64)}
    (hv : ∀ xf ∈ xfs, ∀ y, xf.1.target.sym = some y → ValidSymbol '.' y)
    (h : List.Forall₂ (FilledWith today k es) xfs ps) :
    ∃ os, List.Forall₂ (FillLine today k es) xfs os ∧
      List.Forall₂ LineOf (ps.filter fun q => !Mag.eq q.amount.mag (Mag.zero : F64)) (os.filterMap id) := by
  induction h with
  | nil => exact ⟨[], .nil, .nil⟩
  | @cons xf q xfs ps h1 _ ih =>
    obtain ⟨os, g1, g2⟩ := ih fun y hy => hv y (by simp [hy])
    have hz : (Mag.eq q.amount.mag (Mag.zero : F64)) = decide (q.amount.mag.value = 0) := by
      show F64.eq q.amount.mag F64.zero = _
      rw [F64.eq_value h1.finite rfl, F64.value_zero]
    by_cases h0 : q.amount.mag.value = 0
    · refine ⟨none :: os, .cons ?_ g1, ?_⟩
      · show |xf.2| < 1 / 100000000
        have := abs_le.1 h1.close
        rw [h0] at this
        rw [abs_lt]
        constructor <;> linarith
      · rw [List.filter_cons_of_neg (by rw [hz]; simp [h0]), List.filterMap_cons_none rfl]
        exact g2
    · obtain ⟨r, u, d1, d2, d3, d4⟩ := display_close q.amount.mag q.amount.sym h1.finite h1.small
        (by rw [h1.sym]; exact hv xf (by simp))
      refine ⟨some (moveLine k xf.1 r q.amount.display) :: os, .cons ⟨?_, q.amount.display, u, r, rfl, d1, ?_, d3, ?_⟩ g1, ?_⟩
      · intro hr
        rw [h1.rests hr, F64.value_zero] at h0
        exact h0 rfl
      · rw [← h1.sym]; exact d2
      · have e1 := abs_le.1 h1.close
        have e2 := abs_le.1 d4
        rw [abs_lt]
        constructor <;> linarith
      · rw [List.filter_cons_of_pos (by rw [hz]; simp [h0]), List.filterMap_cons_some (f := id) (show id (some _) = some _ from rfl)]
        refine .cons ⟨?_, h1.account.symm, h1.sym.symm, h1.finite, d4⟩ g2
        unfold moveLine MLine.text Posting.display EnvPosting.display padRight
        simp only [h1.account, h1.envelope]
        simp [List.append_assoc]
        omega

theorem toCome_sum (k : Str) (es : List BEntry) (Z : Rat) (s : Option Str) (xs : List (MeantDecl Rat)) :
    toCome k es Z s xs = (3 * toTake k es s xs + (xs.filter fun x => x.target.sym = s).length * Z) / 2 ^ 52 := by
  unfold toCome toTake
  induction xs.filter fun x => x.target.sym = s with
  | nil => simp
  | cons x xs ih =>
    rw [List.map_cons, List.sum_cons, ih, List.map_cons, List.sum_cons, List.length_cons]
    push_cast
    ring

theorem account_fillsF {env : Env} {accs : List DeclAccount} {es : List BEntry}
    (hes : ∀ b ∈ es, b.Ok env (accs.map Prod.fst)) (hf : EnvelopesFit env.today accs es) (hsb : SmallBooks accs es)
    (hbs : BothSides accs es) (hsf : SmallFills accs es) (h0 : env.today ≠ Date.zero) {p : DeclAccount} (hpa : p ∈ accs)
    (hp : ∀ x ∈ p.2, DeclOk env x) {a : Account F64} (hw : a.WF) (h : AccountNow env.today es p a) :
    ∃ ps ms, a.fillingPostings env.today = .ok ps ∧
      (∀ q ∈ ps, ∃ x ∈ p.2, q.account = p.1 ∧ q.envelope = x.1.name ∧ q.amount.sym = x.target.sym) ∧
      List.Forall₂ LineOf (ps.filter fun q => !Mag.eq q.amount.mag (Mag.zero : F64)) ms ∧
      AccountFillsF env.today es p ms := by
  have hmem : ∀ x ∈ serving p.2, x ∈ p.2 := fun x hx => (serving_perm p.2).mem_iff.1 hx
  have key : ∀ {xs : List (MeantDecl Rat)} {as : List (Envelope F64)}, (∀ x ∈ xs, x ∈ p.2) →
      List.Forall₂ (EnvelopeNow env.today p.1 es) xs as → List.Forall₂ (Fillable env.today p.1 es) xs as := by
    intro xs as hx h
    induction h with
    | nil => exact .nil
    | cons h1 _ ih =>
      exact .cons (h1.fillable hes hf hsb hbs h0 hpa (hx _ (by simp)) (hp _ (hx _ (by simp))))
        (ih fun y hy => hx y (by simp [hy]))
  have k1 := key (fun x hx => (mem_ofKind hx).1) h.expenses
  have k2 := key (fun x hx => (mem_ofKind hx).1) h.goals
  have hall : List.Forall₂ (Fillable env.today p.1 es) (serving p.2) (a.goals.reverse ++ a.expenses.reverse) :=
    List.rel_append (List.rel_reverse k2) (List.rel_reverse k1)
  have hnear := h.near hes hsb hbs.decided hpa hp
  obtain ⟨ps, h1⟩ := C43_filling_never_crashes env.today a hw fun e he => by
    obtain ⟨x, hx, hxe⟩ := forall₂_mem_right (List.rel_append k1 k2) he
    obtain ⟨d, hd, _⟩ := hxe.due
    exact ⟨d, hd⟩
  have hav := fun s => available_close hsb hpa hnear s
  have hT : ∀ s, toTake p.1 es s (serving p.2) =
      ((p.2.filter fun x => x.target.sym = s).map (fillWeight p.1 es)).sum * 100000000 := by
    intro s
    unfold toTake
    rw [(((serving_perm p.2).filter _).map _).sum_eq]
    induction p.2.filter fun x => x.target.sym = s with
    | nil => simp
    | cons x xs ih => rw [List.map_cons, List.sum_cons, ih, List.map_cons, List.sum_cons, add_mul]
  have hm : ∀ s, ((serving p.2).filter fun x => x.target.sym = s).length = (p.2.filter fun x => x.target.sym = s).length :=
    fun s => ((serving_perm p.2).filter _).length_eq
  have hbig : ∀ s, (((p.2.filter fun x => x.target.sym = s).length : Rat) + 3) *
      (availableWeight p s es + toTake p.1 es s (serving p.2)) ≤ 2 ^ 50 := by
    intro s
    have := hsf p hpa s
    rw [hT]
    unfold availableWeight
    refine le_trans (le_of_eq ?_) this
    ring
  obtain ⟨fs, f1, _, f3⟩ := loop_fills (Z := fun s => availableWeight p s es + toTake p.1 es s (serving p.2)) hall
    (fun s => (hav s).1) (fun s => (hav s).2) (fun s => le_refl _)
    (by
      intro s
      have hb := hbig s
      have h2 := toTake_nonneg p.1 es s (serving p.2)
      have h3 : 0 ≤ availableWeight p s es := le_trans (abs_nonneg _) (hav s).2
      rw [toCome_sum, hm s]
      generalize toTake p.1 es s (serving p.2) = T at *
      generalize availableWeight p s es = A at *
      generalize ((p.2.filter fun x => decide (x.target.sym = s)).length : Rat) = n at *
      rw [← add_div, div_le_iff₀ (by norm_num)]
      linarith)
    (by
      intro s
      have hb := hbig s
      have h2 := toTake_nonneg p.1 es s (serving p.2)
      have h3 : 0 ≤ availableWeight p s es := le_trans (abs_nonneg _) (hav s).2
      have h4 : (0 : Rat) ≤ ((p.2.filter fun x => x.target.sym = s).length : Rat) := Nat.cast_nonneg _
      generalize toTake p.1 es s (serving p.2) = T at *
      generalize availableWeight p s es = A at *
      generalize ((p.2.filter fun x => decide (x.target.sym = s)).length : Rat) = n at *
      have := mul_nonneg h4 (add_nonneg h3 h2)
      exact ⟨by linarith, by linarith⟩)
    (show Account.fillLoop env.today (a.goals.reverse ++ a.expenses.reverse) a.available = .ok ps by
      rw [← List.reverse_append]; exact h1)
  obtain ⟨os, g1, g2⟩ := filled_lines (fun xf hxf => target_symbol (hp _ (hmem _ (List.of_mem_zip hxf).1))) f3
  refine ⟨ps, os.filterMap id, h1, ?_, g2, fs, os, f1, g1, rfl⟩
  intro q hq
  obtain ⟨xf, hxf, hq'⟩ := forall₂_mem_right f3 hq
  exact ⟨xf.1, hmem _ (List.of_mem_zip hxf).1, hq'.account, hq'.envelope, hq'.sym⟩

theorem fillAll_fillsF {env : Env} {accs : List DeclAccount} {es : List BEntry}
    (hes : ∀ b ∈ es, b.Ok env (accs.map Prod.fst)) (hf : EnvelopesFit env.today accs es) (hsb : SmallBooks accs es)
    (hbs : BothSides accs es) (hsf : SmallFills accs es) (h0 : env.today ≠ Date.zero)
    (hp : ∀ p ∈ accs, ∀ x ∈ p.2, DeclOk env x) {ps : List DeclAccount} (hpa : ∀ p ∈ ps, p ∈ accs)
    {as : List (Str × Account F64)} (hw : ∀ k a, (k, a) ∈ as → a.WF)
    (h : List.Forall₂ (fun p q => q.1 = p.1 ∧ AccountNow env.today es p q.2) ps as) :
    ∃ qs mss, Ledger.fillAll env.today as = .ok qs ∧ List.Forall₂ (AccountFillsF env.today es) ps mss ∧
      (∀ q ∈ qs, ∃ p ∈ ps, ∃ x ∈ p.2, q.account = p.1 ∧ q.envelope = x.1.name ∧ q.amount.sym = x.target.sym) ∧
      List.Forall₂ LineOf (qs.filter fun q => !Mag.eq q.amount.mag (Mag.zero : F64)) mss.flatten := by
  induction h with
  | nil => exact ⟨[], [], rfl, .nil, by simp, .nil⟩
  | @cons p q ps as h1 _ ih =>
    obtain ⟨q1, m1, g1, g2, g3, g3'⟩ := account_fillsF hes hf hsb hbs hsf h0 (hpa p (by simp)) (hp p (hpa p (by simp)))
      (hw q.1 q.2 (by simp)) h1.2
    obtain ⟨q2, mss, g4, g5, g6, g7⟩ := ih (fun y hy => hpa y (by simp [hy])) fun k a hm => hw k a (by simp [hm])
    refine ⟨q1 ++ q2, m1 :: mss, (fillAll_cons env.today q.1 q.2 as _).2 ⟨q1, q2, g1, g4, rfl⟩, .cons g3' g5, ?_, ?_⟩
    · intro r hr
      rcases List.mem_append.1 hr with hr | hr
      · obtain ⟨x, hx, k1⟩ := g2 r hr
        exact ⟨p, by simp, x, hx, k1⟩
      · obtain ⟨p', hp', k1⟩ := g6 r hr
        exact ⟨p', by simp [hp'], k1⟩
    · rw [List.filter_append, List.flatten_cons]
      exact List.rel_append g3 g7

/-! ### What becomes of the envelopes -/

/-- An account whose envelopes have been read. -/
structure AccountRead (p : DeclAccount) (a : Account F64) : Prop where
  expenses : List.Forall₂ (ReadEnvelope p.1) (ofKind .expense p.2) a.expenses
  goals : List.Forall₂ (ReadEnvelope p.1) (ofKind .goal p.2) a.goals

theorem AccountNow.accountRead {today : Date} {es : List BEntry} {p : DeclAccount} {a : Account F64}
    (h : AccountNow today es p a) : AccountRead p a :=
  ⟨h.expenses.imp fun _ _ g => g.read, h.goals.imp fun _ _ g => g.read⟩

theorem fill_stepF {today : Date} {ps : List (EnvPosting F64)} (hne : ps ≠ []) {k : Str} {x : MeantDecl Rat}
    {e : Envelope F64} (hr : ReadEnvelope k x e) (hl : x.2.1.lastDue today = .ok (lastOf today x))
    (hsym : ∀ q ∈ ps, q.account = k → q.envelope = x.1.name → q.amount.sym = x.target.sym) :
    ∃ e', e.processEntry today (Ledger.fillEntry today ps) = .ok e' ∧ ReadEnvelope k x e' := by
  have hhas : (Ledger.fillEntry today ps).hasEnvelopePosting = true := by
    rw [fillEntry_has]
    cases ps with
    | nil => exact absurd rfl hne
    | cons _ _ => rfl
  have hsyms : ∀ a ∈ manualMoves (Ledger.fillEntry today ps) e, a.sym = e.amount.sym := by
    intro a ha
    rw [manualMoves_fill] at ha
    obtain ⟨q, hq, rfl⟩ := List.mem_map.1 ha
    obtain ⟨hq, h1⟩ := List.mem_filter.1 hq
    obtain ⟨hq, h2⟩ := List.mem_filter.1 hq
    rw [hr.sym]
    exact hsym q hq (by rw [← hr.account]; simpa using h2) (by rw [← hr.name]; simpa using h1)
  obtain ⟨e', h1, _⟩ := applyAll_value today (Ledger.fillEntry today ps).date (lastOf today x)
    (manualMoves (Ledger.fillEntry today ps) e) e hr.one (by rw [hr.freq]; exact hl) hsyms
  have hk := applyAll_keeps _ _ _ _ _ h1
  exact ⟨e', by rw [processEntry_manual _ _ _ hhas]; exact h1, hr.keeps ⟨hk.1, hk.2.1, hk.2.2.1⟩⟩

theorem fill_envelopesF {today : Date} {y : Entry F64} {k : Str}
    {xs : List (MeantDecl Rat)} {as : List (Envelope F64)} (h : List.Forall₂ (ReadEnvelope k) xs as)
    (hstep : ∀ x ∈ xs, ∀ e : Envelope F64, ReadEnvelope k x e → ∃ e', e.processEntry today y = .ok e' ∧ ReadEnvelope k x e') :
    ∃ as', Account.processEnvelopes today y as = .ok as' ∧ List.Forall₂ (ReadEnvelope k) xs as' := by
  induction h with
  | nil => exact ⟨[], rfl, .nil⟩
  | cons h1 _ ih =>
    obtain ⟨e', h2, h3⟩ := hstep _ (by simp) _ h1
    obtain ⟨as', h4, h5⟩ := ih fun x hx => hstep x (by simp [hx])
    exact ⟨e' :: as', by simp only [Account.processEnvelopes, h2, h4, bind, Except.bind]; rfl, .cons h3 h5⟩

theorem fill_allF {today : Date} {ps : List (EnvPosting F64)} (hne : ps ≠ []) {accs : List DeclAccount}
    {as : List (Str × Account F64)} (h : List.Forall₂ (fun p q => q.1 = p.1 ∧ AccountRead p q.2) accs as)
    (hl : ∀ p ∈ accs, ∀ x ∈ p.2, x.2.1.lastDue today = .ok (lastOf today x))
    (hsym : ∀ p ∈ accs, ∀ x ∈ p.2, ∀ q ∈ ps, q.account = p.1 → q.envelope = x.1.name → q.amount.sym = x.target.sym) :
    ∃ as', Ledger.processAll today (Ledger.fillEntry today ps) as = .ok as' ∧
      List.Forall₂ (fun p q => q.1 = p.1 ∧ AccountRead p q.2) accs as' := by
  induction h with
  | nil => exact ⟨[], rfl, .nil⟩
  | @cons p q _ _ h1 _ ih =>
    have hst := fun x (hx : x ∈ p.2) (e : Envelope F64) (he : ReadEnvelope p.1 x e) =>
      fill_stepF hne he (hl p (by simp) x hx) (hsym p (by simp) x hx)
    obtain ⟨e1, k1, k2⟩ := fill_envelopesF h1.2.expenses fun x hx => hst x (mem_ofKind hx).1
    obtain ⟨e2, k3, k4⟩ := fill_envelopesF h1.2.goals fun x hx => hst x (mem_ofKind hx).1
    obtain ⟨r, hr⟩ := processReal_total q.2.name (Ledger.fillEntry today ps) (Ledger.fillEntry today ps).postings
      (fun y hy hn => by
        obtain ⟨q', _, rfl⟩ := List.mem_map.1 hy
        simp [Posting.amount] at hn) q.2.real
    have h2 : q.2.processEntry today (Ledger.fillEntry today ps) = .ok { q.2 with expenses := e1, goals := e2, real := r } := by
      simp only [Account.processEntry, k1, k3, hr, bind, Except.bind]; rfl
    obtain ⟨as', h4, h5⟩ := ih (fun p hp => hl p (by simp [hp])) fun p hp => hsym p (by simp [hp])
    exact ⟨(q.1, { q.2 with expenses := e1, goals := e2, real := r }) :: as', by
      simp only [Ledger.processAll, h2, h4, bind, Except.bind]; rfl, .cons ⟨h1.1, k2, k4⟩ h5⟩

theorem fill_textF (env : Env) {day : Str} (hday : env.fmtDate env.today s%"%Y/%m/%d" = some day)
    {ps : List (EnvPosting F64)} {ms : List MLine} (h : List.Forall₂ LineOf ps ms) :
    ∃ t, (Ledger.fillEntry env.today ps).asParsable env s%"%Y/%m/%d" = .ok t ∧
      '\n' :: t = (fillOf env.today day ms).addition := by
  have hbody : ((ps.map Posting.envelope).map fun p => s%"    " ++ p.display ++ ['\n']).flatten =
      (ms.map BLine.move).flatMap fun l => l.text ++ ['\n'] := by
    induction h with
    | nil => rfl
    | @cons q m ps ms h1 _ ih =>
      rw [List.map_cons, List.map_cons, List.flatten_cons, ih, List.map_cons, List.flatMap_cons]
      congr 1
      show s%"    " ++ (Posting.envelope q).display ++ ['\n'] = m.text ++ ['\n']
      rw [show m.text = _ from h1.text]
  refine ⟨_, by
    unfold Entry.asParsable Ledger.fillEntry Entry.new
    simp only [hday, unwrap, bind, Except.bind, pure, Except.pure]
    rfl, ?_⟩
  unfold BEntry.addition BEntry.plain PEntry.header fillOf
  simp only [hbody]
  simp [Status.toChar, List.append_assoc]

/-- The ledger that a command has after the envelopes have been filled. -/
theorem filled_ledger (env : Env) (hord : FairOrder env.ord) (o : Outside) (w : World)
    (accs : List DeclAccount) (es : List BEntry) (text path day : Str) (h : EnvelopeJournal env accs es text)
    (hf : EnvelopesFit env.today accs es) (hr : w.read path = some text) (hfuel : o.fuel ≠ 0) (hp : path.head? = some '/' ∨ '/' ∉ path)
    (hw : w.canAppend (resolve w.cwd path) = true)
    (hday : env.fmtDate env.today s%"%Y/%m/%d" = some day) (h0 : env.today ≠ Date.zero)
    (hcur : ∀ p ∈ accs, ∀ x ∈ p.2, ∀ y ∈ p.2, x.1.name = y.1.name → x.target.sym = y.target.sym)
    (hsb : SmallBooks accs es) (hbs : BothSides accs es) (hsf : SmallFills accs es) :
    ∃ (w' : World) (l' : Ledger F64) (served : List DeclAccount) (mss : List (List MLine)) (b : BEntry),
      (∀ fs, journalFor o fs = some path → Flag.noMove ∉ fs → LedgerFor env o fs w l' w') ∧
      w'.canAppend = w.canAppend ∧ w'.cwd = (w.cdParent path).cwd ∧
      served.Perm accs ∧ List.Forall₂ (AccountFillsF env.today es) served mss ∧ b = fillOf env.today day mss.flatten ∧
      (b.lines = [] → w'.file = w.file) ∧
      (b.lines ≠ [] → w'.file (resolve w.cwd path) = some (text ++ b.addition) ∧
        ∀ f, f ≠ resolve w.cwd path → w'.file f = w.file f) ∧
      l'.decimal = '.' ∧ l'.dateFormat = s%"%Y/%m/%d" ∧ l'.filePath = path ∧
      List.Forall₂ (fun p q => q.1 = p.1 ∧ AccountRead p q.2) accs l'.accounts ∧
      (∀ x ∈ l'.entries, x.date = env.today ∨ ∃ e ∈ es, x.date = e.day) ∧
      ∃ out, l'.displayEnvelopes env = .ok out ∧
      ∃ (xs : List (Entry F64)) (ps : List (EnvPosting F64)), List.Forall₂ BEntryOf es xs ∧ List.Forall₂ LineOf ps mss.flatten ∧
        (∀ q ∈ ps, ∃ p ∈ accs, ∃ x ∈ p.2, q.account = p.1 ∧ q.amount.sym = x.target.sym) ∧
        DateOrdered (xs ++ if ps = [] then [] else [Ledger.fillEntry env.today ps]) l'.entries := by
  obtain ⟨fuel, hfu⟩ := Nat.exists_eq_succ_of_ne_zero hfuel
  obtain ⟨xs, l, hxs, hl, hlo, hload⟩ := h.loads (M := F64) hord hf fuel w path hr
  have hinv := loaded_inv env _ _ _ _ l hload
  have hpath : l.filePath = path := (fromFile_sound env _ _ _ _ _ hload).1.choose_spec.filePath.1
  obtain ⟨served, s1, s2⟩ := List.perm_comp_forall₂ (hord _ l.accounts) hl.accounts.flip
  have s1 := s1.flip
  have hmem : ∀ p ∈ served, p ∈ accs := fun p hp => s2.mem_iff.1 hp
  obtain ⟨qs, mss, q1, q2, q3, q4⟩ := fillAll_fillsF h.entries hf hsb hbs hsf h0 h.envelopes hmem
    (fun k a hm => hinv.wf k a ((hord _ l.accounts).mem_iff.1 hm)) s1
  have hlines : (fillOf env.today day mss.flatten).lines = mss.flatten.map BLine.move := rfl
  have hbar : ∀ (e : Envelope F64) amt, ∃ s, e.makeBar amt 40 = .ok s := fun e amt => by
    obtain ⟨_, _, h⟩ := C76_bar_fits e amt
    exact ⟨_, h⟩
  have hread : List.Forall₂ (fun p q => q.1 = p.1 ∧ AccountRead p q.2) accs l.accounts :=
    hl.accounts.imp fun _ _ g => ⟨g.1, g.2.accountRead⟩
  have hnext : ∀ {as : List (Str × Account F64)}, List.Forall₂ (fun p q => q.1 = p.1 ∧ AccountRead p q.2) accs as →
      ∀ k a, (k, a) ∈ as → ∀ e ∈ a.envelopes, ∃ d, e.nextDue env.today = .ok d := by
    intro as g k a hka e he
    obtain ⟨p, hpm, _, hpa⟩ := forall₂_mem_right g hka
    obtain ⟨x, hx, hxe⟩ := forall₂_mem_right (List.rel_append hpa.expenses hpa.goals) he
    obtain ⟨d, hd, _⟩ := envelope_due hf.today (hf.schedule p hpm x ((kinds_perm p.2).mem_iff.1 hx)).2 hxe
    exact ⟨d, hd⟩
  have hdates : ∀ x ∈ l.entries, ∃ e ∈ es, x.date = e.day := by
    intro x hx
    obtain ⟨e, he, hex⟩ := forall₂_mem_right hxs (hlo.same.mem_iff.1 hx)
    exact ⟨e, he, hex.1.1⟩
  by_cases hem : mss.flatten = []
  · have hnone : qs.filter (fun q => !Mag.eq q.amount.mag (Mag.zero : F64)) = [] := by
      rw [hem] at q4
      exact List.forall₂_nil_right_iff.1 q4
    have hb : (fillOf env.today day mss.flatten).lines = [] := by rw [hlines, hem]; rfl
    obtain ⟨out, hout⟩ := displayEnvelopes_total env hord hbar l (hnext hread)
    refine ⟨w.cdParent path, l, served, mss, _, ?_, rfl, rfl, s2, q2, rfl, fun _ => rfl, fun g => absurd hb g, hl.decimal,
      hl.dateFormat, hpath, hread, fun x hx => Or.inr (hdates x hx), out, hout, xs, [], hxs, by rw [hem]; exact .nil, by simp,
      by simpa using hlo⟩
    intro fs hj hn
    refine ⟨path, l, _, hj, by rw [hfu]; exact hload, Or.inr ⟨hn, ?_⟩⟩
    unfold Ledger.fillEnvelopes
    simp only [q1, hnone]
    rfl
  · have hb : (fillOf env.today day mss.flatten).lines ≠ [] := by
      rw [hlines]; simpa using hem
    generalize hps : qs.filter (fun q => !Mag.eq q.amount.mag (Mag.zero : F64)) = ps at q4
    have hne : ps ≠ [] := by
      rintro rfl
      exact hem (List.forall₂_nil_left_iff.1 q4)
    have hsym : ∀ p ∈ accs, ∀ x ∈ p.2, ∀ q ∈ ps, q.account = p.1 → q.envelope = x.1.name → q.amount.sym = x.target.sym := by
      intro p hp x hx q hq e1 e2
      rw [← hps] at hq
      obtain ⟨p', hp', x', hx', f1, f2, f3⟩ := q3 q (List.mem_filter.1 hq).1
      have : p' = p := List.inj_on_of_nodup_map h.once (hmem p' hp') hp (by rw [← f1, e1])
      subst this
      rw [f3]
      exact hcur p' hp x' hx' x hx (by rw [← f2, e2])
    obtain ⟨as', g1, g2⟩ := fill_allF hne hread (fun p hp x hx => hf.last hp hx) hsym
    obtain ⟨t, t1, t2⟩ := fill_textF env hday q4
    have hrd : endsInName path = true ∧ w.file (resolve w.cwd path) = some text := by
      unfold World.read at hr
      split at hr
      · rename_i he; exact ⟨he, hr⟩
      · cases hr
    have hcwd := resolve_again w path hp hrd.1
    obtain ⟨l1, hl1⟩ : ∃ l1 : Ledger F64, l1 = { l with
        accounts := as'
        entries := stableSort (fun a b => Date.lt a.date b.date) (l.entries ++ [Ledger.fillEntry env.today ps]) } := ⟨_, rfl⟩
    have hadd := (addEntry_iff env hord l l1 (Ledger.fillEntry env.today ps)).2 ⟨as', g1, hl1⟩
    have hacc : l1.accounts = as' := by rw [hl1]
    have hdec : l1.decimal = '.' := by rw [hl1]; exact hl.decimal
    have hfmt : l1.dateFormat = s%"%Y/%m/%d" := by rw [hl1]; exact hl.dateFormat
    have hlp : l1.filePath = path := by rw [hl1]; exact hpath
    have hda : ∀ x ∈ l1.entries, x.date = env.today ∨ ∃ e ∈ es, x.date = e.day := by
      intro x hx
      rw [hl1] at hx
      rcases List.mem_append.1 ((stableSort_perm _ _).mem_iff.1 hx) with hx | hx
      · exact Or.inr (hdates x hx)
      · rw [List.mem_singleton.1 hx]; exact Or.inl rfl
    have hdo : DateOrdered (xs ++ if ps = [] then [] else [Ledger.fillEntry env.today ps]) l1.entries := by
      rw [if_neg hne, hl1]
      exact hlo.snoc _
    have hps' : ∀ q ∈ ps, ∃ p ∈ accs, ∃ x ∈ p.2, q.account = p.1 ∧ q.amount.sym = x.target.sym := by
      intro q hq
      rw [← hps] at hq
      obtain ⟨p', hp', x', hx', f1, _, f3⟩ := q3 q (List.mem_filter.1 hq).1
      exact ⟨p', hmem p' hp', x', hx', f1, f3⟩
    clear hl1
    have happ : l.appendEntry env (w.cdParent path) (Ledger.fillEntry env.today ps) =
        ((w.cdParent path).write (resolve w.cwd path) (text ++ '\n' :: t), .ok l1) := by
      unfold Ledger.appendEntry World.append
      rw [hpath, hcwd, hl.dateFormat, t1]
      simp only [hrd.1]
      have e1 : (w.cdParent path).canAppend = w.canAppend := rfl
      have e2 : (w.cdParent path).file = w.file := rfl
      rw [e1, e2, hw, hrd.2]
      simp only [Option.isSome]
      rw [← hadd]
      rfl
    obtain ⟨out, hout⟩ := displayEnvelopes_total env hord hbar l1 (by rw [hacc]; exact hnext g2)
    refine ⟨(w.cdParent path).write (resolve w.cwd path) (text ++ '\n' :: t), l1, served, mss, _, ?_, rfl, rfl, s2, q2, rfl,
      fun g => absurd g hb, fun _ => ⟨?_, ?_⟩, hdec, hfmt, hlp, by rw [hacc]; exact g2, hda, out, hout, xs, ps, hxs, q4, hps', hdo⟩
    rotate_left
    · show (if _ then _ else _) = _
      rw [if_pos rfl, ← t2]
    · intro f hne
      show (if _ then _ else _) = _
      rw [if_neg hne]
      rfl
    · intro fs hj hn
      refine ⟨path, l, _, hj, by rw [hfu]; exact hload, Or.inr ⟨hn, ?_⟩⟩
      unfold Ledger.fillEnvelopes
      simp only [q1, hps]
      rw [if_neg (by simpa using hne)]
      exact happ

/-! ### C134 -/

/-- C134. With doubles, as the program has them: `silverfox envelopes` on a journal as in C122, with amounts of at most
eight decimals, small enough, and without an entry that touches an envelope without naming one and leaves the account,
or the accounts the envelope is for, as they were. The envelopes are served in the same order, and each should get what
C122 says, exactly: what is written for it is less than a hundred-millionth away from that, with at most eight decimals, and
only an envelope that should get less than a hundred-millionth is left out; one that rests is always left out. So an amount
that has eight decimals is written exactly (see `FillLine.exact`). The entry with these lines is added to the end of the
journal, if there are any, and nothing else changes on disk. -/
theorem C134_what_filling_writes_in_doubles (env : Env) (hord : FairOrder env.ord) (o : Outside) (w : World)
    (accs : List DeclAccount) (es : List BEntry) (text path day : Str) (h : EnvelopeJournal env accs es text)
    (hf : EnvelopesFit env.today accs es) (hr : w.read path = some text) (hfuel : o.fuel ≠ 0) (c : Str) (args : List Str)
    (fs : List Flag) (hc : c.head? = some 'e') (ha : Spelled fs args) (hj : journalFor o fs = some path)
    (hn : Flag.noMove ∉ fs) (hp : path.head? = some '/' ∨ '/' ∉ path)
    (hw : w.canAppend (resolve w.cwd path) = true)
    (hday : env.fmtDate env.today s%"%Y/%m/%d" = some day) (h0 : env.today ≠ Date.zero)
    (hcur : ∀ p ∈ accs, ∀ x ∈ p.2, ∀ y ∈ p.2, x.1.name = y.1.name → x.target.sym = y.target.sym)
    (hsb : SmallBooks accs es) (hbs : BothSides accs es) (hsf : SmallFills accs es) :
    ∃ (w' : World) (out : List Str) (served : List DeclAccount) (mss : List (List MLine)) (b : BEntry),
      mainProgram F64 env o (c :: args) w = (w', .ok out) ∧ w'.canAppend = w.canAppend ∧
      served.Perm accs ∧ List.Forall₂ (AccountFillsF env.today es) served mss ∧ b = fillOf env.today day mss.flatten ∧
      (b.lines = [] → w'.file = w.file) ∧
      (b.lines ≠ [] → w'.file (resolve w.cwd path) = some (text ++ b.addition) ∧
        ∀ f, f ≠ resolve w.cwd path → w'.file f = w.file f) := by
  obtain ⟨w', l, served, mss, b, k1, k2, _, k3, k4, k5, k6, k7, _, _, _, _, _, out, k8, _⟩ := filled_ledger env hord o w accs es text
    path day h hf hr hfuel hp hw hday h0 hcur hsb hbs hsf
  exact ⟨w', out, served, mss, b, C79_report_printed env o c args w _ _ .envelopes fs hc ha l (k1 fs hj hn) (.envelopes k8) (by simp)
    (by simp), k2, k3, k4, k5, k6, k7⟩

/-! ### Journals -/

/-- It is enough to look at all currencies together. -/
theorem small_fills_of_all {accs : List DeclAccount} {es : List BEntry}
    (h : ∀ p ∈ accs, ((p.2.length + 3 : Nat) : Rat) *
      ((((es.flatMap fun b => b.plain.weighed p.1).length + 2 * p.2.length + 3 : Nat) : Rat) *
        (((es.flatMap fun b => b.plain.weighed p.1).map Prod.snd).sum + 2 * (p.2.map fun x => heldWeight p.1 x es).sum) +
      (p.2.map (fillWeight p.1 es)).sum) * 100000000 ≤ 2 ^ 50) : SmallFills accs es := by
  intro p hp s
  refine le_trans ?_ (h p hp)
  have hsub : List.Sublist (availableWeights p s es) (((es.flatMap fun b => b.plain.weighed p.1).map Prod.snd) ++
      p.2.flatMap fun x => [heldWeight p.1 x es, heldWeight p.1 x es]) := by
    unfold availableWeights weighedIn
    rw [List.flatMap_map]
    exact (List.Sublist.map _ List.filter_sublist).append (List.Sublist.flatMap List.filter_sublist _)
  have hnn : ∀ w ∈ ((es.flatMap fun b => b.plain.weighed p.1).map Prod.snd) ++
      p.2.flatMap fun x => [heldWeight p.1 x es, heldWeight p.1 x es], 0 ≤ w := by
    intro w hw
    rcases List.mem_append.1 hw with h | h
    · obtain ⟨v, hv, rfl⟩ := List.mem_map.1 h
      obtain ⟨b, _, hv⟩ := List.mem_flatMap.1 hv
      exact weight_nonneg p.1 _ v hv
    · obtain ⟨x, _, hx⟩ := List.mem_flatMap.1 h
      simp only [List.mem_cons, List.not_mem_nil, or_false, or_self] at hx
      rw [hx]
      exact heldWeight_nonneg _ _ _
  have hl := hsub.length_le
  have hs := hsub.sum_le_sum hnn
  have h0 := List.sum_nonneg (availableWeights_nonneg p s es)
  have e1 : (p.2.flatMap fun x => [heldWeight p.1 x es, heldWeight p.1 x es]).length = 2 * p.2.length := by
    rw [List.length_flatMap]
    simp [Nat.mul_comm]
  have e2 : (p.2.flatMap fun x => [heldWeight p.1 x es, heldWeight p.1 x es]).sum = 2 * (p.2.map fun x => heldWeight p.1 x es).sum := by
    induction p.2 with
    | nil => simp
    | cons x xs ih =>
      rw [List.flatMap_cons, List.sum_append, ih]
      simp only [List.map_cons, List.sum_cons, List.sum_nil]
      ring
  rw [List.length_append, List.length_map, e1] at hl
  rw [List.sum_append, e2] at hs
  have hl : ((availableWeights p s es).length : Rat) + 3 ≤
      (((es.flatMap fun b => b.plain.weighed p.1).length + 2 * p.2.length + 3 : Nat) : Rat) := by exact_mod_cast Nat.add_le_add_right hl 3
  have hm : ((p.2.filter fun x => x.target.sym = s).length : Rat) + 3 ≤ ((p.2.length + 3 : Nat) : Rat) := by
    exact_mod_cast Nat.add_le_add_right (List.length_filter_le _ _) 3
  have hw0 : ∀ w ∈ p.2.map (fillWeight p.1 es), 0 ≤ w := by
    intro w hw
    obtain ⟨x, _, rfl⟩ := List.mem_map.1 hw
    have := fillWeight_one p.1 es x
    linarith
  have hwsub : List.Sublist ((p.2.filter fun x => decide (x.target.sym = s)).map (fillWeight p.1 es)) (p.2.map (fillWeight p.1 es)) :=
    List.Sublist.map _ List.filter_sublist
  have hf := hwsub.sum_le_sum hw0
  have hf0 : 0 ≤ ((p.2.filter fun x => x.target.sym = s).map (fillWeight p.1 es)).sum :=
    List.sum_nonneg fun w hw => hw0 w (hwsub.subset hw)
  have hl0 : (0 : Rat) ≤ (availableWeights p s es).length := Nat.cast_nonneg _
  exact mul_le_mul_of_nonneg_right (mul_le_mul hm
    (add_le_add (mul_le_mul hl hs h0 (Nat.cast_nonneg _)) hf)
    (add_nonneg (mul_nonneg (by linarith) h0) hf0) (Nat.cast_nonneg _)) (by norm_num)

/-- The journal of C122 meets the conditions. -/
example : EnvelopeJournal (stdEnv june15) exTripAccounts [exSalaryIn, exShopping, exSaving] exTripText ∧
    EnvelopesFit june15 exTripAccounts [exSalaryIn, exShopping, exSaving] ∧
    SmallBooks exTripAccounts [exSalaryIn, exShopping, exSaving] ∧
    BothSides exTripAccounts [exSalaryIn, exShopping, exSaving] ∧
    SmallFills exTripAccounts [exSalaryIn, exShopping, exSaving] :=
  ⟨exTripText_ok, exTrip_fits, small_books_of_all (by decide +kernel) (by decide +kernel) (by decide +kernel)
    (by decide +kernel), by unfold BothSides; decide +kernel, small_fills_of_all (by decide +kernel)⟩

/-- The same is written as with exact numbers. -/
example : (mainProgram F64 (stdEnv june15) exOutside [s%"envelopes", s%"-f", s%"j"]
      (disk [("j", String.ofList exTripText)])).1.file [s%"h", s%"j"] = some (exTripText ++
    s%"\n2024/06/15 ~ move to envelopes // automatically generated by silverfox\n    envelope bank trip                                 $ 12.5\n    envelope bank food                                 $ 32\n") := by
  decide +kernel

/-- A third of ten dollars has no end; eight decimals of it are written. -/
example : (mainProgram F64 (stdEnv june15) exOutside [s%"envelopes", s%"-f", s%"j"]
      (disk [("j", "account bank\n  goal trip by 2024/06/18\n    amount $10\n    funding conservative\naccount pay\n\n2024/06/01 * x\n bank $100\n pay $-100")])).1.file [s%"h", s%"j"] =
    some s%"account bank\n  goal trip by 2024/06/18\n    amount $10\n    funding conservative\naccount pay\n\n2024/06/01 * x\n bank $100\n pay $-100\n2024/06/15 ~ move to envelopes // automatically generated by silverfox\n    envelope bank trip                                 $ 3.33333333\n" := by
  decide +kernel

/-! ### Where rounding shows -/

def exDimes : String := "account bank\n  expense food due every 10th\n    amount $40\n    funding aggressive\naccount pay\n\n2024/06/01 * x\n bank $0.1\n pay $-0.1\n2024/06/02 * x\n bank $0.2\n pay $-0.2\n2024/06/03 * x\n bank $0\n pay $0\n envelope bank food $0.3"

/-- C134. An envelope that should get nothing may have a line: ten and twenty cents in the bank are a little more than the
thirty in the envelope, and that little is moved, and written as `$ 0`. With exact numbers the file stays as it is. -/
theorem C134_a_residue_is_written :
    (mainProgram Rat (stdEnv june15) exOutside [s%"envelopes", s%"-f", s%"j"] (disk [("j", exDimes)])).1.file [s%"h", s%"j"] =
      some exDimes.toList ∧
    (mainProgram F64 (stdEnv june15) exOutside [s%"envelopes", s%"-f", s%"j"] (disk [("j", exDimes)])).1.file [s%"h", s%"j"] =
      some (exDimes.toList ++ s%"\n2024/06/15 ~ move to envelopes // automatically generated by silverfox\n    envelope bank food                                 $ 0\n") := by
  constructor <;> decide +kernel

def exYearly : String := "account bank\n  goal trip due every year starting 2023/06/15\n    amount $10\n    funding conservative\naccount pay\n\n2024/06/01 * x\n bank $100\n pay $-100"

/-- C134. An envelope to be filled bit by bit that is due today, so that no days are left: with doubles the quotient by
nothing is infinite, and the envelope gets all that is missing. The rational numbers of C122 have nothing for that
quotient but zero. (See `wishBy`.) -/
theorem C134_due_today_gets_all :
    (mainProgram Rat (stdEnv june15) exOutside [s%"envelopes", s%"-f", s%"j"] (disk [("j", exYearly)])).1.file [s%"h", s%"j"] =
      some exYearly.toList ∧
    (mainProgram F64 (stdEnv june15) exOutside [s%"envelopes", s%"-f", s%"j"] (disk [("j", exYearly)])).1.file [s%"h", s%"j"] =
      some (exYearly.toList ++ s%"\n2024/06/15 ~ move to envelopes // automatically generated by silverfox\n    envelope bank trip                                 $ 10\n") := by
  constructor <;> decide +kernel

/-- C76. The bar of an envelope whose goal is nothing: with doubles, nothing by nothing is no number, and the bar is full;
so it is for any amount that is not less than nothing. The rational numbers have nothing for that quotient but zero, and
the bar is empty; so C76, C121, C122 and C133 say nothing of the bars of such an envelope but that they have forty cells. -/
theorem C76_share_of_nothing :
    (∃ out, (mainProgram Rat (stdEnv june15) exOutside [s%"envelopes", s%"-f", s%"j", s%"-n"]
      (disk [("j", "account bank\n  goal trip by 2024/06/18\n    amount $0")])).2 = .ok out ∧ out[4]? =
        some s%"      now                                       $ 0 / $ 0 |                                        |") ∧
    ∃ out, (mainProgram F64 (stdEnv june15) exOutside [s%"envelopes", s%"-f", s%"j", s%"-n"]
      (disk [("j", "account bank\n  goal trip by 2024/06/18\n    amount $0")])).2 = .ok out ∧ out[4]? =
        some s%"      now                                       $ 0 / $ 0 |════════════════════════════════════════|" := by
  constructor <;> decide +kernel

end Silverfox
