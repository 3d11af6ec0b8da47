import Verif.Props.FillText
import Verif.Props.EnvelopeCent
import Verif.Props.Reports
import Verif.Props.CloseTo

/-
C134: what filling the envelopes writes, with doubles.
-/

namespace Silverfox

set_option linter.unusedSectionVars false

/-! ### Specification -/

/-- Specification: what an envelope wishes; on the day it is due, all that is missing. -/
def wishBy (today due : Date) (x : MeantDecl Rat) (next : Rat) : Rat :=
  if x.way = .conservative ∧ due = today then x.target.mag - next else wishOf today due x next

/-- Specification: what an envelope gets if `left` is left of its currency; see `FillOf`. -/
def FillBy (today : Date) (k : Str) (es : List BEntry) (x : MeantDecl Rat) (left f : Rat) : Prop :=
  (Rests today k es x → f = 0) ∧
  (¬ Rests today k es x → ∃ last due, x.2.1.lastDue today = .ok last ∧ IsDue today x (some due) ∧
    f = max (min (wishBy today due x (nextOf last k x es)) left) (max (-heldOf k x es) 0))

/-- Specification: the envelopes get something one after the other. -/
inductive FillsBy (today : Date) (k : Str) (es : List BEntry) :
    List (MeantDecl Rat) → (Option Str → Rat) → List Rat → Prop
  | nil (left) : FillsBy today k es [] left []
  | cons {x xs left f fs} : FillBy today k es x (left x.target.sym) f →
      FillsBy today k es xs (fun s => left s - if x.target.sym = s then f else 0) fs →
      FillsBy today k es (x :: xs) left (f :: fs)

/-- Specification: the line for an envelope that should get `f`: none only if that is less than a hundred-millionth;
otherwise an amount of at most eight decimals, less than a hundred-millionth from `f`. -/
def FillLine (today : Date) (k : Str) (es : List BEntry) (xf : MeantDecl Rat × Rat) : Option MLine → Prop
  | none => |xf.2| < 1 / 100000000
  | some m => ¬ Rests today k es xf.1 ∧ ∃ t u r, m = moveLine k xf.1 r t ∧ (t = u ∨ t = ' ' :: u) ∧
      WrittenAmount u r xf.1.target.sym ∧ (∃ i : Int, r = i / 100000000) ∧ |r - xf.2| < 1 / 100000000

/-- Specification: the lines for an account. -/
def AccountFillsF (today : Date) (es : List BEntry) (p : DeclAccount) (ms : List MLine) : Prop :=
  ∃ fs os, FillsBy today p.1 es (serving p.2) (fun s => availableOf p s es) fs ∧
    List.Forall₂ (FillLine today p.1 es) ((serving p.2).zip fs) os ∧ ms = os.filterMap id

/-- Specification: how much the rounding of what an envelope gets counts. -/
def fillWeight (k : Str) (es : List BEntry) (x : MeantDecl Rat) : Rat :=
  |x.target.mag| + 2 * heldWeight k x es + 1 / 100000000

/-- Specification: amounts so small, and envelopes so few, that rounding is less than a hundred-millionth. -/
def SmallFills (accs : List DeclAccount) (es : List BEntry) : Prop :=
  ∀ p ∈ accs, ∀ s, ((p.2.filter fun x => x.target.sym = s).length + 3) *
    (((availableWeights p s es).length + 3) * (availableWeights p s es).sum +
      ((p.2.filter fun x => x.target.sym = s).map (fillWeight p.1 es)).sum) * 100000000 ≤ (2 ^ 50 : Rat)

/-- Specification: an entry that touches an envelope without naming one changes both sides: the account, and the
accounts the envelope is for. -/
def BothSides (accs : List DeclAccount) (es : List BEntry) : Prop :=
  ∀ p ∈ accs, ∀ x ∈ p.2, ∀ b ∈ es, b.moves = [] → b.Touches p.1 x → b.plain.gain (fun n => n == p.1) ≠ 0 ∧
    b.plain.gain (fun n => n != p.1 && x.fors.contains n) ≠ 0

theorem BothSides.decided {accs : List DeclAccount} {es : List BEntry} (h : BothSides accs es) : Decided accs es :=
  fun p hp x hx b hb h1 h2 h3 => absurd h3 (h p hp x hx b hb h1 h2).1

/-- If the exact amount has at most eight decimals, exactly that is written. -/
theorem FillLine.exact {today : Date} {k : Str} {es : List BEntry} {x : MeantDecl Rat} {f : Rat} {o : Option MLine}
    (h : FillLine today k es (x, f) o) (hf : ∃ i : Int, f = i / 100000000) :
    (o = none → f = 0) ∧ ∀ m, o = some m → ∃ t u, m = moveLine k x f t ∧ (t = u ∨ t = ' ' :: u) ∧
      WrittenAmount u f x.target.sym := by
  obtain ⟨i, rfl⟩ := hf
  have whole : ∀ j : Int, |(j : Rat) / 100000000| < 1 / 100000000 → j = 0 := by
    intro j hj
    rw [abs_div, abs_of_pos (show (0 : Rat) < 100000000 by norm_num), div_lt_div_iff_of_pos_right (by norm_num)] at hj
    have : |j| < 1 := by exact_mod_cast hj
    exact Int.abs_lt_one_iff.1 this
  constructor
  · rintro rfl
    rw [whole i h]; simp
  · rintro m rfl
    obtain ⟨_, t, u, r, h1, h2, h3, ⟨j, rfl⟩, h5⟩ := h
    rw [← sub_div, ← Int.cast_sub] at h5
    have := whole _ h5
    have : j = i := by omega
    subst this
    exact ⟨t, u, h1, h2, h3⟩

/-! ### One envelope -/

theorem heldOf_abs {today : Date} {k : Str} {es : List BEntry} {x : MeantDecl Rat} {e : Envelope F64}
    (h : EnvelopeNear today k es x e) :
    ∃ (G N E : Int) (W : Nat), x.target.mag * 100000000 = G ∧ nowOf (lastOf today x) k x es * 100000000 = N ∧
      nextOf (lastOf today x) k x es * 100000000 = E ∧ fillWeight k es x * 100000000 = (G.natAbs : Rat) + 2 * W + 1 ∧
      NearTo e.amount.mag G G.natAbs ∧ NearTo e.now.mag N W ∧ NearTo e.next.mag E W ∧
      4 * G.natAbs ≤ 2 ^ 51 ∧ 10 * W ≤ 2 ^ 51 := by
  obtain ⟨G, g1, g2, g3⟩ := h.goal
  obtain ⟨N, E, W, n1, n2, n3, n4, n5, n6⟩ := h.held
  refine ⟨G, N, E, W, g1, n1, n2, ?_, g3, n5, n6, g2, n4⟩
  unfold fillWeight
  have : |x.target.mag| * 100000000 = (G.natAbs : Rat) := by
    rw [Nat.cast_natAbs, Int.cast_abs, ← g1, abs_mul]; norm_num
  rw [add_mul, add_mul, this, mul_assoc, n3]
  norm_num

/-- The fill in doubles is near the exact one; the error of what is left grows a little. -/
theorem fill_close {today : Date} {k : Str} {es : List BEntry} {x : MeantDecl Rat} {e : Envelope F64}
    (h : EnvelopeNear today k es x e) (hl : x.2.1.lastDue today = .ok (lastOf today x))
    (hdue : ∃ d, e.nextDue today = .ok d ∧ IsDue today x d) (hskip : e.Skipped today ↔ Rests today k es x)
    {av a : Amount F64} (ha : e.fillingAmount today av = .ok a) {L E : Rat} (hL : Close av.mag (L * 100000000) E) :
    ∃ f, FillBy today k es x L f ∧ a.sym = x.target.sym ∧ a.mag.finite = true ∧
      (Rests today k es x → a.mag = F64.zero) ∧ 0 ≤ f ∧ f * 100000000 ≤ fillWeight k es x * 100000000 ∧
      |a.mag.value * 100000000 - f * 100000000| ≤ max (3 * (fillWeight k es x * 100000000) / 2 ^ 52) E ∧
      |(av.mag.value * 100000000 - a.mag.value * 100000000) - (L * 100000000 - f * 100000000)| ≤
        E + 3 * (fillWeight k es x * 100000000) / 2 ^ 52 := by
  obtain ⟨G, N, D, W, g1, n1, n2, hT, hg, hn, hd, bG, bW⟩ := heldOf_abs h
  obtain ⟨a1, a2, a3⟩ := fillingAmount_ok today e av a ha
  have hE := hL.nonneg
  have hG0 : (0 : Rat) ≤ G.natAbs := Nat.cast_nonneg _
  have hW0 : (0 : Rat) ≤ W := Nat.cast_nonneg _
  have hG1 : |(G : Rat)| ≤ G.natAbs := by rw [Nat.cast_natAbs, Int.cast_abs]
  have abs_w : ∀ {z : Int}, z.natAbs ≤ W → |(z : Rat)| ≤ W := by
    intro z hz
    rw [← Int.cast_abs, ← Nat.cast_natAbs]
    exact_mod_cast hz
  have hN1 := abs_w hn.2.2
  have hD1 := abs_w hd.2.2
  have bG' : (4 : Rat) * G.natAbs ≤ 2 ^ 51 := by exact_mod_cast bG
  have bW' : (10 : Rat) * W ≤ 2 ^ 51 := by exact_mod_cast bW
  rw [hT]
  generalize hg' : ((G.natAbs : Nat) : Rat) = g at *
  generalize hw' : (W : Rat) = v at *
  have cg : Close e.amount.mag G (g / 2 ^ 52) := by have := hg.close; rwa [hg'] at this
  have cn : Close e.now.mag N (v / 2 ^ 52) := by have := hn.close; rwa [hw'] at this
  have cd : Close e.next.mag D (v / 2 ^ 52) := by have := hd.close; rwa [hw'] at this
  rcases a3 with ⟨s1, s2⟩ | ⟨s1, _, due, s3, s4⟩
  · refine ⟨0, ⟨fun _ => rfl, fun g => absurd (hskip.1 s1) g⟩, a2.trans h.read.sym, ?_, fun _ => s2, le_refl _, ?_, ?_, ?_⟩
    · rw [s2]; rfl
    · rw [zero_mul]; linarith
    · rw [s2]
      show |F64.zero.value * _ - _| ≤ _
      rw [F64.value_zero]
      simp only [zero_mul, sub_zero, abs_zero]
      exact le_trans hE (le_max_right _ _)
    · rw [s2]
      show |_ - F64.zero.value * _ - _| ≤ _
      rw [F64.value_zero]
      simp only [zero_mul, sub_zero]
      have := hL.2
      have : (0 : Rat) ≤ 3 * (g + 2 * v + 1) / 2 ^ 52 := div_nonneg (by linarith) (by norm_num)
      linarith
  · have hrests : ¬ Rests today k es x := fun c => s1 (hskip.2 c)
    obtain ⟨d, hd1, hd2⟩ := hdue
    rw [s3] at hd1; cases hd1
    have hb1 := abs_le.1 hG1
    have hb2 := abs_le.1 hN1
    have hb3 := abs_le.1 hD1
    -- what is missing
    have cr : Close (F64.add e.amount.mag (F64.neg e.next.mag)) (G + -D) (2 * (g + v) / 2 ^ 52) := by
      refine (cg.add cd.neg (S := g + v) (by rw [abs_le]; constructor <;> linarith) ?_).mono ?_
      · linarith
      · linarith
    have ct : Close e.totalMag (N + D) (3 * (2 * v) / 2 ^ 52) := by
      refine (cn.add cd (S := 2 * v) (by rw [abs_le]; constructor <;> linarith) ?_).mono ?_
      · linarith
      · linarith
    have hheld : heldOf k x es * 100000000 = N + D := by
      rw [held_split (lastOf today x), add_mul, n1, n2]
    obtain ⟨δ, hδ⟩ : ∃ δ : Rat, δ = 3 * (g + 2 * v + 1) / 2 ^ 52 := ⟨_, rfl⟩
    have tail : ∀ w w' : Rat, |w' * 100000000 - w * 100000000| ≤ δ → w * 100000000 ≤ g + 2 * v + 1 →
        wishBy today due x (nextOf (lastOf today x) k x es) = w → a.mag.finite = true →
        a.mag.value = Max.max (Min.min w' av.mag.value) (Max.max (-e.totalMag.value) 0) →
        ∃ f, FillBy today k es x L f ∧ a.sym = x.target.sym ∧ a.mag.finite = true ∧
          (Rests today k es x → a.mag = F64.zero) ∧ 0 ≤ f ∧ f * 100000000 ≤ g + 2 * v + 1 ∧
          |a.mag.value * 100000000 - f * 100000000| ≤ max (3 * (g + 2 * v + 1) / 2 ^ 52) E ∧
          |(av.mag.value * 100000000 - a.mag.value * 100000000) - (L * 100000000 - f * 100000000)| ≤
            E + 3 * (g + 2 * v + 1) / 2 ^ 52 := by
      intro w w' hw hwT hwish hfin hval
      have c0 : (0 : Rat) ≤ 100000000 := by norm_num
      have ev : a.mag.value * 100000000 = Max.max (Min.min (w' * 100000000) (av.mag.value * 100000000))
          (Max.max (-e.totalMag.value * 100000000) 0) := by
        rw [hval, max_mul_of_nonneg _ _ c0, max_mul_of_nonneg _ _ c0, min_mul_of_nonneg _ _ c0, zero_mul]
      have ef : Max.max (Min.min w L) (Max.max (-heldOf k x es) 0) * 100000000 =
          Max.max (Min.min (w * 100000000) (L * 100000000)) (Max.max (-(N + D)) 0) := by
        rw [max_mul_of_nonneg _ _ c0, max_mul_of_nonneg _ _ c0, min_mul_of_nonneg _ _ c0, zero_mul, neg_mul, hheld]
      have ho : |-e.totalMag.value * 100000000 - -((N : Rat) + D)| ≤ δ := by
        have := ct.2
        rw [show -e.totalMag.value * 100000000 - -((N : Rat) + D) = -(e.totalMag.value * 100000000 - (N + D)) by ring, abs_neg]
        refine le_trans this ?_
        rw [hδ]
        refine div_le_div_of_nonneg_right ?_ (by norm_num)
        linarith
      obtain ⟨f1, f2⟩ := fill_lipschitz hw hL.2 ho
      refine ⟨Max.max (Min.min w L) (Max.max (-heldOf k x es) 0), ⟨fun c => absurd c hrests, fun _ =>
        ⟨_, due, hl, hd2, by rw [hwish]⟩⟩, a2.trans h.read.sym, hfin, fun c => absurd c hrests,
        le_trans (le_max_right _ _) (le_max_right _ _), ?_, ?_, ?_⟩
      · rw [ef]
        refine max_le (le_trans (min_le_left _ _) hwT) (max_le ?_ ?_)
        · linarith
        · linarith
      · rw [ef, ev, ← hδ]; exact f1
      · rw [ef, ev, ← hδ]; exact f2
    have hrest : (F64.add e.amount.mag (F64.neg e.next.mag)).value * 100000000 - (x.target.mag - nextOf (lastOf today x) k x es) * 100000000 =
        (F64.add e.amount.mag (F64.neg e.next.mag)).value * 100000000 - (G + -D) := by
      rw [sub_mul, g1, n2]; ring
    have hrest' : (x.target.mag - nextOf (lastOf today x) k x es) * 100000000 = G + -D := by
      rw [sub_mul, g1, n2]; ring
    have hδr : 2 * (g + v) / 2 ^ 52 ≤ δ := by
      rw [hδ]; refine div_le_div_of_nonneg_right ?_ (by norm_num); linarith
    have hδg : g / 2 ^ 52 ≤ δ := by
      rw [hδ]; refine div_le_div_of_nonneg_right ?_ (by norm_num); linarith
    change a.mag = Envelope.fillMag (e.instalment today due) av.mag (F64.add e.amount.mag (F64.neg e.next.mag)) e.totalMag at s4
    unfold Envelope.instalment at s4
    rw [h.read.funding] at s4
    cases hway : x.way with
    | manual =>
      exact absurd (Or.inl hway) hrests
    | aggressive =>
      rw [hway] at s4
      simp only at s4
      obtain ⟨v1, v2⟩ := fill_value cg.1 hL.1 cr.1 ct.1
      rw [← s4] at v1 v2
      refine tail _ _ ?_ ?_ rfl v1 v2
      · unfold wishBy wishOf
        rw [if_neg (by rw [hway]; simp), hway]
        simp only
        have c0 : (0 : Rat) ≤ 100000000 := by norm_num
        rw [min_mul_of_nonneg _ _ c0, min_mul_of_nonneg _ _ c0]
        refine abs_min_sub_le ?_ ?_
        · rw [g1]; exact le_trans cg.2 hδg
        · rw [hrest]; exact le_trans cr.2 hδr
      · unfold wishBy wishOf
        rw [if_neg (by rw [hway]; simp), hway]
        simp only
        refine le_trans (mul_le_mul_of_nonneg_right (min_le_left _ _) (by norm_num)) ?_
        rw [g1]; linarith
    | conservative =>
      rw [hway] at s4
      simp only at s4
      by_cases htoday : due = today
      · have hz : Date.daysSince due today = 0 := by rw [Date.daysSince_eq, htoday]; omega
        rw [hz] at s4
        obtain ⟨v1, v2⟩ := fill_value_today (rest := F64.add e.amount.mag (F64.neg e.next.mag)) hL.1 cr.1 ct.1
        have s4 : a.mag = Envelope.fillMag (F64.div (F64.add e.amount.mag (F64.neg e.next.mag)) (F64.ofInt 0)) av.mag
          (F64.add e.amount.mag (F64.neg e.next.mag)) e.totalMag := s4
        rw [← s4] at v1 v2
        refine tail _ _ ?_ ?_ rfl v1 v2
        · unfold wishBy
          rw [if_pos ⟨hway, htoday⟩, hrest]
          exact le_trans cr.2 hδr
        · unfold wishBy
          rw [if_pos ⟨hway, htoday⟩, hrest']
          linarith
      · have hnz : Date.daysSince due today ≠ 0 := by
          rw [Date.daysSince_eq]
          intro h0
          exact htoday (Date.dayNum_inj (by omega))
        obtain ⟨d1, d2⟩ := ofInt_days (Date.daysSince due today) (days_small _ _)
        have h1 : (1 : Rat) ≤ |((Date.daysSince due today : Int) : Rat)| := by
          rw [← Int.cast_abs]
          exact_mod_cast Int.one_le_abs hnz
        have cq := cr.div d1 d2 h1 (S := g + v) (by rw [abs_le]; constructor <;> linarith) (by linarith)
        obtain ⟨v1, v2⟩ := fill_value cq.1 hL.1 cr.1 ct.1
        have s4 : a.mag = Envelope.fillMag (F64.div (F64.add e.amount.mag (F64.neg e.next.mag))
          (F64.ofInt (Date.daysSince due today))) av.mag (F64.add e.amount.mag (F64.neg e.next.mag)) e.totalMag := s4
        rw [← s4] at v1 v2
        have c0 : (0 : Rat) ≤ 100000000 := by norm_num
        refine tail _ _ ?_ ?_ rfl v1 v2
        · unfold wishBy wishOf
          rw [if_neg (fun c => htoday c.2), hway]
          simp only
          rw [min_mul_of_nonneg _ _ c0, min_mul_of_nonneg _ _ c0]
          refine abs_min_sub_le ?_ ?_
          · rw [div_mul_eq_mul_div (x.target.mag - _), hrest']
            refine le_trans cq.2 ?_
            rw [hδ]
            linarith
          · rw [hrest]; exact le_trans cr.2 hδr
        · unfold wishBy wishOf
          rw [if_neg (fun c => htoday c.2), hway]
          simp only
          refine le_trans (mul_le_mul_of_nonneg_right (min_le_right _ _) c0) ?_
          rw [hrest']; linarith

/-! ### The envelopes of an account -/

/-- What is known of an envelope before it is filled. -/
structure Fillable (today : Date) (k : Str) (es : List BEntry) (x : MeantDecl Rat) (e : Envelope F64) : Prop where
  near : EnvelopeNear today k es x e
  last : x.2.1.lastDue today = .ok (lastOf today x)
  due : ∃ d, e.nextDue today = .ok d ∧ IsDue today x d
  rests : e.Skipped today ↔ Rests today k es x

/-- What is known of the posting for it. -/
structure FilledWith (today : Date) (k : Str) (es : List BEntry) (xf : MeantDecl Rat × Rat) (q : EnvPosting F64) : Prop where
  account : q.account = k
  envelope : q.envelope = xf.1.1.name
  sym : q.amount.sym = xf.1.target.sym
  finite : q.amount.mag.finite = true
  rests : Rests today k es xf.1 → q.amount.mag = F64.zero
  close : |q.amount.mag.value * 100000000 - xf.2 * 100000000| ≤ 1 / 4
  small : |q.amount.mag.value| * 100000000 ≤ 2 ^ 50

/-- What a pool has left of a currency after something is taken out of it. -/
theorem left_close (p : Pool F64) (a : Amount F64) {L f E δ Z : Rat} (hf : a.mag.finite = true)
    (hp : (p.only a.sym).mag.finite = true)
    (h : |((p.only a.sym).mag.value * 100000000 - a.mag.value * 100000000) - (L * 100000000 - f * 100000000)| ≤ E + δ)
    (hb : |L * 100000000 - f * 100000000| ≤ Z) (hE : E + δ ≤ 1) (hZ : 1 ≤ Z) (hZ2 : Z ≤ 2 ^ 50) :
    Close ((Pool.subAssign p a).only a.sym).mag ((L - f) * 100000000) (E + δ + Z / 2 ^ 52) := by
  have h1 := abs_le.1 h
  have h2 := abs_le.1 hb
  have h0 : 0 ≤ E + δ := le_trans (abs_nonneg _) h
  rcases only_subAssign_same p a with g | ⟨gz, g⟩
  · rw [g]
    have hn : (F64.neg a.mag).finite = true := by rw [F64.finite_neg]; exact hf
    have hs : F64.sub (p.only a.sym).mag a.mag = F64.add (p.only a.sym).mag (F64.neg a.mag) := rfl
    rw [hs]
    have hv : (p.only a.sym).mag.value + (F64.neg a.mag).value = (p.only a.sym).mag.value - a.mag.value := by
      rw [F64.value_neg]; ring
    have hab : |(p.only a.sym).mag.value - a.mag.value| * 100000000 ≤ 2 * Z := by
      rw [← abs_of_pos (show (0 : Rat) < 100000000 by norm_num), ← abs_mul, abs_le]
      constructor <;> linarith
    have hle : |(p.only a.sym).mag.value + (F64.neg a.mag).value| ≤ 2 ^ 1023 := by
      obtain ⟨K, eK, hK⟩ := large_1023
      rw [hv, eK]
      clear eK
      have := abs_nonneg ((p.only a.sym).mag.value - a.mag.value)
      have : (2 : Rat) ^ 51 ≤ 2 ^ 100 := by norm_num
      linarith
    obtain ⟨e1, e2⟩ := add_err _ _ hp hn hle
    clear hle
    refine ⟨e1, ?_⟩
    rw [hv] at e2
    have h3 := abs_le.1 e2
    generalize |(p.only a.sym).mag.value - a.mag.value| = T at *
    generalize (F64.add (p.only a.sym).mag (F64.neg a.mag)).value = r at *
    have : T / 2 ^ 53 * 100000000 ≤ Z / 2 ^ 52 := by
      have := div_le_div_of_nonneg_right hab (show (0 : Rat) ≤ 2 ^ 53 by norm_num)
      have e : 2 * Z / 2 ^ 53 = Z / 2 ^ 52 := by ring
      linarith
    rw [abs_le]
    constructor <;> linarith
  · rw [gz, F64.value_zero] at h1
    rw [g]
    refine ⟨by rw [F64.finite_neg]; exact hf, ?_⟩
    rw [F64.value_neg, abs_le]
    have : 0 ≤ Z / 2 ^ 52 := div_nonneg (by linarith) (by norm_num)
    constructor <;> linarith

theorem fillWeight_one (k : Str) (es : List BEntry) (x : MeantDecl Rat) : 1 ≤ fillWeight k es x * 100000000 := by
  unfold fillWeight
  have h1 := abs_nonneg x.target.mag
  have h2 := heldWeight_nonneg k x es
  rw [add_mul, add_mul]
  norm_num
  positivity

/-- The errors that are still to come, in a currency. -/
def toCome (k : Str) (es : List BEntry) (Z : Rat) (s : Option Str) (xs : List (MeantDecl Rat)) : Rat :=
  ((xs.filter fun x => x.target.sym = s).map fun x => (3 * (fillWeight k es x * 100000000) + Z) / 2 ^ 52).sum

/-- What the envelopes still to come may take, in a currency. -/
def toTake (k : Str) (es : List BEntry) (s : Option Str) (xs : List (MeantDecl Rat)) : Rat :=
  ((xs.filter fun x => x.target.sym = s).map fun x => fillWeight k es x * 100000000).sum

theorem toTake_cons (k : Str) (es : List BEntry) (s : Option Str) (x : MeantDecl Rat) (xs : List (MeantDecl Rat)) :
    toTake k es s (x :: xs) = (if x.target.sym = s then fillWeight k es x * 100000000 else 0) + toTake k es s xs := by
  unfold toTake
  by_cases h : x.target.sym = s
  · rw [List.filter_cons_of_pos (by simpa using h), if_pos h]; simp
  · rw [List.filter_cons_of_neg (by simpa using h), if_neg h]; simp

theorem toCome_cons (k : Str) (es : List BEntry) (Z : Rat) (s : Option Str) (x : MeantDecl Rat) (xs : List (MeantDecl Rat)) :
    toCome k es Z s (x :: xs) =
      (if x.target.sym = s then (3 * (fillWeight k es x * 100000000) + Z) / 2 ^ 52 else 0) + toCome k es Z s xs := by
  unfold toCome
  by_cases h : x.target.sym = s
  · rw [List.filter_cons_of_pos (by simpa using h), if_pos h]; simp
  · rw [List.filter_cons_of_neg (by simpa using h), if_neg h]; simp

theorem toTake_nonneg (k : Str) (es : List BEntry) (s : Option Str) (xs : List (MeantDecl Rat)) : 0 ≤ toTake k es s xs := by
  refine List.sum_nonneg fun v hv => ?_
  obtain ⟨x, _, rfl⟩ := List.mem_map.1 hv
  exact le_trans zero_le_one (fillWeight_one k es x)

theorem toCome_nonneg (k : Str) (es : List BEntry) {Z : Rat} (hZ : 0 ≤ Z) (s : Option Str) (xs : List (MeantDecl Rat)) :
    0 ≤ toCome k es Z s xs := by
  refine List.sum_nonneg fun v hv => ?_
  obtain ⟨x, _, rfl⟩ := List.mem_map.1 hv
  have := fillWeight_one k es x
  exact div_nonneg (by linarith) (by norm_num)

theorem loop_fills {today : Date} {k : Str} {es : List BEntry} {xs : List (MeantDecl Rat)} {as : List (Envelope F64)}
    (hall : List.Forall₂ (Fillable today k es) xs as) {avail : Pool F64} {left Er S Z : Option Str → Rat}
    (hav : ∀ s, Close (avail.only s).mag (left s * 100000000) (Er s)) (hS : ∀ s, |left s * 100000000| ≤ S s)
    (hZ : ∀ s, S s + toTake k es s xs ≤ Z s) (hE : ∀ s, Er s + toCome k es (Z s) s xs ≤ 1 / 4)
    (hZ0 : ∀ s, 0 ≤ Z s ∧ Z s ≤ 2 ^ 49) {ps : List (EnvPosting F64)} (hps : Account.fillLoop today as avail = .ok ps) :
    ∃ fs, FillsBy today k es xs left fs ∧ fs.length = xs.length ∧
      List.Forall₂ (FilledWith today k es) (xs.zip fs) ps := by
  induction hall generalizing avail left Er S ps with
  | nil => cases hps; exact ⟨[], .nil _, rfl, .nil⟩
  | @cons x e xs as h1 _ ih =>
    obtain ⟨q, ps', rfl, hq, hr⟩ := fillLoop_cons today e as avail ps hps
    obtain ⟨q1, q2, q3⟩ := fillingPosting_ok today e avail q hq
    have hsym := h1.near.read.sym
    rw [hsym] at q3
    obtain ⟨f, f1, f2, f3, f4, f5, f6, f7, f8⟩ := fill_close h1.near h1.last h1.due h1.rests q3 (hav x.target.sym)
    have hT := fillWeight_one k es x
    obtain ⟨T, eT⟩ : ∃ T, fillWeight k es x * 100000000 = T := ⟨_, rfl⟩
    have hEx := hE x.target.sym
    have hZx := hZ x.target.sym
    rw [toCome_cons, if_pos rfl] at hEx
    rw [toTake_cons, if_pos rfl] at hZx
    rw [eT] at f6 f7 f8 hT hEx hZx
    have c1 := toCome_nonneg k es (hZ0 x.target.sym).1 x.target.sym xs
    have c2 := toTake_nonneg k es x.target.sym xs
    have c3 := (hav x.target.sym).nonneg
    have c4 : 0 ≤ S x.target.sym := le_trans (abs_nonneg _) (hS x.target.sym)
    obtain ⟨z0, z1⟩ := hZ0 x.target.sym
    have hsx := abs_le.1 (hS x.target.sym)
    generalize hZz : Z x.target.sym = z at *
    have hδ : 3 * T / 2 ^ 52 + Er x.target.sym ≤ 1 / 4 := by
      have : (3 * T + z) / 2 ^ 52 = 3 * T / 2 ^ 52 + z / 2 ^ 52 := by ring
      have : 0 ≤ z / 2 ^ 52 := div_nonneg z0 (by norm_num)
      linarith
    have hδ0 : 0 ≤ 3 * T / 2 ^ 52 := div_nonneg (by linarith) (by norm_num)
    have hclose : |q.amount.mag.value * 100000000 - f * 100000000| ≤ 1 / 4 :=
      le_trans f7 (max_le (by linarith) (by linarith))
    have hleft : Close ((Pool.subAssign avail q.amount).only x.target.sym).mag ((left x.target.sym - f) * 100000000)
        (Er x.target.sym + 3 * T / 2 ^ 52 + z / 2 ^ 52) := by
      have f0 : 0 ≤ f * 100000000 := by linarith
      have hm := hav x.target.sym
      rw [← f2] at f8 hm ⊢
      refine left_close avail q.amount f3 hm.1 f8 ?_ ?_ ?_ ?_
      · rw [f2, abs_le]; constructor <;> linarith
      · rw [f2]; linarith
      · linarith
      · linarith
    obtain ⟨fs, g1, g2, g3⟩ := ih (avail := Pool.subAssign avail q.amount)
      (left := fun s => left s - if x.target.sym = s then f else 0)
      (Er := fun s => Er s + if x.target.sym = s then (3 * T + z) / 2 ^ 52 else 0)
      (S := fun s => S s + if x.target.sym = s then T else 0)
      (by
        intro s
        by_cases hs : x.target.sym = s
        · subst hs
          rw [if_pos rfl, if_pos rfl]
          refine hleft.mono (le_of_eq ?_)
          ring
        · rw [if_neg hs, if_neg hs, sub_zero, add_zero, only_subAssign_other _ _ _ (by rw [f2]; exact hs)]
          exact hav s)
      (by
        intro s
        by_cases hs : x.target.sym = s
        · subst hs
          rw [if_pos rfl, if_pos rfl, abs_le]
          constructor <;> linarith
        · rw [if_neg hs, if_neg hs, sub_zero, add_zero]
          exact hS s)
      (by
        intro s
        have := hZ s
        rw [toTake_cons, eT] at this
        linarith)
      (by
        intro s
        have := hE s
        rw [toCome_cons, eT] at this
        by_cases hs : x.target.sym = s
        · subst hs
          rw [if_pos rfl, hZz] at this
          rw [if_pos rfl, hZz]
          linarith
        · rw [if_neg hs] at this ⊢
          linarith)
      hr
    refine ⟨f :: fs, .cons f1 g1, by simp [g2], .cons ⟨q1.trans h1.near.read.account, q2.trans h1.near.read.name, f2, f3, f4, hclose, ?_⟩ g3⟩
    have := abs_le.1 hclose
    rw [← abs_of_pos (show (0 : Rat) < 100000000 by norm_num), ← abs_mul, abs_le]
    constructor <;> linarith

end Silverfox
