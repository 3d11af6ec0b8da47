import Verif.Props.RegisterExact
import Verif.Props.PricedDoubles

/-
C130: with doubles, the register of a priced journal in several files is exact to the last digit, for whatever accounts and
days it is asked.
-/

namespace Silverfox

set_option linter.unusedSectionVars false

/-! ### Specification -/

/-- Specification: the entries in the order of their days; those of one day as they were. -/
structure ByDay (given es : List QEntry) : Prop where
  sorted : es.Pairwise fun a b => Date.lt b.day a.day = false
  same : es.Perm given
  stable : ∀ d : Date, (es.filter fun e => e.day = d) = given.filter fun e => e.day = d

/-- Specification: what the lines of an entry bring to the accounts in focus, with the weights of their rounding. -/
def QEntry.touches (am : Option Str) (r : QEntry → Rat × Option Str) (e : QEntry) : List ((Rat × Option Str) × Rat) :=
  e.lines.filterMap fun l => if InFocus am l.account then some (l.value.getD (r e), e.weight l) else none

/-- Specification: by how much an entry changes the accounts in focus, in a currency. -/
def QEntry.changeIn (am : Option Str) (r : QEntry → Rat × Option Str) (s : Option Str) (e : QEntry) : Rat :=
  ((e.touches am r).map fun v => if v.1.2 = s then v.1.1 else 0).sum

/-- Specification: how much the rounding of the change counts. -/
def QEntry.sway (am : Option Str) (r : QEntry → Rat × Option Str) (s : Option Str) (e : QEntry) : Rat :=
  (((e.touches am r).filter fun v => v.1.2 = s).length + 2) * (((e.touches am r).filter fun v => v.1.2 = s).map Prod.snd).sum

/-- Specification: so little, and so seldom, that rounding cannot show. -/
def SwaysLittle (am : Option Str) (r : QEntry → Rat × Option Str) (es : List QEntry) : Prop :=
  ∀ s, (es.length + 3) * (es.map (QEntry.sway am r s)).sum * 100000000 ≤ (2 ^ 51 : Rat)

/-- Specification: the amounts are not large, and a line that is left blank is not worth nothing. -/
def QEntry.Clear (r : QEntry → Rat × Option Str) (e : QEntry) : Prop :=
  ∀ l ∈ e.lines, e.weight l * 400000000 ≤ (2 ^ 51 : Rat) ∧ (l.value = none → (r e).1 ≠ 0)

/-- Specification: the lines for an entry, the last of `upto`, in columns wide enough: on the first the date, the mark, the
description without the payee, and the accounts that lose and gain; one line for each currency in which it touches the
accounts in focus, and on it exactly the change and exactly the sum of the changes by all entries so far. -/
def RowAs (env : Env) (fmt : Str) (am : Option Str) (r : QEntry → Rat × Option Str) (c : Cols) (upto : List QEntry) (e : QEntry)
    (block : List Str) : Prop :=
  ∃ (f : Front) (g : Str × Str) (gs : List (Str × Str)),
    env.fmtDate e.day fmt = some f.date ∧ [f.status] = e.mark ∧
    (∃ payee, DescriptionOf (joinWith s%" " (splitWs e.title)) f.description payee) ∧
    (e.Clear r →
      f.source = named (firstSeen ((e.lines.filter fun l => decide ((l.value.getD (r e)).1 < 0)).map fun l => l.account)) ∧
      f.dest = named (firstSeen ((e.lines.filter fun l => decide (0 < (l.value.getD (r e)).1)).map fun l => l.account))) ∧
    f.date.length ≤ c.date ∧ f.description.length ≤ c.description ∧ f.source.length ≤ c.source ∧
    f.dest.length ≤ c.dest ∧
    List.Forall₂ (fun s (g : Str × Str) =>
        Amount.parse g.1 '.' = .ok (⟨e.changeIn am r s, s⟩ : Amount Rat) ∧
        Amount.parse g.2 '.' = .ok (⟨(upto.map (QEntry.changeIn am r s)).sum, s⟩ : Amount Rat) ∧
        g.1.length ≤ c.amount ∧ g.2.length ≤ c.total)
      (firstSeen ((e.touches am r).map fun v => v.1.2)) (g :: gs) ∧
    block = (f.text c ++ figureText c g) ::
      gs.map fun g => List.replicate
        (c.front + (excess f.date + excess f.description + excess f.source + excess f.dest)) ' ' ++ figureText c g

/-- Specification: each entry, after those `before`, has its block of lines, or else it has none and changes nothing. -/
inductive Rows (am : Option Str) (r : QEntry → Rat × Option Str) (P : List QEntry → QEntry → List Str → Prop) :
    List QEntry → List QEntry → List (List Str) → Prop
  | done (before : List QEntry) : Rows am r P before [] []
  | listed {before es : List QEntry} {e : QEntry} {block : List Str} {blocks : List (List Str)}
      (h : P (before ++ [e]) e block) (rest : Rows am r P (before ++ [e]) es blocks) :
      Rows am r P before (e :: es) (block :: blocks)
  | left_out {before es : List QEntry} {e : QEntry} {blocks : List (List Str)}
      (h : ∀ s, e.changeIn am r s = 0) (rest : Rows am r P (before ++ [e]) es blocks) : Rows am r P before (e :: es) blocks

/-- Specification: the format of dates at the end of the journal: the last that is set, in whatever file. -/
def lastFormat (all : List QItem) : Str :=
  (all.filterMap fun i => match i with | .dateFormat v => some v | _ => none).getLastD s%"%Y/%m/%d"

open Classical in
/-- Specification: the entries of the days asked for. -/
noncomputable def entriesWithin (b t : Option Date) (es : List QEntry) : List QEntry := es.filter fun e => decide (Within b t e.day)

/-- Specification: the register of some entries. -/
def ExactRegister (env : Env) (fmt : Str) (b t : Option Date) (am : Option Str) (r : QEntry → Rat × Option Str)
    (es : List QEntry) (out : List Str) : Prop :=
  ∃ ds cols blocks, ByDay (entriesWithin b t es) ds ∧ out = blocks.flatten ∧ Rows am r (RowAs env fmt am r cols) [] ds blocks

/-! ### The order of the entries -/

theorem stableSort_byDay (es : List QEntry) : ByDay es (stableSort (fun a b => Date.lt a.day b.day) es) := by
  refine ⟨stableSort_sorted _ ?_ ?_ _, stableSort_perm _ _, ?_⟩
  · intro a b c h1 h2
    rw [Date.lt_false_iff_dayNum] at h1 h2 ⊢
    omega
  · intro a b h1
    rw [Date.lt_iff_dayNum] at h1
    rw [Date.lt_false_iff_dayNum]
    omega
  · intro d
    rw [stableSort_filter]
    intro a b ha hb
    simp only [decide_eq_true_eq] at ha hb
    rw [Date.lt_false_iff_dayNum, ha, hb]

theorem read_order {M : Type} [Mag M] {es : List QEntry} {xs ys : List (Entry M)} (hx : List.Forall₂ QEntry.ReadAs es xs)
    (hd : DateOrdered xs ys) : ∃ ds, ByDay es ds ∧ List.Forall₂ QEntry.ReadAs ds ys := by
  refine ⟨_, stableSort_byDay es, ?_⟩
  rw [C47_order_is_determined _ _ _ hd (stableSort_dateOrdered xs)]
  refine stableSort_rel _ _ _ ?_ _ _ hx
  intro a b c d h1 h2
  rw [h1.1, h2.1]

theorem ByDay.filter {es ds : List QEntry} (h : ByDay es ds) (P : QEntry → Bool) : ByDay (es.filter P) (ds.filter P) := by
  refine ⟨h.sorted.filter _, h.same.filter _, fun d => ?_⟩
  rw [List.filter_filter, List.filter_filter]
  simp only [fun (e : QEntry) => Bool.and_comm (decide (e.day = d)) (P e)]
  rw [← List.filter_filter, ← List.filter_filter, h.stable d]

theorem forall₂_filter {α β : Type} {R : α → β → Prop} {as : List α} {bs : List β} (h : List.Forall₂ R as bs) (p : α → Bool)
    (q : β → Bool) (hpq : ∀ a b, R a b → p a = q b) : List.Forall₂ R (as.filter p) (bs.filter q) := by
  induction h with
  | nil => exact .nil
  | @cons a b as bs h1 _ ih =>
    have := hpq a b h1
    cases hp : p a with
    | true =>
      rw [List.filter_cons_of_pos hp, List.filter_cons_of_pos (by rw [← this]; exact hp)]
      exact .cons h1 ih
    | false =>
      rw [List.filter_cons_of_neg (by simp [hp]), List.filter_cons_of_neg (by simp [← this, hp])]
      exact ih

/-! ### Lists of amounts -/

theorem changeIn_weighed (am : Option Str) (r : QEntry → Rat × Option Str) (s : Option Str) (e : QEntry) :
    e.changeIn am r s = (((e.touches am r).filter fun v => v.1.2 = s).map fun v => v.1.1).sum := by
  unfold QEntry.changeIn
  generalize e.touches am r = L
  induction L with
  | nil => rfl
  | cons v L ih =>
    rw [List.map_cons, List.sum_cons, ih, List.filter_cons]
    by_cases h : v.1.2 = s
    · simp [h]
    · simp [h]

theorem touches_nonneg (am : Option Str) (r : QEntry → Rat × Option Str) (e : QEntry) : ∀ w ∈ e.touches am r, 0 ≤ w.2 := by
  intro w hw
  obtain ⟨l, _, hl⟩ := List.mem_filterMap.1 hw
  split at hl
  · cases hl
    show 0 ≤ e.weight l
    unfold QEntry.weight
    split
    · exact abs_nonneg _
    · refine mul_nonneg (by positivity) (List.sum_nonneg ?_)
      intro x hx
      obtain ⟨l, _, rfl⟩ := List.mem_map.1 hx
      exact bulk_nonneg l
  · cases hl

theorem sway_nonneg (am : Option Str) (r : QEntry → Rat × Option Str) (s : Option Str) (e : QEntry) : 0 ≤ e.sway am r s := by
  unfold QEntry.sway
  refine mul_nonneg (by positivity) (List.sum_nonneg ?_)
  intro x hx
  obtain ⟨v, hv, rfl⟩ := List.mem_map.1 hx
  exact touches_nonneg am r e v (List.mem_filter.1 hv).1

theorem weight_sway {am : Option Str} {r : QEntry → Rat × Option Str} {e : QEntry} {w : (Rat × Option Str) × Rat}
    (hw : w ∈ e.touches am r) : 3 * w.2 ≤ e.sway am r w.1.2 := by
  have hm : w ∈ (e.touches am r).filter fun v => v.1.2 = w.1.2 := List.mem_filter.2 ⟨hw, by simp⟩
  have hnn := touches_nonneg am r e
  have h1 : w.2 ≤ (((e.touches am r).filter fun v => v.1.2 = w.1.2).map Prod.snd).sum := by
    refine List.single_le_sum ?_ _ (List.mem_map_of_mem (f := Prod.snd) hm)
    intro x hx
    obtain ⟨w, hw, rfl⟩ := List.mem_map.1 hx
    exact hnn w (List.mem_filter.1 hw).1
  have h0 : 0 ≤ w.2 := hnn _ hw
  have hlen : (1 : Rat) ≤ ((e.touches am r).filter fun v => v.1.2 = w.1.2).length := by
    exact_mod_cast List.length_pos_of_mem hm
  unfold QEntry.sway
  generalize (((e.touches am r).filter fun v => v.1.2 = w.1.2).map Prod.snd).sum = S at *
  generalize (((e.touches am r).filter fun v => v.1.2 = w.1.2).length : Rat) = n at *
  have h3 : 3 * S ≤ (n + 2) * S := mul_le_mul_of_nonneg_right (by linarith) (by linarith)
  linarith

theorem touches_congr {am : Option Str} {r r' : QEntry → Rat × Option Str} {e : QEntry}
    (h : (∃ l ∈ e.lines, l.value = none) → r e = r' e) : e.touches am r = e.touches am r' := by
  refine List.filterMap_congr fun l hl => ?_
  cases hv : l.value with
  | some v => rfl
  | none => rw [h ⟨l, hl, hv⟩]

/-! ### The change by an entry -/

theorem QEntry.Ok.valueOf {M : Type} [Mag M] {env : Env} {fmt : Str} {accs : List Str} {e : QEntry} (h : e.Ok env fmt accs)
    (x : Entry M) (hx : x.postings = e.lines.map QLine.posting) (l : QLine) (hl : l ∈ e.lines) :
    x.valueOf l.posting = l.toPLine.read.getD e.readBooked := by
  unfold Entry.valueOf QLine.posting QLine.read Posting.amount PLine.read
  cases hv : l.value with
  | some v => rfl
  | none =>
    simp only [Option.map]
    rw [h.blankAmount x hx ⟨l, hl, hv⟩]
    rfl

theorem QEntry.Ok.focus {M : Type} [Mag M] {env : Env} {fmt : Str} {accs : List Str} {e : QEntry} (h : e.Ok env fmt accs)
    (x : Entry M) (hx : x.postings = e.lines.map QLine.posting) (am : Option Str) :
    x.focusAmounts am = e.lines.filterMap fun l => if InFocus am l.account then some (l.toPLine.read.getD e.readBooked) else none := by
  have key : ∀ ls : List QLine, (∀ l ∈ ls, l ∈ e.lines) →
      (((ls.map (QLine.posting (M := M))).filter fun p => decide (InFocus am p.account)).map x.valueOf) =
      ls.filterMap fun l => if InFocus am l.account then some (l.toPLine.read.getD e.readBooked) else none := by
    intro ls
    induction ls with
    | nil => intro _; rfl
    | cons l ls ih =>
      intro hl
      have ih := ih fun j hj => hl j (by simp [hj])
      by_cases hk : InFocus am l.account
      · have hf : decide (InFocus am (QLine.posting (M := M) l).account) = true := decide_eq_true hk
        rw [List.map_cons, List.filter_cons_of_pos (p := fun p : Posting M => decide (InFocus am p.account)) hf, List.map_cons, ih,
          List.filterMap_cons_some (by rw [if_pos hk]), h.valueOf x hx l (hl l (by simp))]
      · have hf : ¬ decide (InFocus am (QLine.posting (M := M) l).account) = true := fun hd => hk (of_decide_eq_true hd)
        rw [List.map_cons, List.filter_cons_of_neg (p := fun p : Posting M => decide (InFocus am p.account)) hf, ih,
          List.filterMap_cons_none (by rw [if_neg hk])]
  unfold Entry.focusAmounts
  rw [hx]
  exact key e.lines fun _ h => h

/-- The change by an entry that was read, and the change by the entry as written. -/
def ChangesAs (am : Option Str) (r : QEntry → Rat × Option Str) (e : QEntry) (x : Entry F64) : Prop :=
  (x.focusAmounts am).map Amount.sym = (e.touches am r).map (fun v => v.1.2) ∧
  ∀ s, ∃ (D : Int) (V : Nat), e.changeIn am r s * 100000000 = D ∧ e.sway am r s * 100000000 = V ∧
    ((x.change am s = none ∧ D = 0) ∨ ∃ m, x.change am s = some m ∧ NearTo m D V)

theorem changes_as {am : Option Str} {r : QEntry → Rat × Option Str} {env : Env} {fmt : Str} {accs : List Str} {e : QEntry}
    (h : e.Ok env fmt accs) (hr : (∃ l ∈ e.lines, l.value = none) → e.booked = r e)
    (h8 : e.Fine) {x : Entry F64} (hx : e.ReadAs x)
    (hs : ∀ s, e.sway am r s * 400000000 ≤ (2 ^ 51 : Rat)) : ChangesAs am r e x := by
  have hf := h.focus x hx.2.1 am
  have hn : List.Forall₂ ReadAs (x.focusAmounts am) (e.touches am r) := by
    rw [hf, ← touches_congr hr]
    refine h8.lines_near h (InFocus am) fun l hl hk => ?_
    have h2 := weight_sway (am := am) (r := r) (e := e) (w := (l.value.getD (r e), e.weight l))
      (List.mem_filterMap.2 ⟨l, hl, by rw [if_pos hk]⟩)
    have h3 := hs (l.value.getD (r e)).2
    have h4 := sway_nonneg am r (l.value.getD (r e)).2 e
    simp only at h2
    linarith
  refine ⟨?_, fun s => ?_⟩
  · generalize x.focusAmounts am = as at hn
    generalize e.touches am r = bs at hn
    induction hn with
    | nil => rfl
    | cons h1 _ ih => rw [List.map_cons, List.map_cons, ih, h1.1]
  · obtain ⟨p1, p2, p3⟩ := parts_near s _ _ hn
    have hsw : e.sway am r s * 100000000 = (((((e.touches am r).filter fun v => v.1.2 = s).length + 2) *
        (((e.touches am r).filter fun w => w.1.2 = s).map fun w => (u8 w.2).natAbs).sum : Nat) : Rat) := by
      unfold QEntry.sway
      push_cast
      rw [mul_assoc, p3]
    refine ⟨_, _, by rw [changeIn_weighed]; exact p2, hsw, ?_⟩
    have hc : x.change am s = if partsOf s (x.focusAmounts am) = [] then none
        else some (sumF (partsOf s (x.focusAmounts am))) := by
      unfold Entry.change
      rw [specAdd_parts, more_all]
    by_cases h0 : partsOf s (x.focusAmounts am) = []
    · left
      rw [h0] at p1
      rw [hc, if_pos h0]
      refine ⟨rfl, ?_⟩
      have : ((e.touches am r).filter fun w => w.1.2 = s) = [] := by
        have := List.forall₂_nil_left_iff.1 p1
        exact List.map_eq_nil_iff.1 this
      rw [this]; rfl
    · right
      rw [hc, if_neg h0]
      refine ⟨_, rfl, ?_⟩
      have hb : ((((e.touches am r).filter fun w => w.1.2 = s).map fun w => (u8 w.1.1, (u8 w.2).natAbs)).length + 3) *
          ((((e.touches am r).filter fun w => w.1.2 = s).map fun w => (u8 w.1.1, (u8 w.2).natAbs)).map Prod.snd).sum ≤ 2 ^ 51 := by
        have h4 := hs s
        have h5 : (4 : Rat) * (((((e.touches am r).filter fun v => v.1.2 = s).length + 2) *
          (((e.touches am r).filter fun w => w.1.2 = s).map fun w => (u8 w.2).natAbs).sum : Nat) : Rat) ≤ 2 ^ 51 := by
          rw [← hsw]; linarith
        have h5 : 4 * ((((e.touches am r).filter fun v => v.1.2 = s).length + 2) *
          (((e.touches am r).filter fun w => w.1.2 = s).map fun w => (u8 w.2).natAbs).sum) ≤ 2 ^ 51 := by exact_mod_cast h5
        rw [List.length_map, List.map_map]
        refine le_trans ?_ h5
        rw [← Nat.mul_assoc]
        exact Nat.mul_le_mul_right _ (by omega)
      have := sumF_near _ _ p1 hb
      rw [List.length_map, List.map_map, List.map_map] at this
      exact this

/-! ### The running total -/

theorem running_change (am : Option Str) (xs : List (Entry F64)) (s : Option Str) (t : Option F64) :
    xs.foldl (fun t x => moreBy t (x.change am s)) t =
      (xs.filterMap fun x => x.change am s).foldl (fun t m => moreBy t (some m)) t := by
  induction xs generalizing t with
  | nil => rfl
  | cons x xs ih =>
    rw [List.foldl_cons, ih]
    cases hc : x.change am s with
    | none => rw [List.filterMap_cons_none (f := fun x : Entry F64 => x.change am s) hc]; rfl
    | some m => rw [List.filterMap_cons_some (f := fun x : Entry F64 => x.change am s) hc]; rfl

variable {am : Option Str} {r : QEntry → Rat × Option Str}

theorem sways_near (s : Option Str) (bs : List QEntry) (xs : List (Entry F64)) (h : List.Forall₂ (ChangesAs am r) bs xs) :
    ∃ ts : List (Int × Nat), List.Forall₂ (fun x (t : Int × Nat) => NearTo x t.1 t.2) (xs.filterMap fun x => x.change am s) ts ∧
      (bs.map (QEntry.changeIn am r s)).sum * 100000000 = ((ts.map Prod.fst).sum : Int) ∧
      ts.length ≤ bs.length ∧ ((ts.map Prod.snd).sum : Nat) ≤ (bs.map (QEntry.sway am r s)).sum * 100000000 := by
  induction h with
  | nil => exact ⟨[], .nil, by simp, by simp, by simp⟩
  | @cons e x bs xs h1 _ ih =>
    obtain ⟨ts, i1, i2, i3, i4⟩ := ih
    obtain ⟨D, V, h2, h3, h4 | ⟨m, h4, h5⟩⟩ := h1.2 s
    · refine ⟨ts, by rw [List.filterMap_cons_none (f := fun x : Entry F64 => x.change am s) h4.1]; exact i1, ?_, ?_, ?_⟩
      · rw [List.map_cons, List.sum_cons, add_mul, h2, h4.2, i2]; simp
      · rw [List.length_cons]; omega
      · rw [List.map_cons, List.sum_cons, add_mul]
        have := sway_nonneg am r s e
        linarith
    · refine ⟨(D, V) :: ts, by rw [List.filterMap_cons_some (f := fun x : Entry F64 => x.change am s) h4]; exact .cons h5 i1, ?_, ?_, ?_⟩
      · rw [List.map_cons, List.sum_cons, add_mul, h2, i2]; simp
      · rw [List.length_cons, List.length_cons]; omega
      · rw [List.map_cons, List.sum_cons, List.map_cons, List.sum_cons, add_mul, h3]
        push_cast
        linarith

theorem sway_sublist (s : Option Str) {bs ds : List QEntry} (h : bs.Sublist ds) :
    (bs.map (QEntry.sway am r s)).sum ≤ (ds.map (QEntry.sway am r s)).sum := by
  induction h with
  | slnil => exact le_rfl
  | cons e _ ih => rw [List.map_cons, List.sum_cons]; have := sway_nonneg am r s e; linarith
  | cons_cons e _ ih => rw [List.map_cons, List.sum_cons, List.map_cons, List.sum_cons]; linarith

/-- What is printed for the total. -/
theorem change_shown {bs : List QEntry} {xs : List (Entry F64)} (h : List.Forall₂ (ChangesAs am r) bs xs) (s : Option Str)
    (hb : (bs.length + 3) * (bs.map (QEntry.sway am r s)).sum * 100000000 ≤ (2 ^ 51 : Rat)) (t : F64)
    (ht : runningTotal am xs s = some t) (hs : ∀ y, s = some y → ValidSymbol '.' y) :
    Amount.parse (⟨t, s⟩ : Amount F64).display '.' = .ok (⟨(bs.map (QEntry.changeIn am r s)).sum, s⟩ : Amount Rat) := by
  obtain ⟨ts, h1, h2, h3, h4⟩ := sways_near s bs xs h
  unfold runningTotal at ht
  rw [running_change, more_all] at ht
  split at ht
  · cases ht
  · cases ht
    refine sums_shown _ ts h1 ?_ _ h2 s hs
    have h5 : (ts.length + 3 : Rat) * ((ts.map Prod.snd).sum : Nat) ≤ 2 ^ 51 := by
      refine le_trans ?_ hb
      rw [mul_assoc]
      have h3 : (ts.length : Rat) ≤ bs.length := by exact_mod_cast h3
      exact mul_le_mul (by linarith) h4 (Nat.cast_nonneg _) (by positivity)
    exact_mod_cast h5

/-- An entry that is not shown changes nothing. -/
theorem without_change {e : QEntry} {x : Entry F64} (h : ChangesAs am r e x)
    (hs : ∀ s, e.sway am r s * 400000000 ≤ (2 ^ 51 : Rat)) (hn : ¬ x.Changes am) (s : Option Str) : e.changeIn am r s = 0 := by
  obtain ⟨D, V, h2, h3, h4 | ⟨m, h4, h5⟩⟩ := h.2 s
  · rw [h4.2] at h2
    have : e.changeIn am r s * 100000000 = 0 := by simpa using h2
    linarith
  · have hz : Mag.eq m (Mag.zero : F64) = true := by
      cases hm : Mag.eq m (Mag.zero : F64) with
      | true => rfl
      | false => exact absurd ⟨s, m, h4, hm⟩ hn
    have hv := eq_zero_value hz
    obtain ⟨_, h6, _⟩ := h5
    rw [hv] at h6
    have hV : (V : Rat) * 4 ≤ 2 ^ 51 := by have := hs s; linarith
    have h7 : |(D : Rat)| < 1 := by
      rw [zero_mul, zero_sub, abs_neg] at h6
      refine lt_of_le_of_lt h6 ?_
      rw [div_lt_one (by norm_num)]
      linarith
    have h8 : |D| < 1 := by exact_mod_cast h7
    have h9 : D = 0 := by
      have := abs_lt.1 h8
      omega
    rw [h9] at h2
    have : e.changeIn am r s * 100000000 = 0 := by simpa using h2
    linarith

/-! ### Where money comes from and goes to -/

/-- The sign of what is read. -/
theorem sign_read {a : Amount F64} {v : Rat × Option Str} {W : Rat} (h : ReadAs a (v, W)) (hW : W * 400000000 ≤ (2 ^ 51 : Rat))
    (h0 : v.1 = 0 → W = 0) : Mag.lt a.mag (Mag.zero : F64) = decide (v.1 < 0) ∧ Mag.lt (Mag.zero : F64) a.mag = decide (0 < v.1) := by
  obtain ⟨_, h1, h2, h3, h4, _⟩ := h
  simp only at h1 h2 h4
  have l1 : Mag.lt a.mag (Mag.zero : F64) = decide (a.mag.value < 0) := by
    have := F64.lt_value (a := a.mag) (b := F64.zero) h3 rfl
    rw [show (F64.zero).value = 0 by simp [F64.zero, F64.zeroS, F64.value]] at this
    exact this
  have l2 : Mag.lt (Mag.zero : F64) a.mag = decide (0 < a.mag.value) := by
    have := F64.lt_value (a := F64.zero) (b := a.mag) rfl h3
    rw [show (F64.zero).value = 0 by simp [F64.zero, F64.zeroS, F64.value]] at this
    exact this
  rw [l1, l2]
  generalize a.mag.value = y at *
  generalize u8 v.1 = D at *
  generalize (u8 W).natAbs = N at *
  by_cases hz : v.1 = 0
  · have hN : (N : Rat) = 0 := by rw [← h2, h0 hz]; simp
    have hD : (D : Rat) = 0 := by rw [← h1, hz]; simp
    rw [hN, hD] at h4
    have h5 : y * 100000000 - 0 = 0 := abs_nonpos_iff.1 (by simpa using h4)
    have h6 : y = 0 := by linarith
    rw [h6, hz]
    exact ⟨rfl, rfl⟩
  · have hN : (N : Rat) / 2 ^ 52 ≤ 1 / 4 := by
      rw [div_le_iff₀ (by norm_num)]
      have : (N : Rat) * 4 ≤ 2 ^ 51 := by rw [← h2]; linarith
      linarith
    have h5 := abs_le.1 (le_trans h4 hN)
    have hD : (D : Rat) ≠ 0 := by
      rw [← h1]; intro h
      exact hz (by linarith)
    have hD' : D ≤ -1 ∨ 1 ≤ D := by
      have : D ≠ 0 := by intro h; exact hD (by rw [h]; rfl)
      omega
    rcases hD' with h6 | h6
    · have h6 : (D : Rat) ≤ -1 := by exact_mod_cast h6
      have e1 : y < 0 := by linarith
      have e2 : v.1 < 0 := by linarith
      rw [decide_eq_true e1, decide_eq_true e2, decide_eq_false (not_lt.2 e1.le), decide_eq_false (not_lt.2 e2.le)]
      exact ⟨rfl, rfl⟩
    · have h6 : (1 : Rat) ≤ D := by exact_mod_cast h6
      have e1 : 0 < y := by linarith
      have e2 : 0 < v.1 := by linarith
      rw [decide_eq_true e1, decide_eq_true e2, decide_eq_false (not_lt.2 e1.le), decide_eq_false (not_lt.2 e2.le)]
      exact ⟨rfl, rfl⟩

theorem forall₂_of_map {α β γ : Type} {R : β → γ → Prop} {f : α → β} {g : α → γ} {as : List α}
    (h : List.Forall₂ R (as.map f) (as.map g)) : ∀ a ∈ as, R (f a) (g a) := by
  induction as with
  | nil => simp
  | cons a as ih =>
    rw [List.map_cons, List.map_cons] at h
    cases h with
    | cons h1 h2 =>
      intro b hb
      rcases List.mem_cons.1 hb with rfl | hb
      · exact h1
      · exact ih h2 b hb

theorem QEntry.Clear.signs {env : Env} {fmt : Str} {accs : List Str} {e : QEntry} (hc : e.Clear r) (h : e.Ok env fmt accs)
    (hr : (∃ l ∈ e.lines, l.value = none) → e.booked = r e) (h8 : e.Fine) {x : Entry F64} (hx : e.ReadAs x) :
    ∀ l ∈ e.lines, Mag.lt (x.valueOf l.posting).mag (Mag.zero : F64) = decide ((l.value.getD (r e)).1 < 0) ∧
      Mag.lt (Mag.zero : F64) (x.valueOf l.posting).mag = decide (0 < (l.value.getD (r e)).1) := by
  have hn := h8.lines_near h (fun _ => True) fun l hl _ => (hc l hl).1
  simp only [if_true, List.filterMap_eq_map'] at hn
  intro l hl
  have h1 := forall₂_of_map hn l hl
  rw [h.valueOf x hx.2.1 l hl]
  have h2 : l.value.getD e.booked = l.value.getD (r e) := by
    cases hv : l.value with
    | some v => rfl
    | none => exact hr ⟨l, hl, hv⟩
  rw [h2] at h1
  refine sign_read h1 (hc l hl).1 ?_
  intro h0
  cases hv : l.value with
  | none =>
    rw [hv] at h0
    exact absurd h0 ((hc l hl).2 hv)
  | some v =>
    rw [hv] at h0
    unfold QEntry.weight
    rw [hv]
    simp only [Option.getD_some] at h0 ⊢
    rw [h0]; simp

theorem QEntry.Clear.accounts {env : Env} {fmt : Str} {accs : List Str} {e : QEntry} (hc : e.Clear r) (h : e.Ok env fmt accs)
    (hr : (∃ l ∈ e.lines, l.value = none) → e.booked = r e) (h8 : e.Fine) {x : Entry F64} (hx : e.ReadAs x) :
    x.accountsWith (fun m => Mag.lt m (Mag.zero : F64)) =
      firstSeen ((e.lines.filter fun l => decide ((l.value.getD (r e)).1 < 0)).map fun l => l.account) ∧
    x.accountsWith (fun m => Mag.lt (Mag.zero : F64) m) =
      firstSeen ((e.lines.filter fun l => decide (0 < (l.value.getD (r e)).1)).map fun l => l.account) := by
  have hs := hc.signs h hr h8 hx
  unfold Entry.accountsWith
  rw [hx.2.1]
  constructor
  · rw [List.filter_map, List.map_map]
    congr 1
    exact congrArg _ (List.filter_congr fun l hl => (hs l hl).1)
  · rw [List.filter_map, List.map_map]
    congr 1
    exact congrArg _ (List.filter_congr fun l hl => (hs l hl).2)

/-! ### The blocks -/

theorem touched_symbol {env : Env} {fmt : Str} {accs : List Str} {e : QEntry} (h : e.Ok env fmt accs)
    (hr : (∃ l ∈ e.lines, l.value = none) → e.booked = r e) (s : Option Str)
    (hs : s ∈ (e.touches am r).map fun v => v.1.2) : ∀ y, s = some y → ValidSymbol '.' y := by
  have hg : ∀ v ∈ e.given, ∀ y, v.2 = some y → ValidSymbol '.' y := by
    intro v hv y hy
    obtain ⟨l, hl, hlv⟩ := List.mem_filterMap.1 hv
    obtain ⟨_, _, _, _, _, _, hw | ⟨sym, e1, e2, _⟩⟩ := (((h.lines l hl).base.given v.1 v.2 hlv).2.2)
    · rw [hw.1] at hy; cases hy
    · rw [e1] at hy; cases hy; exact e2
  obtain ⟨v, hv, rfl⟩ := List.mem_map.1 hs
  obtain ⟨l, hl, hlv⟩ := List.mem_filterMap.1 hv
  split at hlv
  · cases hlv
    show ∀ y, (l.value.getD (r e)).2 = some y → _
    cases hv : l.value with
    | some u => exact hg u (List.mem_filterMap.2 ⟨l, hl, hv⟩)
    | none =>
      intro y hy
      rw [Option.getD_none, ← hr ⟨l, hl, hv⟩] at hy
      unfold QEntry.booked at hy
      split at hy
      · cases hgv : e.given with
        | nil => rw [hgv] at hy; cases hy
        | cons u us =>
          rw [hgv] at hy
          exact hg u (by rw [hgv]; simp) y hy
      · cases hy
  · cases hlv

theorem row_block {env : Env} {dfmt fmt : Str} {accs : List Str} {e : QEntry} (h : e.Ok env fmt accs)
    (hr : (∃ l ∈ e.lines, l.value = none) → e.booked = r e) (h8 : e.Fine) {x : Entry F64} (hx : e.ReadAs x)
    (hc : ChangesAs am r e x) {bsh before : List QEntry} {upto : List (Entry F64)}
    (hu : List.Forall₂ (ChangesAs am r) (bsh ++ [e]) (upto ++ [x]))
    (hsum : ∀ s, (bsh.map (QEntry.changeIn am r s)).sum = (before.map (QEntry.changeIn am r s)).sum)
    (hb : ∀ s, ((bsh ++ [e]).length + 3) * ((bsh ++ [e]).map (QEntry.sway am r s)).sum * 100000000 ≤ (2 ^ 51 : Rat))
    (hb1 : ∀ s, e.sway am r s * 400000000 ≤ (2 ^ 51 : Rat)) {c : Cols} {block : List Str}
    (hl : LaidOut env dfmt am c (upto ++ [x]) x block) : RowAs env dfmt am r c (before ++ [e]) e block := by
  obtain ⟨f, g, gs, h1, h2, h3, h4, h5, h6, h7, h8', h9, h10⟩ := hl
  obtain ⟨payee, hp⟩ := hx.2.2.2
  refine ⟨f, g, gs, by rw [← hx.1]; exact h1, by rw [h2]; exact hx.2.2.1, ⟨payee, by rw [h3]; exact hp⟩, ?_, h5, h6, h7, h8', ?_, h10⟩
  · intro hcl
    obtain ⟨a1, a2⟩ := hcl.accounts h hr h8 hx
    rw [← a1, ← a2]
    exact h4 C78_float
  rw [hc.1] at h9
  have hsym : ∀ s ∈ firstSeen ((e.touches am r).map fun v => v.1.2), ∀ y, s = some y → ValidSymbol '.' y := by
    intro s hs
    refine touched_symbol (am := am) h hr s ?_
    have := (firstSeen_aux ((e.touches am r).map fun v => v.1.2) [] List.nodup_nil).2 s
    unfold firstSeen at hs
    simpa using this.1 hs
  generalize firstSeen ((e.touches am r).map fun v => v.1.2) = ss at h9 hsym
  generalize g :: gs = gg at h9
  clear h10
  induction h9 with
  | nil => exact .nil
  | @cons s g ss gg hg _ ih =>
    refine .cons ?_ (ih fun s hs => hsym s (by simp [hs]))
    obtain ⟨m, t, k1, k2, rfl, k4, k5⟩ := hg
    have hv := hsym s (by simp)
    refine ⟨?_, ?_, k4, k5⟩
    · have := change_shown (bs := [e]) (xs := [x]) (.cons hc .nil) s (by
        have := hb1 s
        simp only [List.length_singleton, List.map_cons, List.map_nil, List.sum_cons, List.sum_nil, add_zero, Nat.cast_one]
        linarith) m (by simp [runningTotal, k1, moreBy]) hv
      simpa using this
    · have := change_shown hu s (hb s) t k2 hv
      rw [List.map_append, List.sum_append, hsum] at this
      rw [List.map_append, List.sum_append]
      exact this

theorem sway_one {ds : List QEntry} (hb : SwaysLittle am r ds) {e : QEntry} (hmem : e ∈ ds) (s : Option Str) :
    e.sway am r s * 400000000 ≤ (2 ^ 51 : Rat) := by
  have hlen : (1 : Rat) ≤ ds.length := by exact_mod_cast List.length_pos_of_mem hmem
  have h2 : e.sway am r s ≤ (ds.map (QEntry.sway am r s)).sum := by
    refine List.single_le_sum ?_ _ (List.mem_map_of_mem hmem)
    intro y hy
    obtain ⟨z, _, rfl⟩ := List.mem_map.1 hy
    exact sway_nonneg am r s z
  have h3 := hb s
  have h0 := sway_nonneg am r s e
  generalize (ds.map (QEntry.sway am r s)).sum = S at *
  generalize (ds.length : Rat) = n at *
  have h4 : 4 * S ≤ (n + 3) * S := mul_le_mul_of_nonneg_right (by linarith) (by linarith)
  linarith

theorem rows_of {env : Env} {dfmt : Str} {c : Cols} {ds : List QEntry} (hb : SwaysLittle am r ds)
    (es : List QEntry) (xs : List (Entry F64)) (hx : List.Forall₂ QEntry.ReadAs es xs) (hc : List.Forall₂ (ChangesAs am r) es xs)
    (hok : ∀ e ∈ es, (∃ fmt accs, e.Ok env fmt accs) ∧ ((∃ l ∈ e.lines, l.value = none) → e.booked = r e) ∧ e.Fine)
    (before bsh : List QEntry) (upto : List (Entry F64))
    (hu : List.Forall₂ (ChangesAs am r) bsh upto) (hsub : (bsh ++ es).Sublist ds)
    (hsum : ∀ s, (bsh.map (QEntry.changeIn am r s)).sum = (before.map (QEntry.changeIn am r s)).sum) (blocks : List (List Str))
    (h : EachUpTo (LaidOut env dfmt am c) upto (shownBy none none am xs) blocks) :
    Rows am r (RowAs env dfmt am r c) before es blocks := by
  classical
  induction hx generalizing before bsh upto blocks with
  | nil =>
    cases blocks with
    | nil => exact .done _
    | cons => exact h.elim
  | @cons e x es xs h1 _ ih =>
    cases hc with
    | cons hc1 hc2 =>
    obtain ⟨⟨_, _, he⟩, her, he8⟩ := hok e (by simp)
    have ih := ih hc2 (fun e he => hok e (by simp [he]))
    have hmem : e ∈ ds := hsub.subset (by simp)
    have hb1 := sway_one hb hmem
    by_cases hch : x.Changes am
    · have hsh : shownBy none none am (x :: xs) = x :: shownBy none none am xs := by
        unfold shownBy
        rw [List.filter_cons_of_pos (by simp [Within, hch])]
      rw [hsh] at h
      cases blocks with
      | nil => exact h.elim
      | cons block blocks =>
        obtain ⟨g1, g2⟩ := h
        have hu' : List.Forall₂ (ChangesAs am r) (bsh ++ [e]) (upto ++ [x]) := List.rel_append hu (.cons hc1 .nil)
        have hsub' : (bsh ++ [e] ++ es).Sublist ds := by simpa using hsub
        refine .listed ?_ (ih (before ++ [e]) (bsh ++ [e]) (upto ++ [x]) hu' hsub' ?_ blocks g2)
        · refine row_block he her he8 h1 hc1 hu' hsum ?_ hb1 g1
          intro s
          have hsb : (bsh ++ [e]).Sublist ds := (List.sublist_append_left _ _).trans hsub'
          refine le_trans (mul_le_mul_of_nonneg_right ?_ (by norm_num)) (hb s)
          have hl : ((bsh ++ [e]).length : Rat) ≤ ds.length := by exact_mod_cast hsb.length_le
          refine mul_le_mul (by linarith) (sway_sublist s hsb) (List.sum_nonneg ?_) (by positivity)
          intro y hy
          obtain ⟨z, _, rfl⟩ := List.mem_map.1 hy
          exact sway_nonneg am r s z
        · intro s
          rw [List.map_append, List.sum_append, hsum, List.map_append, List.sum_append]
    · have hsh : shownBy none none am (x :: xs) = shownBy none none am xs := by
        unfold shownBy
        rw [List.filter_cons_of_neg (by simp [hch])]
      rw [hsh] at h
      have h0 := without_change hc1 hb1 hch
      refine .left_out h0 (ih (before ++ [e]) bsh upto hu ?_ ?_ blocks h)
      · refine List.Sublist.trans ?_ hsub
        exact List.Sublist.append (List.Sublist.refl _) (List.sublist_cons_self _ _)
      · intro s
        rw [List.map_append, List.sum_append, hsum]
        simp [h0 s]

theorem shownBy_within {M : Type} [Mag M] (b t : Option Date) (am : Option Str) (xs : List (Entry M)) :
    shownBy b t am xs = shownBy none none am (xs.filter fun x => @decide (Within b t x.date) (Classical.propDecidable _)) := by
  classical
  unfold shownBy
  rw [List.filter_filter]
  refine List.filter_congr fun x _ => ?_
  have : Within none none x.date := ⟨by simp, by simp⟩
  simp only [this, true_and]
  by_cases h1 : Within b t x.date <;> by_cases h2 : x.Changes am <;> simp [h1, h2]

theorem after_format (all : List QItem) (fmt : Str) (accs : List Str) :
    (QItem.after all (fmt, accs)).1 =
      (all.filterMap fun i => match i with | .dateFormat v => some v | _ => none).getLastD fmt := by
  induction all generalizing fmt accs with
  | nil => rfl
  | cons i is ih =>
    cases i with
    | dateFormat v =>
      simp only [QItem.after, ih, List.filterMap_cons, List.getLastD_cons]
    | _ => simp only [QItem.after, ih, List.filterMap_cons]

/-! ### C130 -/

/-- C130, in the library: the register of a loaded journal, for whatever days and accounts. -/
theorem C130_any_register (env : Env) (hord : FairOrder env.ord) (w : World) (path : Str)
    (items all : List QItem) (n fuel : Nat) (hroot : Holds w path items) (h : Spread (w.cdParent path) n items all)
    (hw : WellWritten env s%"%Y/%m/%d" [] all) (hfuel : n < fuel) (hfine : ∀ e ∈ QItem.entries all, e.Fine)
    (hr : ∀ e ∈ QItem.entries all, (∃ l ∈ e.lines, l.value = none) → e.booked = r e) (b t : Option Date) (am : Option Str)
    (hsmall : SwaysLittle am r (entriesWithin b t (QItem.entries all)))
    (hday : ∀ e ∈ QItem.entries all, ∃ d, env.fmtDate e.day (lastFormat all) = some d) :
    ∃ (l : Ledger F64) (out : List Str), Ledger.fromFile env fuel w path = .ok (l, w.cdParent path) ∧
      l.dateFormat = lastFormat all ∧ (∀ k a, (k, a) ∈ l.accounts → a.expenses = [] ∧ a.goals = []) ∧
      Register.display env true l.entries l.dateFormat b t am = .ok out ∧
      ExactRegister env (lastFormat all) b t am r (QItem.entries all) out := by
  classical
  obtain ⟨xs, l, g1, g2, g3, g4, g5⟩ := spread_load (M := F64) hord hroot h hw hfuel
  have hes := wellWritten_entries env all _ _ hw
  have hfmt : l.dateFormat = lastFormat all := by rw [g5]; exact after_format all _ _
  obtain ⟨out, hout⟩ := C73_shown env fuel w _ path l b t am g4 (by
    intro x hx
    obtain ⟨e, he, hex⟩ := forall₂_mem_right g1 (g3.same.mem_iff.1 hx)
    rw [hex.1, hfmt]
    exact hday e he)
  obtain ⟨ds0, d1, d2⟩ := read_order g1 g3
  have d3 := d1.filter fun e => decide (Within b t e.day)
  have d4 := forall₂_filter d2 (fun e => decide (Within b t e.day)) (fun x => decide (Within b t x.date)) (by
    intro e x hx; rw [hx.1])
  have eds : entriesWithin b t (QItem.entries all) = (QItem.entries all).filter fun e => decide (Within b t e.day) := by
    unfold entriesWithin
    refine List.filter_congr fun e _ => ?_
    congr
  rw [← eds] at d3
  have hmem : ∀ e ∈ ds0.filter fun e => decide (Within b t e.day), e ∈ QItem.entries all := by
    intro e he
    exact d1.same.mem_iff.1 (List.mem_filter.1 he).1
  have hb : SwaysLittle am r (ds0.filter fun e => decide (Within b t e.day)) := by
    intro s
    rw [d3.same.length_eq, (d3.same.map _).sum_eq]
    exact hsmall s
  have hch : List.Forall₂ (ChangesAs am r) (ds0.filter fun e => decide (Within b t e.day))
      (l.entries.filter fun x => decide (Within b t x.date)) := by
    refine forall₂_left_with d4 fun e he x hx => ?_
    obtain ⟨_, _, hok⟩ := hes e (hmem e he)
    exact changes_as hok (hr e (hmem e he)) (hfine e (hmem e he)) hx (sway_one hb he)
  obtain ⟨cols, blocks, b1, b2⟩ := C92_layout env true l.entries l.dateFormat b t am out hout
  rw [hfmt, shownBy_within] at b2
  refine ⟨l, out, g4, hfmt, g2, hout, _, cols, blocks, d3, b1, ?_⟩
  refine rows_of hb _ _ d4 hch (fun e he => ⟨hes e (hmem e he), hr e (hmem e he), hfine e (hmem e he)⟩) [] [] [] .nil (by simp)
    (fun _ => rfl) blocks ?_
  convert b2 using 4

/-- C130. What is printed for every such journal, also where entries are paid for in kind (`C126_exact_rule`). -/
theorem C130_exact_rule (env : Env) (hord : FairOrder env.ord) (o : Outside) (w : World) (path : Str)
    (items all : List QItem) (n : Nat) (hroot : Holds w path items) (h : Spread (w.cdParent path) n items all)
    (hw : WellWritten env s%"%Y/%m/%d" [] all) (hfuel : n < o.fuel) (hfine : ∀ e ∈ QItem.entries all, e.Fine)
    (hr : ∀ e ∈ QItem.entries all, (∃ l ∈ e.lines, l.value = none) → e.booked = r e)
    (hsmall : SwaysLittle none r (QItem.entries all))
    (hday : ∀ e ∈ QItem.entries all, ∃ d, env.fmtDate e.day (lastFormat all) = some d)
    (hterm : o.terminal = true) (c : Str) (args : List Str) (fs : List Flag) (hc : c.head? = some 'r') (ha : Spelled fs args)
    (hj : journalFor o fs = some path) :
    ∃ w' out, mainProgram F64 env o (c :: args) w = (w', .ok out) ∧ w'.file = w.file ∧
      ExactRegister env (lastFormat all) none none none r (QItem.entries all) out := by
  have e0 : entriesWithin none none (QItem.entries all) = QItem.entries all := by
    classical
    unfold entriesWithin
    refine List.filter_eq_self.2 fun e _ => decide_eq_true ⟨by simp, by simp⟩
  obtain ⟨l, out, h1, h2, h3, h4, h5⟩ := C130_any_register env hord w path items all n o.fuel hroot h hw hfuel hfine hr none none
    none (by rw [e0]; exact hsmall) hday
  have hl : LedgerFor env o fs w l (w.cdParent path) := by
    refine ⟨path, l, _, hj, h1, ?_⟩
    by_cases hn : Flag.noMove ∈ fs
    · exact Or.inl ⟨hn, rfl, rfl⟩
    · exact Or.inr ⟨hn, fill_without_envelopes env hord l h3 _⟩
  exact ⟨_, out, C79_report_printed env o c args w (w.cdParent path) out .register fs hc ha l hl (.register h4)
    (by simp) (fun _ => hterm), rfl, h5⟩

/-- C130. With doubles, as the program has them: `silverfox register` on a journal kept in several files of one directory,
with prices, totals, asserted balances, payees and date formats, of amounts of at most eight decimals, no entry paid for in
kind, and small enough, goes through the entries in the order of their days, and prints for each that touches accounts
beginning with "asset" one line for each currency, with exactly the change and exactly the sum of all changes so far. The
dates are in the format that is set last, in whatever file. It leaves out only entries that change nothing. -/
theorem C130_priced_register (env : Env) (hord : FairOrder env.ord) (o : Outside) (w : World) (path : Str)
    (items all : List QItem) (n : Nat) (hroot : Holds w path items) (h : Spread (w.cdParent path) n items all)
    (hw : WellWritten env s%"%Y/%m/%d" [] all) (hkind : ∀ e ∈ QItem.entries all, ¬ e.PaidForInKind)
    (hfuel : n < o.fuel) (hfine : ∀ e ∈ QItem.entries all, e.Fine)
    (hsmall : SwaysLittle none QEntry.rest (QItem.entries all))
    (hday : ∀ e ∈ QItem.entries all, ∃ d, env.fmtDate e.day (lastFormat all) = some d)
    (hterm : o.terminal = true) (c : Str) (args : List Str) (fs : List Flag) (hc : c.head? = some 'r') (ha : Spelled fs args)
    (hj : journalFor o fs = some path) :
    ∃ w' out, mainProgram F64 env o (c :: args) w = (w', .ok out) ∧ w'.file = w.file ∧
      ExactRegister env (lastFormat all) none none none QEntry.rest (QItem.entries all) out := by
  refine C130_exact_rule env hord o w path items all n hroot h hw hfuel hfine ?_ hsmall hday hterm c args fs hc ha hj
  intro e he hb
  obtain ⟨_, _, hok⟩ := wellWritten_entries env all _ _ hw e he
  exact QEntry.booked_eq_rest hb (hok.known hb).1 (hkind e he)

/-! ### A journal in two files -/

/-- It is enough to look at all currencies together. -/
theorem sways_of_all (am : Option Str) (r : QEntry → Rat × Option Str) (es : List QEntry)
    (h : (es.length + 3) * (es.map fun e => (((e.lines.filter fun l => decide (InFocus am l.account)).length : Rat) + 2) *
      ((e.lines.filter fun l => decide (InFocus am l.account)).map e.weight).sum).sum * 100000000 ≤ (2 ^ 51 : Rat)) :
    SwaysLittle am r es := by
  intro s
  refine le_trans (mul_le_mul_of_nonneg_right (mul_le_mul_of_nonneg_left ?_ (by positivity)) (by norm_num)) h
  refine List.sum_le_sum fun e _ => ?_
  have e1 : (e.touches am r).length = (e.lines.filter fun l => decide (InFocus am l.account)).length ∧
      ((e.lines.filter fun l => decide (InFocus am l.account)).map e.weight) = (e.touches am r).map Prod.snd := by
    unfold QEntry.touches
    generalize e.lines = ls
    induction ls with
    | nil => exact ⟨rfl, rfl⟩
    | cons l ls ih =>
      by_cases hf : InFocus am l.account
      · rw [List.filterMap_cons_some (by rw [if_pos hf]), List.filter_cons_of_pos (by simp [hf])]
        simp only [List.length_cons, List.map_cons, ih.1, ih.2]
        exact ⟨trivial, trivial⟩
      · rw [List.filterMap_cons_none (by rw [if_neg hf]), List.filter_cons_of_neg (by simp [hf])]
        exact ih
  rw [← e1.1, e1.2]
  have hnn := touches_nonneg am r e
  unfold QEntry.sway
  generalize e.touches am r = L at *
  have key : ((L.filter fun v => v.1.2 = s).map Prod.snd).sum ≤ (L.map Prod.snd).sum ∧
      0 ≤ ((L.filter fun v => v.1.2 = s).map Prod.snd).sum := by
    clear h e1
    induction L with
    | nil => simp
    | cons v L ih =>
      obtain ⟨i1, i2⟩ := ih fun u hu => hnn u (by simp [hu])
      have h0 := hnn v (by simp)
      rw [List.filter_cons]
      split
      · simp only [List.map_cons, List.sum_cons]
        exact ⟨by linarith, by linarith⟩
      · simp only [List.map_cons, List.sum_cons]
        exact ⟨by linarith, i2⟩
  have hl : ((L.filter fun v => v.1.2 = s).length : Rat) ≤ L.length := by exact_mod_cast List.length_filter_le _ _
  exact mul_le_mul (by linarith) key.1 key.2 (by positivity)

/-- The later entry comes first, in the file that is included. The date format is set after it. -/
def exFolio : World :=
  disk [("j", "include b\ndate_format %d.%m.%Y\n01.01.2024 * open\n assets:bank 100 ! 100\n fee -100\n"),
    ("b", "account assets:bank\naccount assets:shares\naccount fee\n2024/01/02 ~ buy [Broker & Co]\n assets:shares 5 XYZ @ 3.5\n fee 1\n assets:bank ! 0\n")]

def exFolioOpen : QEntry where
  date := s%"01.01.2024"
  mark := s%"*"
  title := s%"open"
  day := ⟨2024, 1, 1, by decide⟩
  lines := [⟨⟨s%" ", s%"assets:bank", s%" ", s%"100", some (100, none)⟩, [⟨s%"!", s%"100", (100, none)⟩]⟩,
    ⟨⟨s%" ", s%"fee", s%" ", s%"-100", some (-100, none)⟩, []⟩]

def exFolioBuy : QEntry where
  date := s%"2024/01/02"
  mark := s%"~"
  title := s%"buy [Broker & Co]"
  day := ⟨2024, 1, 2, by decide⟩
  lines := [⟨⟨s%" ", s%"assets:shares", s%" ", s%"5 XYZ", some (5, some s%"XYZ")⟩, [⟨s%"@", s%"3.5", (7 / 2, none)⟩]⟩,
    ⟨⟨s%" ", s%"fee", s%" ", s%"1", some (1, none)⟩, []⟩,
    ⟨⟨s%" ", s%"assets:bank", [], [], none⟩, [⟨s%"!", s%"0", (0, none)⟩]⟩]

def exFolioB : List QItem := [.account s%"assets:bank", .account s%"assets:shares", .account s%"fee", .entry exFolioBuy]

def exFolioTail : List QItem := [.dateFormat s%"%d.%m.%Y", .entry exFolioOpen]

theorem exFolioOpen_ok : exFolioOpen.Ok (stdEnv june15) s%"%d.%m.%Y" [s%"fee", s%"assets:shares", s%"assets:bank"] := by
  obtain ⟨a1, a2, a3, a4, a5, a6⟩ := exAmounts
  refine ⟨by decide +kernel, by decide, ⟨s%"open", none, Or.inl ⟨by decide, by decide, rfl⟩⟩, by decide +kernel, ?_, by decide, ?_⟩
  · intro l hl
    simp only [exFolioOpen, List.mem_cons, List.not_mem_nil, or_false] at hl
    rcases hl with rfl | rfl
    · refine exQLine _ _ (by decide) (by decide) (by decide) (by decide) (by decide +kernel) (by simp) ?_ (by decide) (by decide) ?_
      · intro q s h; cases h; exact ⟨by decide, by decide +kernel, a1⟩
      · intro c hc
        simp only [List.mem_cons, List.not_mem_nil, or_false] at hc
        subst hc; exact ⟨by decide +kernel, a1⟩
    · refine exQLine _ _ (by decide) (by decide) (by decide) (by decide) (by decide +kernel) (by simp) ?_ (by decide) (by decide) (by simp)
      intro q s h; cases h; exact ⟨by decide, by decide +kernel, a2⟩
  · rintro ⟨l, hl, hv⟩
    simp only [exFolioOpen, List.mem_cons, List.not_mem_nil, or_false] at hl
    rcases hl with rfl | rfl <;> cases hv

theorem exFolioBuy_ok : exFolioBuy.Ok (stdEnv june15) s%"%Y/%m/%d" [s%"fee", s%"assets:shares", s%"assets:bank"] := by
  obtain ⟨a1, a2, a3, a4, a5, a6⟩ := exAmounts
  refine ⟨by decide +kernel, by decide, exBroker, by decide +kernel, ?_, by decide, ?_⟩
  · intro l hl
    simp only [exFolioBuy, List.mem_cons, List.not_mem_nil, or_false] at hl
    rcases hl with rfl | rfl | rfl
    · refine exQLine _ _ (by decide) (by decide) (by decide) (by decide) (by decide +kernel) (by simp) ?_ (by decide) (by decide) ?_
      · intro q s h; cases h; exact ⟨by decide, by decide +kernel, a3⟩
      · intro c hc
        simp only [List.mem_cons, List.not_mem_nil, or_false] at hc
        subst hc; exact ⟨by decide +kernel, a4⟩
    · refine exQLine _ _ (by decide) (by decide) (by decide) (by decide) (by decide +kernel) (by simp) ?_ (by decide) (by decide) (by simp)
      intro q s h; cases h; exact ⟨by decide, by decide +kernel, a5⟩
    · refine exQLine _ _ (by decide) (by decide) (by decide) (by decide) (by decide +kernel) (by simp) (by simp) (by decide) (by decide) ?_
      intro c hc
      simp only [List.mem_cons, List.not_mem_nil, or_false] at hc
      subst hc; exact ⟨by decide +kernel, a6⟩
  · intro _
    exact ⟨by decide, Or.inr ⟨by decide +kernel, s%"XYZ", by decide⟩⟩

/-- It meets the conditions, and this is what is printed. -/
theorem exFolio_meets : Holds exFolio s%"j" (.incl s%"b" :: exFolioTail) ∧
    Spread (exFolio.cdParent s%"j") 1 (.incl s%"b" :: exFolioTail) (exFolioB ++ exFolioTail) ∧
    WellWritten (stdEnv june15) s%"%Y/%m/%d" [] (exFolioB ++ exFolioTail) ∧
    (∀ e ∈ QItem.entries (exFolioB ++ exFolioTail), ¬ e.PaidForInKind) ∧
    (∀ e ∈ QItem.entries (exFolioB ++ exFolioTail), e.Fine) ∧
    (∀ r, SwaysLittle none r (QItem.entries (exFolioB ++ exFolioTail))) ∧
    (∀ e ∈ QItem.entries (exFolioB ++ exFolioTail),
      ∃ d, (stdEnv june15).fmtDate e.day (lastFormat (exFolioB ++ exFolioTail)) = some d) ∧
    (mainProgram F64 (stdEnv june15) exOutside [s%"register", s%"-f", s%"j"] exFolio).2 = .ok [
      s%"01.01.2024 * open          fee -> assets:bank     100     100",
      s%"02.01.2024 ~ buy   assets:bank -> (multiple)    5 XYZ   5 XYZ",
      s%"                                                -18.5    81.5"] := by
  have hmem : ∀ e ∈ QItem.entries (exFolioB ++ exFolioTail), e = exFolioBuy ∨ e = exFolioOpen := by
    intro e he
    change e ∈ [exFolioBuy, exFolioOpen] at he
    simpa using he
  refine ⟨⟨_, rfl, by decide +kernel⟩, ?_, ?_, ?_, ?_, ?_, ?_, by decide +kernel⟩
  · have hb : Spread (exFolio.cdParent s%"j") 0 exFolioB exFolioB :=
      .own (by simp) (.own (by simp) (.own (by simp) (.own (by simp) .nil)))
    exact .incl (by decide +kernel) (by decide) ⟨_, rfl, by decide +kernel⟩ hb (.own (by simp) (.own (by simp) .nil))
  · exact ⟨by decide +kernel, by decide +kernel, by decide +kernel, exFolioBuy_ok, by decide +kernel, exFolioOpen_ok, trivial⟩
  · intro e he hp
    obtain ⟨_, ⟨s, hs⟩, _⟩ := hp
    rcases hmem e he with rfl | rfl
    · exact absurd (hs (1, none) (by decide)) (by simp)
    · exact absurd (hs (100, none) (by decide)) (by simp)
  · intro e he
    rcases hmem e he with rfl | rfl
    · have hg : ∀ v ∈ exFolioBuy.given, v = (5, some s%"XYZ") ∨ v = (1, none) := by decide +kernel
      refine ⟨?_, fun _ => ?_, fun _ => ?_, fun _ => ?_⟩
      · intro v hv
        rcases hg v hv with rfl | rfl
        · exact ⟨500000000, by norm_num⟩
        · exact ⟨100000000, by norm_num⟩
      · intro v hv
        rcases hg v hv with rfl | rfl
        · norm_num
        · norm_num
      · intro l hl c hc
        have : ∀ l ∈ exFolioBuy.lines, ∀ c ∈ l.clauses, c.value.1 = 7 / 2 ∨ c.value.1 = 0 := by decide +kernel
        rcases this l hl c hc with h | h
        · rw [h]; exact ⟨⟨350000000, by norm_num⟩, by norm_num⟩
        · rw [h]; exact ⟨⟨0, by norm_num⟩, by norm_num⟩
      · intro l hl q hq
        have : ∀ l ∈ exFolioBuy.lines, l.home = some (35 / 2) ∨ l.home = some 1 ∨ l.home = none := by decide +kernel
        rcases this l hl with h | h | h
        · rw [h] at hq; cases hq; exact ⟨1750000000, by norm_num⟩
        · rw [h] at hq; cases hq; exact ⟨100000000, by norm_num⟩
        · rw [h] at hq; cases hq
    · have hno : ¬ ∃ l ∈ exFolioOpen.lines, l.value = none := by decide +kernel
      refine ⟨?_, fun h => absurd h hno, fun h => absurd h hno, fun h => absurd h hno⟩
      intro v hv
      change v ∈ [((100 : Rat), (none : Option Str)), (-100, none)] at hv
      simp only [List.mem_cons, List.not_mem_nil, or_false] at hv
      rcases hv with rfl | rfl
      · exact ⟨10000000000, by norm_num⟩
      · exact ⟨-10000000000, by norm_num⟩
  · intro r
    exact sways_of_all none r _ (by decide +kernel)
  · intro e he
    rcases hmem e he with rfl | rfl
    · exact ⟨s%"02.01.2024", by decide +kernel⟩
    · exact ⟨s%"01.01.2024", by decide +kernel⟩

/-- The register on another account, from a day on: the total begins there. -/
example : (Ledger.fromFile (M := F64) (stdEnv june15) 5 exFolio s%"j").bind (fun p =>
    Register.display (stdEnv june15) true p.1.entries p.1.dateFormat (some ⟨2024, 1, 2, by decide⟩) none (some s%"fee")) =
      .ok [s%"02.01.2024 ~ buy  assets:bank -> (multiple)   1   1"] := by decide +kernel

/-- C130, the limit: an account that is left blank and gets nothing can be named as where money comes from. In doubles, ten
cents and twenty cents less thirty cents leave a little. -/
theorem C130_nothing_has_a_source :
    registerOf "account assets:a\naccount b\naccount c\n2024/01/02 * move\n assets:a 0.1\n assets:a 0.2\n b -0.3\n c\n"
      none none none = .ok [s%"2024/01/02 * move  (multiple) -> assets:a   0.3   0.3"] := by decide +kernel

end Silverfox
