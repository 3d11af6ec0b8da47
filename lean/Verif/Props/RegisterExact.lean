import Verif.Props.ToTheCent
import Verif.Props.Columns
import Mathlib.Data.List.Forall2
import Mathlib.Data.List.Perm.Basic

/-
C120: from the text of a journal to the text of its register, exact to the last digit with doubles.
-/

namespace Silverfox

set_option linter.unusedSectionVars false

/-! ### Specification -/

/-- Specification: the entries in the order of their days; those of one day as they were. -/
structure InDateOrder (given es : List PEntry) : Prop where
  sorted : es.Pairwise fun a b => Date.lt b.day a.day = false
  same : es.Perm given
  stable : ∀ d : Date, (es.filter fun e => e.day = d) = given.filter fun e => e.day = d

/-- Specification: what the lines of an entry whose account begins with "asset" are worth. -/
def PEntry.assets (e : PEntry) : List (Rat × Option Str) :=
  e.lines.filterMap fun l => if s%"asset" <+: l.account then e.worth l else none

/-- Specification: by how much an entry changes the assets in a currency. -/
def PEntry.shift (s : Option Str) (e : PEntry) : Rat := (e.assets.map fun v => if v.2 = s then v.1 else 0).sum

/-- Specification: those lines with the weights of their rounding. -/
def PEntry.assetsWeighed (e : PEntry) : List ((Rat × Option Str) × Rat) :=
  e.lines.filterMap fun l => if s%"asset" <+: l.account then (e.worth l).map fun v => (v, e.weight l) else none

/-- Specification: how much the rounding of the change counts. -/
def PEntry.swing (s : Option Str) (e : PEntry) : Rat :=
  ((e.assetsWeighed.filter fun v => v.1.2 = s).length + 2) * ((e.assetsWeighed.filter fun v => v.1.2 = s).map Prod.snd).sum

/-- Specification: so little, and so seldom, that rounding cannot show: the number of entries plus three, times the sum
of the weights, is at most 2^51 hundred-millionths. -/
def SwingSmall (es : List PEntry) : Prop :=
  ∀ s, (es.length + 3) * (es.map (PEntry.swing s)).sum * 100000000 ≤ (2 ^ 51 : Rat)

/-- Specification: the lines for an entry, the last of `upto`, in columns wide enough: on the first the date, the mark
and the description; one line for each currency in which it touches the assets, and on it exactly the change and
exactly the sum of the changes by all entries so far. -/
def ListedAs (env : Env) (c : Cols) (upto : List PEntry) (e : PEntry) (block : List Str) : Prop :=
  ∃ (f : Front) (g : Str × Str) (gs : List (Str × Str)),
    env.fmtDate e.day s%"%Y/%m/%d" = some f.date ∧ [f.status] = e.mark ∧
    f.description = joinWith s%" " (splitWs e.title) ∧
    f.date.length ≤ c.date ∧ f.description.length ≤ c.description ∧ f.source.length ≤ c.source ∧
    f.dest.length ≤ c.dest ∧
    List.Forall₂ (fun s (g : Str × Str) =>
        Amount.parse g.1 '.' = .ok (⟨e.shift s, s⟩ : Amount Rat) ∧
        Amount.parse g.2 '.' = .ok (⟨(upto.map (PEntry.shift s)).sum, s⟩ : Amount Rat) ∧
        g.1.length ≤ c.amount ∧ g.2.length ≤ c.total)
      (firstSeen (e.assets.map Prod.snd)) (g :: gs) ∧
    block = (f.text c ++ figureText c g) ::
      gs.map fun g => List.replicate
        (c.front + (excess f.date + excess f.description + excess f.source + excess f.dest)) ' ' ++ figureText c g

/-- Specification: each entry, after those `before`, has its block of lines, or else it has none and changes nothing. -/
inductive Listing (P : List PEntry → PEntry → List Str → Prop) : List PEntry → List PEntry → List (List Str) → Prop
  | done (before : List PEntry) : Listing P before [] []
  | listed {before es : List PEntry} {e : PEntry} {block : List Str} {blocks : List (List Str)}
      (h : P (before ++ [e]) e block) (rest : Listing P (before ++ [e]) es blocks) :
      Listing P before (e :: es) (block :: blocks)
  | left_out {before es : List PEntry} {e : PEntry} {blocks : List (List Str)}
      (h : ∀ s, e.shift s = 0) (rest : Listing P (before ++ [e]) es blocks) : Listing P before (e :: es) blocks

/-! ### The order of the entries -/

theorem insertBy_rel {α β : Type} (lt : α → α → Bool) (lt' : β → β → Bool) (R : α → β → Prop)
    (hR : ∀ a b c d, R a b → R c d → lt a c = lt' b d) (a : α) (b : β) (hab : R a b) (l : List α) (l' : List β)
    (h : List.Forall₂ R l l') : List.Forall₂ R (insertBy lt a l) (insertBy lt' b l') := by
  induction h with
  | nil => exact .cons hab .nil
  | cons hr hl ih =>
    simp only [insertBy]
    rw [hR _ _ _ _ hr hab]
    split
    · exact .cons hr ih
    · exact .cons hab (.cons hr hl)

theorem stableSort_rel {α β : Type} (lt : α → α → Bool) (lt' : β → β → Bool) (R : α → β → Prop)
    (hR : ∀ a b c d, R a b → R c d → lt a c = lt' b d) (l : List α) (l' : List β)
    (h : List.Forall₂ R l l') : List.Forall₂ R (stableSort lt l) (stableSort lt' l') := by
  induction h with
  | nil => exact .nil
  | cons hr _ ih => exact insertBy_rel lt lt' R hR _ _ hr _ _ ih

theorem stableSort_dateOrdered {M : Type} (xs : List (Entry M)) :
    DateOrdered xs (stableSort (fun a b => Date.lt a.date b.date) xs) := by
  refine ⟨stableSort_sorted _ ?_ ?_ _, stableSort_perm _ _, ?_⟩
  · intro a b c h1 h2
    rw [Date.lt_false_iff_dayNum] at h1 h2 ⊢
    omega
  · intro a b h1
    rw [Date.lt_iff_dayNum] at h1
    rw [Date.lt_false_iff_dayNum]
    omega
  · intro d
    rw [stableSort_filter]
    intro a b ha hb
    simp only [decide_eq_true_eq] at ha hb
    rw [Date.lt_false_iff_dayNum, ha, hb]

theorem stableSort_inDateOrder (es : List PEntry) : InDateOrder es (stableSort (fun a b => Date.lt a.day b.day) es) := by
  refine ⟨stableSort_sorted _ ?_ ?_ _, stableSort_perm _ _, ?_⟩
  · intro a b c h1 h2
    rw [Date.lt_false_iff_dayNum] at h1 h2 ⊢
    omega
  · intro a b h1
    rw [Date.lt_iff_dayNum] at h1
    rw [Date.lt_false_iff_dayNum]
    omega
  · intro d
    rw [stableSort_filter]
    intro a b ha hb
    simp only [decide_eq_true_eq] at ha hb
    rw [Date.lt_false_iff_dayNum, ha, hb]

/-- The entries of the ledger are those written, in the order of their days. -/
theorem written_order {M : Type} [Mag M] {es : List PEntry} {xs ys : List (Entry M)} (hx : List.Forall₂ EntryOf es xs)
    (hd : DateOrdered xs ys) : ∃ ds, InDateOrder es ds ∧ List.Forall₂ EntryOf ds ys := by
  refine ⟨_, stableSort_inDateOrder es, ?_⟩
  rw [C47_order_is_determined _ _ _ hd (stableSort_dateOrdered xs)]
  refine stableSort_rel _ _ _ ?_ _ _ hx
  intro a b c d h1 h2
  rw [h1.1.1, h2.1.1]

/-! ### The change by an entry -/

theorem assets_weighed (e : PEntry) : e.assetsWeighed.map Prod.fst = e.assets := by
  unfold PEntry.assetsWeighed PEntry.assets
  rw [List.map_filterMap]
  refine List.filterMap_congr fun l _ => ?_
  split
  · cases e.worth l <;> rfl
  · rfl

theorem shift_weighed (s : Option Str) (e : PEntry) :
    e.shift s = ((e.assetsWeighed.filter fun v => v.1.2 = s).map fun v => v.1.1).sum := by
  unfold PEntry.shift
  rw [← assets_weighed, List.map_map]
  generalize e.assetsWeighed = L
  induction L with
  | nil => rfl
  | cons v L ih =>
    rw [List.map_cons, List.sum_cons, ih, List.filter_cons]
    by_cases h : v.1.2 = s
    · simp [h]
    · simp [h]

theorem EntryOf.focus {M : Type} [Mag M] {e : PEntry} (h : e.Sound) {x : Entry M}
    (hx : EntryOf e x) :
    x.focusAmounts none = e.lines.filterMap fun l => if s%"asset" <+: l.account then e.readWorth l else none := by
  have key : ∀ ls : List PLine, (∀ l ∈ ls, l ∈ e.lines) →
      (((ls.map (PLine.posting (M := M))).filter fun p => decide (InFocus none p.account)).map x.valueOf) =
      ls.filterMap fun l => if s%"asset" <+: l.account then e.readWorth l else none := by
    intro ls
    induction ls with
    | nil => intro _; rfl
    | cons l ls ih =>
      intro hl
      have ih := ih fun j hj => hl j (by simp [hj])
      by_cases hk : s%"asset" <+: l.account
      · have hw : e.readWorth l = some (x.valueOf l.posting) := by
          unfold Entry.valueOf PEntry.readWorth PLine.posting PLine.read Posting.amount
          cases hv : l.value with
          | some v => rfl
          | none =>
            obtain ⟨v, h1, h2⟩ := h.blankAmount hx ⟨l, hl l (by simp), hv⟩
            simp only [Option.map, h2, h1]
        have hf : decide (InFocus none (PLine.posting (M := M) l).account) = true := decide_eq_true hk
        rw [List.map_cons, List.filter_cons_of_pos (p := fun p : Posting M => decide (InFocus none p.account)) hf, List.map_cons, ih,
          List.filterMap_cons_some (b := x.valueOf l.posting) (by rw [if_pos hk, hw])]
      · have hf : ¬ decide (InFocus none (PLine.posting (M := M) l).account) = true := fun hd => hk (of_decide_eq_true hd)
        rw [List.map_cons, List.filter_cons_of_neg (p := fun p : Posting M => decide (InFocus none p.account)) hf, ih, List.filterMap_cons_none (by rw [if_neg hk])]
  unfold Entry.focusAmounts
  rw [hx.2]
  exact key e.lines fun _ h => h

theorem specAdd_parts (s : Option Str) (as : List (Amount F64)) (t : Option F64) :
    as.foldl (specAdd s) t = (partsOf s as).foldl (fun t m => moreBy t (some m)) t := by
  induction as generalizing t with
  | nil => rfl
  | cons a as ih =>
    rw [List.foldl_cons, ih]
    unfold partsOf
    by_cases h : a.sym = s
    · rw [List.filter_cons_of_pos (by simp [h]), List.map_cons, List.foldl_cons]
      congr 1
      unfold specAdd
      rw [if_pos h]
      cases t <;> rfl
    · rw [List.filter_cons_of_neg (by simp [h])]
      congr 1
      unfold specAdd
      rw [if_neg h]

theorem more_sum (ms : List F64) (t : F64) :
    ms.foldl (fun t m => moreBy t (some m)) (some t) = some (ms.foldl F64.add t) := by
  induction ms generalizing t with
  | nil => rfl
  | cons m ms ih => rw [List.foldl_cons, List.foldl_cons]; exact ih _

theorem more_all (ms : List F64) :
    ms.foldl (fun t m => moreBy t (some m)) none = if ms = [] then none else some (sumF ms) := by
  cases ms with
  | nil => rfl
  | cons m ms => rw [List.foldl_cons]; exact more_sum ms m

theorem swing_nonneg (s : Option Str) (e : PEntry) : 0 ≤ e.swing s := by
  unfold PEntry.swing
  refine mul_nonneg (by positivity) (List.sum_nonneg ?_)
  intro x hx
  obtain ⟨v, hv, rfl⟩ := List.mem_map.1 hx
  obtain ⟨l, _, hl⟩ := List.mem_filterMap.1 (List.mem_filter.1 hv).1
  split at hl
  · obtain ⟨u, _, rfl⟩ := Option.map_eq_some_iff.1 hl
    show 0 ≤ e.weight l
    unfold PEntry.weight
    split
    · exact abs_nonneg _
    · refine mul_nonneg (by positivity) (List.sum_nonneg ?_)
      intro x hx
      obtain ⟨v, _, rfl⟩ := List.mem_map.1 hx
      exact abs_nonneg _
  · cases hl

theorem weight_swing {e : PEntry} {l : PLine} {v : Rat × Option Str} (hl : l ∈ e.lines) (hk : s%"asset" <+: l.account)
    (hv : e.worth l = some v) : 3 * e.weight l ≤ e.swing v.2 := by
  have hm : (v, e.weight l) ∈ e.assetsWeighed.filter fun w => w.1.2 = v.2 :=
    List.mem_filter.2 ⟨List.mem_filterMap.2 ⟨l, hl, by rw [if_pos hk, hv]; rfl⟩, by simp⟩
  have hnn : ∀ w ∈ e.assetsWeighed, 0 ≤ w.2 := by
    intro w hw
    obtain ⟨l, _, hl⟩ := List.mem_filterMap.1 hw
    split at hl
    · obtain ⟨u, _, rfl⟩ := Option.map_eq_some_iff.1 hl
      show 0 ≤ e.weight l
      unfold PEntry.weight
      split
      · exact abs_nonneg _
      · refine mul_nonneg (by positivity) (List.sum_nonneg ?_)
        intro x hx
        obtain ⟨v, _, rfl⟩ := List.mem_map.1 hx
        exact abs_nonneg _
    · cases hl
  have h1 : e.weight l ≤ ((e.assetsWeighed.filter fun w => w.1.2 = v.2).map Prod.snd).sum := by
    refine List.single_le_sum ?_ _ (List.mem_map_of_mem (f := Prod.snd) hm)
    intro x hx
    obtain ⟨w, hw, rfl⟩ := List.mem_map.1 hx
    exact hnn w (List.mem_filter.1 hw).1
  have h0 : 0 ≤ e.weight l := hnn _ (List.mem_filter.1 hm).1
  have hlen : (1 : Rat) ≤ (e.assetsWeighed.filter fun w => w.1.2 = v.2).length := by
    exact_mod_cast List.length_pos_of_mem hm
  unfold PEntry.swing
  generalize ((e.assetsWeighed.filter fun w => w.1.2 = v.2).map Prod.snd).sum = S at *
  generalize ((e.assetsWeighed.filter fun w => w.1.2 = v.2).length : Rat) = n at *
  have h3 : 3 * S ≤ (n + 2) * S := mul_le_mul_of_nonneg_right (by linarith) (by linarith)
  linarith

/-- The change by an entry that was read, and the change by the entry as written. -/
def ChangeAs (e : PEntry) (x : Entry F64) : Prop :=
  x.focusAmounts none = (e.lines.filterMap fun l => if s%"asset" <+: l.account then e.readWorth l else none) ∧
  (x.focusAmounts none).map Amount.sym = e.assets.map Prod.snd ∧
  ∀ s, ∃ (D : Int) (V : Nat), e.shift s * 100000000 = D ∧ e.swing s * 100000000 = V ∧
    ((x.change none s = none ∧ D = 0) ∨ ∃ m, x.change none s = some m ∧ NearTo m D V)

theorem change_as {e : PEntry} (h : e.Sound)
    (h8 : ∀ v ∈ e.given, ∃ D : Int, v.1 * 100000000 = D) {x : Entry F64} (hx : EntryOf e x)
    (hs : ∀ s, e.swing s * 400000000 ≤ (2 ^ 51 : Rat)) : ChangeAs e x := by
  have hf := hx.focus h
  have hn : List.Forall₂ ReadAs (x.focusAmounts none) e.assetsWeighed := by
    rw [hf]
    refine lines_near h h8 (fun l => s%"asset" <+: l.account) fun l hl hk => ?_
    have hex : ∃ r, e.worth l = some r := by
      unfold PEntry.worth
      cases hv : l.value with
      | some v => exact ⟨v, rfl⟩
      | none =>
        obtain ⟨v, vs, hv⟩ := List.exists_cons_of_ne_nil (h.oneCurrency ⟨l, hl, hv⟩).1
        exact ⟨_, by unfold PEntry.rest; rw [hv]⟩
    obtain ⟨r, h1⟩ := hex
    have h2 := weight_swing hl hk h1
    have h3 := hs r.2
    have h4 := swing_nonneg r.2 e
    linarith
  refine ⟨hf, ?_, fun s => ?_⟩
  · rw [← assets_weighed, List.map_map]
    generalize x.focusAmounts none = as at hn
    generalize e.assetsWeighed = bs at hn
    induction hn with
    | nil => rfl
    | cons h1 _ ih => rw [List.map_cons, List.map_cons, ih, h1.1]; rfl
  · obtain ⟨p1, p2, p3⟩ := parts_near s _ _ hn
    have hsw : e.swing s * 100000000 = ((((e.assetsWeighed.filter fun v => v.1.2 = s).length + 2) *
        ((e.assetsWeighed.filter fun w => w.1.2 = s).map fun w => (u8 w.2).natAbs).sum : Nat) : Rat) := by
      unfold PEntry.swing
      push_cast
      rw [mul_assoc, p3]
    refine ⟨_, _, by rw [shift_weighed]; exact p2, hsw, ?_⟩
    have hc : x.change none s = if partsOf s (x.focusAmounts none) = [] then none
        else some (sumF (partsOf s (x.focusAmounts none))) := by
      unfold Entry.change
      rw [specAdd_parts, more_all]
    by_cases h0 : partsOf s (x.focusAmounts none) = []
    · left
      rw [h0] at p1
      rw [hc, if_pos h0]
      refine ⟨rfl, ?_⟩
      have : (e.assetsWeighed.filter fun w => w.1.2 = s) = [] := by
        have := List.forall₂_nil_left_iff.1 p1
        exact List.map_eq_nil_iff.1 this
      rw [this]; rfl
    · right
      rw [hc, if_neg h0]
      refine ⟨_, rfl, ?_⟩
      have hb : (((e.assetsWeighed.filter fun w => w.1.2 = s).map fun w => (u8 w.1.1, (u8 w.2).natAbs)).length + 3) *
          (((e.assetsWeighed.filter fun w => w.1.2 = s).map fun w => (u8 w.1.1, (u8 w.2).natAbs)).map Prod.snd).sum ≤ 2 ^ 51 := by
        have h4 := hs s
        have h5 : (4 : Rat) * ((((e.assetsWeighed.filter fun v => v.1.2 = s).length + 2) *
          ((e.assetsWeighed.filter fun w => w.1.2 = s).map fun w => (u8 w.2).natAbs).sum : Nat) : Rat) ≤ 2 ^ 51 := by
          rw [← hsw]; linarith
        have h5 : 4 * (((e.assetsWeighed.filter fun v => v.1.2 = s).length + 2) *
          ((e.assetsWeighed.filter fun w => w.1.2 = s).map fun w => (u8 w.2).natAbs).sum) ≤ 2 ^ 51 := by exact_mod_cast h5
        rw [List.length_map, List.map_map]
        refine le_trans ?_ h5
        rw [← Nat.mul_assoc]
        exact Nat.mul_le_mul_right _ (by omega)
      have := sumF_near _ _ p1 hb
      rw [List.length_map, List.map_map, List.map_map] at this
      exact this

/-! ### The running total -/

/-- A sum of doubles near to hundred-millionths is printed as a numeral worth the sum. -/
theorem sums_shown (xs : List F64) (ts : List (Int × Nat)) (h : List.Forall₂ (fun x t => NearTo x t.1 t.2) xs ts)
    (hb : (ts.length + 3) * (ts.map Prod.snd).sum ≤ 2 ^ 51) (q : Rat) (hq : q * 100000000 = ((ts.map Prod.fst).sum : Int))
    (s : Option Str) (hs : ∀ y, s = some y → ValidSymbol '.' y) :
    Amount.parse (⟨sumF xs, s⟩ : Amount F64).display '.' = .ok (⟨q, s⟩ : Amount Rat) := by
  obtain ⟨_, neg, r2, r3⟩ := sumF_shown xs ts h hb
  obtain ⟨d, k', q1, q2⟩ := shows_rat r2
  refine Amount.parse_display_as (a := ⟨sumF xs, s⟩) q1 ?_ hs
  rw [q2, ← r3]
  congr 1
  rw [div_eq_iff (by norm_num)]
  exact hq.symm

theorem running_sum (xs : List (Entry F64)) (s : Option Str) (t : Option F64) :
    xs.foldl (fun t x => moreBy t (x.change none s)) t =
      (xs.filterMap fun x => x.change none s).foldl (fun t m => moreBy t (some m)) t := by
  induction xs generalizing t with
  | nil => rfl
  | cons x xs ih =>
    rw [List.foldl_cons, ih]
    cases hc : x.change none s with
    | none => rw [List.filterMap_cons_none (f := fun x : Entry F64 => x.change none s) hc]; rfl
    | some m => rw [List.filterMap_cons_some (f := fun x : Entry F64 => x.change none s) hc]; rfl

theorem changes_near (s : Option Str) (bs : List PEntry) (xs : List (Entry F64)) (h : List.Forall₂ ChangeAs bs xs) :
    ∃ ts : List (Int × Nat), List.Forall₂ (fun x (t : Int × Nat) => NearTo x t.1 t.2) (xs.filterMap fun x => x.change none s) ts ∧
      (bs.map (PEntry.shift s)).sum * 100000000 = ((ts.map Prod.fst).sum : Int) ∧
      ts.length ≤ bs.length ∧ ((ts.map Prod.snd).sum : Nat) ≤ (bs.map (PEntry.swing s)).sum * 100000000 := by
  induction h with
  | nil => exact ⟨[], .nil, by simp, by simp, by simp⟩
  | @cons e x bs xs h1 _ ih =>
    obtain ⟨ts, i1, i2, i3, i4⟩ := ih
    obtain ⟨D, V, h2, h3, h4 | ⟨m, h4, h5⟩⟩ := h1.2.2 s
    · refine ⟨ts, by rw [List.filterMap_cons_none (f := fun x : Entry F64 => x.change none s) h4.1]; exact i1, ?_, ?_, ?_⟩
      · rw [List.map_cons, List.sum_cons, add_mul, h2, h4.2, i2]; simp
      · rw [List.length_cons]; omega
      · rw [List.map_cons, List.sum_cons, add_mul]
        have := swing_nonneg s e
        linarith
    · refine ⟨(D, V) :: ts, by rw [List.filterMap_cons_some (f := fun x : Entry F64 => x.change none s) h4]; exact .cons h5 i1, ?_, ?_, ?_⟩
      · rw [List.map_cons, List.sum_cons, add_mul, h2, i2]; simp
      · rw [List.length_cons, List.length_cons]; omega
      · rw [List.map_cons, List.sum_cons, List.map_cons, List.sum_cons, add_mul, h3]
        push_cast
        linarith

theorem swing_sublist (s : Option Str) {bs ds : List PEntry} (h : bs.Sublist ds) :
    (bs.map (PEntry.swing s)).sum ≤ (ds.map (PEntry.swing s)).sum := by
  induction h with
  | slnil => exact le_rfl
  | cons e _ ih => rw [List.map_cons, List.sum_cons]; have := swing_nonneg s e; linarith
  | cons_cons e _ ih => rw [List.map_cons, List.sum_cons, List.map_cons, List.sum_cons]; linarith

/-- What is printed for the total. -/
theorem total_shown {bs : List PEntry} {xs : List (Entry F64)} (h : List.Forall₂ ChangeAs bs xs) (s : Option Str)
    (hb : (bs.length + 3) * (bs.map (PEntry.swing s)).sum * 100000000 ≤ (2 ^ 51 : Rat)) (t : F64)
    (ht : runningTotal none xs s = some t) (hs : ∀ y, s = some y → ValidSymbol '.' y) :
    Amount.parse (⟨t, s⟩ : Amount F64).display '.' = .ok (⟨(bs.map (PEntry.shift s)).sum, s⟩ : Amount Rat) := by
  obtain ⟨ts, h1, h2, h3, h4⟩ := changes_near s bs xs h
  unfold runningTotal at ht
  rw [running_sum, more_all] at ht
  split at ht
  · cases ht
  · cases ht
    refine sums_shown _ ts h1 ?_ _ h2 s hs
    have h5 : (ts.length + 3 : Rat) * ((ts.map Prod.snd).sum : Nat) ≤ 2 ^ 51 := by
      refine le_trans ?_ hb
      rw [mul_assoc]
      have h3 : (ts.length : Rat) ≤ bs.length := by exact_mod_cast h3
      exact mul_le_mul (by linarith) h4 (Nat.cast_nonneg _) (by positivity)
    exact_mod_cast h5

theorem eq_zero_value {m : F64} (h : Mag.eq m (Mag.zero : F64) = true) : m.value = 0 := by
  cases m with
  | nan => cases h
  | inf s => cases h
  | fin s n hr =>
    have h : F64.sgn s n = F64.sgn false 0 := of_decide_eq_true h
    have h0 : n = 0 := by
      cases s <;> simpa [F64.sgn] using h
    subst h0
    simp [F64.value]

/-- An entry that is not shown changes nothing. -/
theorem unchanged {e : PEntry} {x : Entry F64} (h : ChangeAs e x) (hs : ∀ s, e.swing s * 400000000 ≤ (2 ^ 51 : Rat))
    (hn : ¬ x.Changes none) (s : Option Str) : e.shift s = 0 := by
  obtain ⟨D, V, h2, h3, h4 | ⟨m, h4, h5⟩⟩ := h.2.2 s
  · rw [h4.2] at h2
    have : e.shift s * 100000000 = 0 := by simpa using h2
    linarith
  · have hz : Mag.eq m (Mag.zero : F64) = true := by
      cases hm : Mag.eq m (Mag.zero : F64) with
      | true => rfl
      | false => exact absurd ⟨s, m, h4, hm⟩ hn
    have hv := eq_zero_value hz
    obtain ⟨_, h6, _⟩ := h5
    rw [hv] at h6
    have hV : (V : Rat) * 4 ≤ 2 ^ 51 := by have := hs s; linarith
    have h7 : |(D : Rat)| < 1 := by
      rw [zero_mul, zero_sub, abs_neg] at h6
      refine lt_of_le_of_lt h6 ?_
      rw [div_lt_one (by norm_num)]
      linarith
    have h8 : |D| < 1 := by exact_mod_cast h7
    have h9 : D = 0 := by
      have := abs_lt.1 h8
      omega
    rw [h9] at h2
    have : e.shift s * 100000000 = 0 := by simpa using h2
    linarith

/-! ### The blocks -/

theorem asset_symbol {e : PEntry} (h : e.Sound) (s : Option Str)
    (hs : s ∈ e.assets.map Prod.snd) : ∀ y, s = some y → ValidSymbol '.' y := by
  have hg : ∀ v ∈ e.given, ∀ y, v.2 = some y → ValidSymbol '.' y := by
    intro v hv y hy
    obtain ⟨l, hl, hlv⟩ := List.mem_filterMap.1 hv
    obtain ⟨_, _, _, _, _, _, hw | ⟨sym, e1, e2, _⟩⟩ := h.amounts l hl v.1 v.2 hlv
    · rw [hw.1] at hy; cases hy
    · rw [e1] at hy; cases hy; exact e2
  obtain ⟨v, hv, rfl⟩ := List.mem_map.1 hs
  obtain ⟨l, hl, hlv⟩ := List.mem_filterMap.1 hv
  split at hlv
  · unfold PEntry.worth at hlv
    cases hv : l.value with
    | some u =>
      rw [hv] at hlv
      cases hlv
      exact hg _ (List.mem_filterMap.2 ⟨l, hl, hv⟩)
    | none =>
      rw [hv] at hlv
      unfold PEntry.rest at hlv
      cases hgv : e.given with
      | nil => rw [hgv] at hlv; cases hlv
      | cons u us =>
        rw [hgv] at hlv
        cases hlv
        exact hg u (by rw [hgv]; simp)
  · cases hlv

theorem listed_block {env : Env} {e : PEntry} (h : e.Sound) {x : Entry F64} (hx : EntryOf e x)
    (hc : ChangeAs e x) {bsh before : List PEntry} {upto : List (Entry F64)} (hu : List.Forall₂ ChangeAs (bsh ++ [e]) (upto ++ [x]))
    (hsum : ∀ s, (bsh.map (PEntry.shift s)).sum = (before.map (PEntry.shift s)).sum)
    (hb : ∀ s, ((bsh ++ [e]).length + 3) * ((bsh ++ [e]).map (PEntry.swing s)).sum * 100000000 ≤ (2 ^ 51 : Rat))
    (hb1 : ∀ s, e.swing s * 400000000 ≤ (2 ^ 51 : Rat)) {c : Cols} {block : List Str}
    (hl : LaidOut env s%"%Y/%m/%d" none c (upto ++ [x]) x block) : ListedAs env c (before ++ [e]) e block := by
  obtain ⟨f, g, gs, h1, h2, h3, _, h5, h6, h7, h8, h9, h10⟩ := hl
  refine ⟨f, g, gs, by rw [← hx.1.1]; exact h1, by rw [h2]; exact hx.1.2.1, by rw [h3]; exact hx.1.2.2, h5, h6, h7, h8, ?_, h10⟩
  rw [hc.2.1] at h9
  have hsym : ∀ s ∈ firstSeen (e.assets.map Prod.snd), ∀ y, s = some y → ValidSymbol '.' y := by
    intro s hs
    refine asset_symbol h s ?_
    have := (firstSeen_aux (e.assets.map Prod.snd) [] List.nodup_nil).2 s
    unfold firstSeen at hs
    simpa using this.1 hs
  generalize firstSeen (e.assets.map Prod.snd) = ss at h9 hsym
  generalize g :: gs = gg at h9
  clear h10
  induction h9 with
  | nil => exact .nil
  | @cons s g ss gg hg _ ih =>
    refine .cons ?_ (ih fun s hs => hsym s (by simp [hs]))
    obtain ⟨m, t, k1, k2, rfl, k4, k5⟩ := hg
    have hv := hsym s (by simp)
    refine ⟨?_, ?_, k4, k5⟩
    · have := total_shown (bs := [e]) (xs := [x]) (.cons hc .nil) s (by
        have := hb1 s
        simp only [List.length_singleton, List.map_cons, List.map_nil, List.sum_cons, List.sum_nil, add_zero, Nat.cast_one]
        linarith) m (by simp [runningTotal, k1, moreBy]) hv
      simpa using this
    · have := total_shown hu s (hb s) t k2 hv
      rw [List.map_append, List.sum_append, hsum] at this
      rw [List.map_append, List.sum_append]
      exact this

theorem listing_of {env : Env} {c : Cols} {ds : List PEntry}
    (hb : ∀ s, (ds.length + 3) * (ds.map (PEntry.swing s)).sum * 100000000 ≤ (2 ^ 51 : Rat))
    (es : List PEntry) (xs : List (Entry F64)) (hx : List.Forall₂ EntryOf es xs) (hc : List.Forall₂ ChangeAs es xs)
    (hok : ∀ e ∈ es, e.Sound) (before bsh : List PEntry) (upto : List (Entry F64))
    (hu : List.Forall₂ ChangeAs bsh upto) (hsub : (bsh ++ es).Sublist ds)
    (hsum : ∀ s, (bsh.map (PEntry.shift s)).sum = (before.map (PEntry.shift s)).sum) (blocks : List (List Str))
    (h : EachUpTo (LaidOut env s%"%Y/%m/%d" none c) upto (shownBy none none none xs) blocks) :
    Listing (ListedAs env c) before es blocks := by
  classical
  induction hx generalizing before bsh upto blocks with
  | nil =>
    cases blocks with
    | nil => exact .done _
    | cons => exact h.elim
  | @cons e x es xs h1 _ ih =>
    cases hc with
    | cons hc1 hc2 =>
    have he := hok e (by simp)
    have ih := ih hc2 (fun e he => hok e (by simp [he]))
    have hmem : e ∈ ds := hsub.subset (by simp)
    have hlen : (1 : Rat) ≤ ds.length := by exact_mod_cast List.length_pos_of_mem hmem
    have hb1 : ∀ s, e.swing s * 400000000 ≤ (2 ^ 51 : Rat) := by
      intro s
      have h2 : e.swing s ≤ (ds.map (PEntry.swing s)).sum := by
        refine List.single_le_sum ?_ _ (List.mem_map_of_mem hmem)
        intro y hy
        obtain ⟨z, _, rfl⟩ := List.mem_map.1 hy
        exact swing_nonneg s z
      have h3 := hb s
      have h0 := swing_nonneg s e
      generalize (ds.map (PEntry.swing s)).sum = S at *
      generalize (ds.length : Rat) = n at *
      have h4 : 4 * S ≤ (n + 3) * S := mul_le_mul_of_nonneg_right (by linarith) (by linarith)
      linarith
    by_cases hch : x.Changes none
    · have hsh : shownBy none none none (x :: xs) = x :: shownBy none none none xs := by
        unfold shownBy
        rw [List.filter_cons_of_pos (by simp [Within, hch])]
      rw [hsh] at h
      cases blocks with
      | nil => exact h.elim
      | cons block blocks =>
        obtain ⟨g1, g2⟩ := h
        have hu' : List.Forall₂ ChangeAs (bsh ++ [e]) (upto ++ [x]) := List.rel_append hu (.cons hc1 .nil)
        have hsub' : (bsh ++ [e] ++ es).Sublist ds := by simpa using hsub
        refine .listed ?_ (ih (before ++ [e]) (bsh ++ [e]) (upto ++ [x]) hu' hsub' ?_ blocks g2)
        · refine listed_block he h1 hc1 hu' hsum ?_ hb1 g1
          intro s
          have hsb : (bsh ++ [e]).Sublist ds := (List.sublist_append_left _ _).trans hsub'
          refine le_trans (mul_le_mul_of_nonneg_right ?_ (by norm_num)) (hb s)
          have hl : ((bsh ++ [e]).length : Rat) ≤ ds.length := by exact_mod_cast hsb.length_le
          refine mul_le_mul (by linarith) (swing_sublist s hsb) (List.sum_nonneg ?_) (by positivity)
          intro y hy
          obtain ⟨z, _, rfl⟩ := List.mem_map.1 hy
          exact swing_nonneg s z
        · intro s
          rw [List.map_append, List.sum_append, hsum, List.map_append, List.sum_append]
    · have hsh : shownBy none none none (x :: xs) = shownBy none none none xs := by
        unfold shownBy
        rw [List.filter_cons_of_neg (by simp [hch])]
      rw [hsh] at h
      have h0 := unchanged hc1 hb1 hch
      refine .left_out h0 (ih (before ++ [e]) bsh upto hu ?_ ?_ blocks h)
      · refine List.Sublist.trans ?_ hsub
        exact List.Sublist.append (List.Sublist.refl _) (List.sublist_cons_self _ _)
      · intro s
        rw [List.map_append, List.sum_append, hsum]
        simp [h0 s]

theorem forall₂_left_with {α β : Type} {R S : α → β → Prop} {as : List α} {bs : List β} (h : List.Forall₂ R as bs)
    (hi : ∀ a ∈ as, ∀ b, R a b → S a b) : List.Forall₂ S as bs := by
  induction h with
  | nil => exact .nil
  | cons h1 _ ih => exact .cons (hi _ (by simp) _ h1) (ih fun a ha b => hi a (by simp [ha]) b)

/-- C120. With doubles, as the program has them: `silverfox register` on a journal that declares accounts and has
entries, as written, with amounts of at most eight decimals and small enough, goes through the entries in the order of
their days and prints for each that touches accounts beginning with "asset" one line for each currency, with exactly the
change and exactly the sum of all changes so far, to the last digit. It leaves out only entries that change nothing. -/
theorem C120_the_register_is_exact (env : Env) (hord : FairOrder env.ord) (o : Outside) (w : World) (accs : List Str)
    (es : List PEntry) (text path : Str) (h : WrittenJournal env accs es text) (hr : w.read path = some text)
    (hfuel : o.fuel ≠ 0) (hterm : o.terminal = true) (c : Str) (args : List Str) (fs : List Flag)
    (hc : c.head? = some 'r') (ha : Spelled fs args) (hj : journalFor o fs = some path)
    (hday : ∀ e ∈ es, ∃ d, env.fmtDate e.day s%"%Y/%m/%d" = some d) (h8 : EightDecimals es) (hsmall : SwingSmall es) :
    ∃ w' out, mainProgram F64 env o (c :: args) w = (w', .ok out) ∧ w'.file = w.file ∧
      ∃ ds cols blocks, InDateOrder es ds ∧ out = blocks.flatten ∧ Listing (ListedAs env cols) [] ds blocks := by
  obtain ⟨fuel, hf⟩ := Nat.exists_eq_succ_of_ne_zero hfuel
  obtain ⟨xs, l, h1, h2, h3, h4⟩ := h.loads (M := F64) hord fuel w path hr
  have hl : LedgerFor env o fs w l (w.cdParent path) := by
    refine ⟨path, l, _, hj, by rw [hf]; exact h4, ?_⟩
    by_cases hn : Flag.noMove ∈ fs
    · exact Or.inl ⟨hn, rfl, rfl⟩
    · exact Or.inr ⟨hn, fill_bare env hord l h2 _⟩
  obtain ⟨out, hout⟩ := C73_shown env (fuel + 1) w _ path l none none none h4 (by
    intro x hx
    obtain ⟨e, he, hex⟩ := forall₂_mem_right h1 (h3.same.mem_iff.1 hx)
    rw [hex.1.1, h2.dateFormat]
    exact hday e he)
  obtain ⟨ds, d1, d2⟩ := written_order h1 h3
  have hb : ∀ s, (ds.length + 3) * (ds.map (PEntry.swing s)).sum * 100000000 ≤ (2 ^ 51 : Rat) := by
    intro s
    rw [d1.same.length_eq, (d1.same.map _).sum_eq]
    exact hsmall s
  have hch : List.Forall₂ ChangeAs ds l.entries := by
    refine forall₂_left_with d2 fun e he x hx => ?_
    have hmem := d1.same.mem_iff.1 he
    refine change_as (h.entries e hmem).sound (h8 e hmem) hx ?_
    intro s
    have h2 : e.swing s ≤ (ds.map (PEntry.swing s)).sum := by
      refine List.single_le_sum ?_ _ (List.mem_map_of_mem he)
      intro y hy
      obtain ⟨z, _, rfl⟩ := List.mem_map.1 hy
      exact swing_nonneg s z
    have h3 := hb s
    have h0 := swing_nonneg s e
    have hlen : (1 : Rat) ≤ ds.length := by exact_mod_cast List.length_pos_of_mem he
    generalize (ds.map (PEntry.swing s)).sum = S at *
    generalize (ds.length : Rat) = n at *
    have h4 : 4 * S ≤ (n + 3) * S := mul_le_mul_of_nonneg_right (by linarith) (by linarith)
    linarith
  obtain ⟨cols, blocks, b1, b2⟩ := C92_layout env true l.entries l.dateFormat none none none out hout
  rw [h2.dateFormat] at b2
  refine ⟨_, out, C79_report_printed env o c args w (w.cdParent path) out .register fs hc ha l hl (.register hout)
    (by simp) (fun _ => hterm), rfl, ds, cols, blocks, d1, b1, ?_⟩
  exact listing_of hb ds l.entries d2 hch (fun e he => (h.entries e (d1.same.mem_iff.1 he)).sound) [] [] [] .nil (by simp)
    (fun _ => rfl) blocks b2

/-! ### A journal -/

def exListedText : Str :=
  s%"account assets:cash\naccount food\n\n2024/01/05 ? eat\n food 3.25$\n assets:cash\n\n2024/01/02 * pay\n assets:cash $10.50\n food -10.5 $\n"

def exListed1 : PEntry where
  date := s%"2024/01/05"
  mark := s%"?"
  title := s%"eat"
  day := ⟨2024, 1, 5, by decide⟩
  lines := [⟨s%" ", s%"food", s%" ", s%"3.25$", some (13 / 4, some s%"$")⟩, ⟨s%" ", s%"assets:cash", [], [], none⟩]

def exListed2 : PEntry where
  date := s%"2024/01/02"
  mark := s%"*"
  title := s%"pay"
  day := ⟨2024, 1, 2, by decide⟩
  lines := [⟨s%" ", s%"assets:cash", s%" ", s%"$10.50", some (21 / 2, some s%"$")⟩,
    ⟨s%" ", s%"food", s%" ", s%"-10.5 $", some (-21 / 2, some s%"$")⟩]

/-- It is written well. -/
theorem exListed_ok : WrittenJournal (stdEnv june15) [s%"assets:cash", s%"food"] [exListed1, exListed2] exListedText := by
  have hd : ValidSymbol '.' s%"$" := by decide
  have a1 : WrittenAmount s%"$10.50" (21 / 2) (some s%"$") :=
    ⟨s%"10.50", false, 1050, 2, ⟨s%"10", s%"50", by decide, by decide, by decide, by decide, by decide, by decide⟩,
      by norm_num, Or.inr ⟨_, rfl, hd, by decide⟩⟩
  have a2 : WrittenAmount s%"-10.5 $" (-21 / 2) (some s%"$") :=
    ⟨s%"-10.5", true, 105, 1, ⟨s%"10", s%"5", by decide, by decide, by decide, by decide, by decide, by decide⟩,
      by norm_num, Or.inr ⟨_, rfl, hd, by decide⟩⟩
  have a3 : WrittenAmount s%"3.25$" (13 / 4) (some s%"$") :=
    ⟨s%"3.25", false, 325, 2, ⟨s%"3", s%"25", by decide, by decide, by decide, by decide, by decide, by decide⟩,
      by norm_num, Or.inr ⟨_, rfl, hd, by decide⟩⟩
  refine ⟨by decide +kernel, by decide +kernel, ?_⟩
  intro e he
  simp only [List.mem_cons, List.not_mem_nil, or_false] at he
  rcases he with rfl | rfl
  · refine ⟨by decide +kernel, by decide, by decide, by decide +kernel, ?_, by decide, ?_⟩
    · intro l hl
      simp only [exListed1, List.mem_cons, List.not_mem_nil, or_false] at hl
      rcases hl with rfl | rfl
      · refine ⟨by decide, by decide, by decide, by decide, by decide, by decide +kernel, by simp, ?_⟩
        intro q s h; cases h; exact ⟨by decide, by decide +kernel, a3⟩
      · refine ⟨by decide, by decide, by decide, by decide, by decide, by decide +kernel, by simp, ?_⟩
        intro q s h; cases h
    · intro _
      exact ⟨by decide, some s%"$", by decide⟩
  · refine ⟨by decide +kernel, by decide, by decide, by decide +kernel, ?_, by decide, ?_⟩
    · intro l hl
      simp only [exListed2, List.mem_cons, List.not_mem_nil, or_false] at hl
      rcases hl with rfl | rfl
      · refine ⟨by decide, by decide, by decide, by decide, by decide, by decide +kernel, by simp, ?_⟩
        intro q s h; cases h; exact ⟨by decide, by decide +kernel, a1⟩
      · refine ⟨by decide, by decide, by decide, by decide, by decide, by decide +kernel, by simp, ?_⟩
        intro q s h; cases h; exact ⟨by decide, by decide +kernel, a2⟩
    · rintro ⟨l, hl, hv⟩
      simp only [exListed2, List.mem_cons, List.not_mem_nil, or_false] at hl
      rcases hl with rfl | rfl <;> cases hv

/-- The amounts have at most eight decimals, and are small. -/
example : EightDecimals [exListed1, exListed2] ∧ SwingSmall [exListed1, exListed2] ∧
    exListed2.shift (some s%"$") = 21 / 2 ∧ exListed1.shift (some s%"$") = -13 / 4 := by
  refine ⟨?_, ?_, by decide +kernel, by decide +kernel⟩
  · intro e he v hv
    have hv : v = (21 / 2, some s%"$") ∨ v = (-21 / 2, some s%"$") ∨ v = (13 / 4, some s%"$") := by
      simp only [List.mem_cons, List.not_mem_nil, or_false] at he
      rcases he with rfl | rfl
      · simp [PEntry.given, exListed1] at hv
        grind
      · simp [PEntry.given, exListed2] at hv
        grind
    rcases hv with rfl | rfl | rfl
    · exact ⟨1050000000, by norm_num⟩
    · exact ⟨-1050000000, by norm_num⟩
    · exact ⟨325000000, by norm_num⟩
  · have h1 : exListed1.assetsWeighed = [((-13 / 4, some s%"$"), 39 / 4)] := by decide +kernel
    have h2 : exListed2.assetsWeighed = [((21 / 2, some s%"$"), 21 / 2)] := by decide +kernel
    intro s
    simp only [List.map_cons, List.map_nil, List.sum_cons, List.sum_nil, PEntry.swing, h1, h2]
    by_cases hs : some s%"$" = s
    · subst hs; norm_num
    · rw [List.filter_cons_of_neg (by simpa using hs), List.filter_cons_of_neg (by simpa using hs)]; norm_num

/-- What is printed. -/
example : (disk [("j", String.ofList exListedText)]).read s%"j" = some exListedText ∧
    (mainProgram F64 (stdEnv june15) exOutside [s%"register", s%"-f", s%"j"]
      (disk [("j", String.ofList exListedText)])).2 = .ok [
        s%"2024/01/02 * pay         food -> assets:cash  $ 10.5  $ 10.5",
        s%"2024/01/05 ? eat  assets:cash -> food         $-3.25  $ 7.25"] := by decide +kernel

/-- C120, the limit: an entry that changes nothing can be listed. Ten cents and twenty cents come to a little more than
thirty cents in doubles, so the entry below is not taken for one that changes nothing, although what is printed for it
is zero. -/
theorem C120_nothing_can_be_listed :
    registerOf "account assets:a\naccount assets:b\n2024/01/02 * move\n assets:a 0.1\n assets:a 0.2\n assets:b -0.3\n"
      none none none = .ok [s%"2024/01/02 * move  assets:b -> assets:a   0   0"] := by decide +kernel

end Silverfox
