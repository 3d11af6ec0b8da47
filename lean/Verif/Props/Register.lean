import Verif.Props.Ledger
import Verif.Props.Pool
import Verif.Props.Rules
import Mathlib.Data.List.Forall2

/-
C73, C74: the register.
-/

namespace Silverfox

set_option linter.unusedSectionVars false
variable {M : Type} [Mag M]

/-! ### Specification -/

/-- Specification: the account is in focus: its name contains what was asked for; if nothing was,
it begins with "asset". -/
def InFocus (am : Option Str) (name : Str) : Prop :=
  match am with
  | some m => m <:+: name
  | none => s%"asset" <+: name

theorem isFocused_iff (am : Option Str) (name : Str) : isFocused am name = true ↔ InFocus am name := by
  cases am with
  | some m => exact containsStr_iff m name
  | none => simp [isFocused, InFocus, startsWith]

instance (am : Option Str) (name : Str) : Decidable (InFocus am name) :=
  decidable_of_iff _ (isFocused_iff am name)

/-- Specification: the amount of a posting: the one written, or else the one that balances the
entry (C15-C17 say which that is). -/
def Entry.valueOf (e : Entry M) (p : Posting M) : Amount M :=
  match p.amount with
  | some a => a
  | none => match e.blankAmount with
    | .ok (some b) => b
    | _ => Amount.zero

/-- Specification: the amounts an entry posts to the accounts in focus, in order. -/
def Entry.focusAmounts (e : Entry M) (am : Option Str) : List (Amount M) :=
  (e.postings.filter fun p => decide (InFocus am p.account)).map e.valueOf

/-- Specification: by how much an entry changes the accounts in focus, in the currency `s`;
`none`: it posts nothing of that currency. -/
def Entry.change (e : Entry M) (am : Option Str) (s : Option Str) : Option M :=
  (e.focusAmounts am).foldl (specAdd s) none

/-- Specification: the entry changes the accounts in focus by a non-zero amount. -/
def Entry.Changes (e : Entry M) (am : Option Str) : Prop :=
  ∃ s m, e.change am s = some m ∧ Mag.eq m (Mag.zero : M) = false

/-- Specification: the day is neither before the begin date nor after the end date. -/
def Within (b e : Option Date) (d : Date) : Prop :=
  (∀ x, b = some x → x.dayNum ≤ d.dayNum) ∧ (∀ x, e = some x → d.dayNum ≤ x.dayNum)

/-- Specification: one change more. -/
def moreBy (t m : Option M) : Option M :=
  match m with
  | none => t
  | some m => some (match t with | none => m | some t => Mag.add t m)

/-- Specification: the running total of the currency `s` after the entries `upto`. -/
def runningTotal (am : Option Str) (upto : List (Entry M)) (s : Option Str) : Option M :=
  upto.foldl (fun t x => moreBy t (x.change am s)) none

/-- Specification: the first line of what is shown for an entry begins with its date, its status
and its description. -/
def Heads (env : Env) (fmt : Str) (x : Entry M) (block : List Str) : Prop :=
  ∃ d n rest more, env.fmtDate x.date fmt = some d ∧
    block = (d ++ List.replicate n ' ' ++ ' ' :: x.status.toChar :: ' ' :: x.description ++ rest) :: more

/-- Specification: the distinct accounts of the postings whose amounts satisfy `P`. -/
def Entry.accountsWith (e : Entry M) (P : M → Bool) : List Str :=
  firstSeen ((e.postings.filter fun p => P (e.valueOf p).mag).map Posting.account)

/-- Specification: how several accounts are named in one place. -/
def named (as : List Str) : Str :=
  match as with
  | [] => s%"(none)"
  | [a] => a
  | _ => s%"(multiple)"

/-- Specification: the first line tells from which account the money comes and where it goes. -/
def Flows (x : Entry M) (block : List Str) : Prop :=
  ∃ front n k rest more, block = (front ++ x.description ++ List.replicate n ' ' ++ s%"  " ++
      List.replicate k ' ' ++ named (x.accountsWith fun m => Mag.lt m (Mag.zero : M)) ++ s%" -> " ++
      named (x.accountsWith fun m => Mag.lt (Mag.zero : M) m) ++ rest) :: more

/-- Specification: the line ends with the change `m` and the total `t`, of the currency `s`. -/
def EndsWith (s : Option Str) (m t : M) (line : Str) : Prop :=
  ∃ front i j, line = front ++ List.replicate i ' ' ++ (⟨m, s⟩ : Amount M).display ++ s%"  " ++
    List.replicate j ' ' ++ (⟨t, s⟩ : Amount M).display

/-- Specification: what is shown for the entry `x`, the last of `upto`: a line for each currency it
posts to the accounts in focus, with the change and the running total. -/
def Figures (am : Option Str) (upto : List (Entry M)) (x : Entry M) (block : List Str) : Prop :=
  List.Forall₂ (fun s line => ∃ m t, x.change am s = some m ∧ runningTotal am upto s = some t ∧
      EndsWith s m t line)
    (firstSeen ((x.focusAmounts am).map Amount.sym)) block

/-- The condition holds of each entry with its block, given the entries up to it. -/
def EachUpTo (P : List (Entry M) → Entry M → List Str → Prop) :
    List (Entry M) → List (Entry M) → List (List Str) → Prop
  | _, [], [] => True
  | before, x :: xs, b :: bs => P (before ++ [x]) x b ∧ EachUpTo P (before ++ [x]) xs bs
  | _, _, _ => False

open Classical in
/-- Specification: the entries the register shows. -/
noncomputable def shownBy (b e : Option Date) (am : Option Str) (es : List (Entry M)) : List (Entry M) :=
  es.filter fun x => decide (Within b e x.date ∧ x.Changes am)

/-! ### Lemmas -/

theorem inRange_iff (b e : Option Date) (d : Date) : Register.inRange b e d = true ↔ Within b e d := by
  cases b <;> cases e <;> simp [Register.inRange, Within, Date.le_iff_dayNum, and_comm]

theorem poolOf_line (as : List (Amount M)) (p : Pool M) (s : Option Str) :
    ((as.foldl Pool.add p).line s).map Amount.mag = as.foldl (specAdd s) ((p.line s).map Amount.mag) :=
  Pool.line_addPool as p s

theorem poolOf_syms (as : List (Amount M)) (p : Pool M) :
    (as.foldl Pool.add p).map Amount.sym = (as.map Amount.sym).foldl pushNew (p.map Amount.sym) :=
  Pool.syms_addPool as p

theorem line_of_mem (p : Pool M) (hn : (p.map Amount.sym).Nodup) (a : Amount M) (ha : a ∈ p) :
    p.line a.sym = some a := by
  unfold Pool.line
  induction p with
  | nil => simp at ha
  | cons b p ih =>
    simp only [List.map_cons, List.nodup_cons] at hn
    rcases List.mem_cons.mp ha with rfl | ha'
    · simp
    · have hne : b.sym ≠ a.sym := fun e => hn.1 (e ▸ List.mem_map_of_mem ha')
      simp [hne, ih hn.2 ha']

theorem line_none (p : Pool M) (s : Option Str) (h : s ∉ p.map Amount.sym) : p.line s = none := by
  unfold Pool.line
  rw [List.find?_eq_none]
  intro a ha
  have : a.sym ≠ s := fun e => h (e ▸ List.mem_map_of_mem ha)
  simpa using this

theorem specAdd_notMem (q : Pool M) (s : Option Str) (t : Option M) (h : s ∉ q.map Amount.sym) :
    q.foldl (specAdd s) t = t := by
  induction q generalizing t with
  | nil => rfl
  | cons a q ih =>
    simp only [List.map_cons, List.mem_cons, not_or] at h
    rw [List.foldl_cons, ih _ h.2]
    unfold specAdd
    rw [if_neg fun e : a.sym = s => h.1 e.symm]

/-- A pool added to a total: its line of that currency is. -/
theorem specAdd_pool (q : Pool M) (hn : (q.map Amount.sym).Nodup) (s : Option Str) (t : Option M) :
    q.foldl (specAdd s) t = moreBy t ((q.line s).map Amount.mag) := by
  induction q generalizing t with
  | nil => rfl
  | cons a q ih =>
    simp only [List.map_cons, List.nodup_cons] at hn
    rw [List.foldl_cons]
    by_cases h : a.sym = s
    · rw [specAdd_notMem _ _ _ (h ▸ hn.1)]
      cases t <;> simp [specAdd, h, Pool.line, moreBy]
    · rw [ih hn.2]
      simp [specAdd, h, Pool.line, moreBy]

theorem registerLoop_pool (e : Entry M) (am : Option Str) (ps : List (Posting M)) (pos neg : List Str)
    (pool : Pool M) (r : List Str × List Str × Pool M)
    (h : registerLoop e am ps pos neg pool = .ok r) :
    r.2.2 = ((ps.filter fun p => decide (InFocus am p.account)).map e.valueOf).foldl Pool.add pool := by
  induction ps generalizing pos neg pool with
  | nil => cases h; rfl
  | cons p ps ih =>
    have key : ∀ a, e.valueOf p = a →
        registerLoop e am ps
          (if Mag.lt (Mag.zero : M) a.mag then setInsert pos p.account else pos)
          (if !Mag.lt (Mag.zero : M) a.mag && Mag.lt a.mag (Mag.zero : M) then setInsert neg p.account
            else neg)
          (if isFocused am p.account then Pool.add pool a else pool) = .ok r →
        r.2.2 = (((p :: ps).filter fun p => decide (InFocus am p.account)).map e.valueOf).foldl
          Pool.add pool := by
      intro a ha hr
      have := ih _ _ _ hr
      rw [this]
      by_cases hf : InFocus am p.account
      · rw [if_pos ((isFocused_iff _ _).2 hf), List.filter_cons_of_pos (by simpa using hf),
          List.map_cons, List.foldl_cons, ha]
      · rw [if_neg (fun h => hf ((isFocused_iff _ _).1 h)), List.filter_cons_of_neg (by simpa using hf)]
    simp only [registerLoop, bind, Except.bind, pure, Except.pure] at h
    cases hp : p.amount with
    | some a =>
      simp only [hp] at h
      exact key a (by simp [Entry.valueOf, hp]) h
    | none =>
      simp only [hp] at h
      cases hb : e.blankAmount with
      | error f => simp [hb] at h
      | ok b =>
        cases b with
        | none => simp [hb, unwrap] at h
        | some b =>
          simp only [hb, unwrap] at h
          exact key b (by simp [Entry.valueOf, hp, hb]) h

theorem setInsert_eq_pushNew (s : List Str) (a : Str) : setInsert s a = pushNew s a := by
  simp [setInsert, pushNew]

/-- The accounts that gain and lose, as the loop collects them. -/
theorem registerLoop_flow (hlt : ∀ m : M, Mag.lt (Mag.zero : M) m = true → Mag.lt m (Mag.zero : M) = false)
    (e : Entry M) (am : Option Str) (ps : List (Posting M)) (pos neg : List Str)
    (pool : Pool M) (r : List Str × List Str × Pool M)
    (h : registerLoop e am ps pos neg pool = .ok r) :
    r.1 = ((ps.filter fun p => Mag.lt (Mag.zero : M) (e.valueOf p).mag).map Posting.account).foldl pushNew pos ∧
    r.2.1 = ((ps.filter fun p => Mag.lt (e.valueOf p).mag (Mag.zero : M)).map Posting.account).foldl pushNew neg := by
  induction ps generalizing pos neg pool with
  | nil => cases h; exact ⟨rfl, rfl⟩
  | cons p ps ih =>
    have key : ∀ a, e.valueOf p = a →
        registerLoop e am ps
          (if Mag.lt (Mag.zero : M) a.mag then setInsert pos p.account else pos)
          (if !Mag.lt (Mag.zero : M) a.mag && Mag.lt a.mag (Mag.zero : M) then setInsert neg p.account
            else neg)
          (if isFocused am p.account then Pool.add pool a else pool) = .ok r →
        r.1 = (((p :: ps).filter fun p => Mag.lt (Mag.zero : M) (e.valueOf p).mag).map
          Posting.account).foldl pushNew pos ∧
        r.2.1 = (((p :: ps).filter fun p => Mag.lt (e.valueOf p).mag (Mag.zero : M)).map
          Posting.account).foldl pushNew neg := by
      intro a ha hr
      have hi := ih _ _ _ hr
      rw [hi.1, hi.2]
      have hx := hlt a.mag
      cases h1 : Mag.lt (Mag.zero : M) a.mag <;> cases h2 : Mag.lt a.mag (Mag.zero : M) <;>
        simp_all [setInsert_eq_pushNew]
    simp only [registerLoop, bind, Except.bind, pure, Except.pure] at h
    cases hp : p.amount with
    | some a =>
      simp only [hp] at h
      exact key a (by simp [Entry.valueOf, hp]) h
    | none =>
      simp only [hp] at h
      cases hb : e.blankAmount with
      | error f => simp [hb] at h
      | ok b =>
        cases b with
        | none => simp [hb, unwrap] at h
        | some b =>
          simp only [hb, unwrap] at h
          exact key b (by simp [Entry.valueOf, hp, hb]) h

theorem not_isZero_iff (e : Entry M) (am : Option Str) :
    Pool.isZero ((e.focusAmounts am).foldl Pool.add []) = false ↔ e.Changes am := by
  rw [← Bool.not_eq_true, C03_is_zero_iff_lines]
  have hn : (((e.focusAmounts am).foldl Pool.add []).map Amount.sym).Nodup := by
    rw [poolOf_syms]
    exact (firstSeen_aux _ [] List.nodup_nil).1
  have hl := fun s => poolOf_line (e.focusAmounts am) [] s
  unfold Entry.Changes Entry.change
  generalize (e.focusAmounts am).foldl Pool.add [] = p at hn hl
  constructor
  · intro h
    have : ∃ a ∈ p, Mag.eq a.mag (Mag.zero : M) = false := by
      apply Classical.byContradiction
      intro hc
      exact h fun a ha => by
        cases hz : Mag.eq a.mag (Mag.zero : M) with
        | true => rfl
        | false => exact absurd ⟨a, ha, hz⟩ hc
    obtain ⟨a, ha, hz⟩ := this
    refine ⟨a.sym, a.mag, ?_, hz⟩
    have := hl a.sym
    rw [line_of_mem p hn a ha] at this
    exact this.symm
  · rintro ⟨s, m, hm, hz⟩ h
    have := hl s
    rw [show Pool.line ([] : Pool M) s = none from rfl, Option.map_none, hm] at this
    cases hp : p.line s with
    | none => simp [hp] at this
    | some a =>
      simp only [hp, Option.map_some, Option.some.injEq] at this
      have := h a (List.mem_of_find?_eq_some hp)
      simp_all

/-- What a row says of its entry. -/
structure RowOf (env : Env) (fmt : Str) (am : Option Str) (x : Entry M) (r : RegisterData M) : Prop where
  date : env.fmtDate x.date fmt = some r.date
  status : r.status = x.status.toChar
  description : r.description = x.description
  amounts : r.amounts = (x.focusAmounts am).foldl Pool.add []
  flow : (∀ m : M, Mag.lt (Mag.zero : M) m = true → Mag.lt m (Mag.zero : M) = false) →
    r.flow = (named (x.accountsWith fun m => Mag.lt m (Mag.zero : M)),
      named (x.accountsWith fun m => Mag.lt (Mag.zero : M) m))

theorem flowName_eq (as : List Str) : flowName as = named as := by
  unfold flowName named
  rfl

theorem registerData_ok (env : Env) (e : Entry M) (fmt : Str) (am : Option Str)
    (o : Option (RegisterData M)) (h : e.registerData env fmt am = .ok o) :
    match o with
    | none => ¬ e.Changes am
    | some r => e.Changes am ∧ RowOf env fmt am e r := by
  simp only [Entry.registerData, bind, Except.bind, pure, Except.pure] at h
  cases hl : registerLoop e am e.postings [] [] [] with
  | error f => simp [hl] at h
  | ok r =>
    obtain ⟨pos, neg, pool⟩ := r
    have hp : pool = (e.focusAmounts am).foldl Pool.add [] := registerLoop_pool _ _ _ _ _ _ _ hl
    simp only [hl] at h
    cases hz : Pool.isZero pool with
    | true =>
      simp only [hz, if_true] at h
      cases h
      simp only
      rw [← not_isZero_iff, ← hp, hz]
      simp
    | false =>
      simp only [hz] at h
      cases hd : env.fmtDate e.date fmt with
      | none => simp [hd, unwrap] at h
      | some d =>
        simp only [hd, unwrap] at h
        cases h
        refine ⟨?_, ⟨hd, rfl, rfl, hp, fun hlt => ?_⟩⟩
        rotate_left
        · obtain ⟨h1, h2⟩ := registerLoop_flow hlt _ _ _ _ _ _ _ hl
          simp only at h1 h2
          simp only [flowName_eq]
          rw [h1, h2]
          rfl
        rw [← not_isZero_iff, ← hp, hz]

open Classical in
theorem rows_ok (env : Env) (fmt : Str) (am : Option Str) (es : List (Entry M))
    (rs : List (RegisterData M)) (h : Register.rows env fmt am es = .ok rs) :
    List.Forall₂ (RowOf env fmt am) (es.filter fun x => decide (x.Changes am)) rs := by
  induction es generalizing rs with
  | nil => cases h; exact .nil
  | cons e es ih =>
    simp only [Register.rows, bind, Except.bind, pure, Except.pure] at h
    cases hd : e.registerData env fmt am with
    | error f => cases f <;> simp [hd, panicked, fail] at h
    | ok o =>
      have ho := registerData_ok _ _ _ _ _ hd
      cases o with
      | none =>
        simp only [hd] at h
        rw [List.filter_cons_of_neg (by simpa using ho)]
        exact ih _ h
      | some r =>
        simp only at ho
        have hne : r.amounts.isEmpty = false := by
          have := (not_isZero_iff e am).2 ho.1
          rw [← ho.2.amounts] at this
          cases hr : r.amounts with
          | nil => simp [hr, Pool.isZero] at this
          | cons => rfl
        simp only [hd, hne] at h
        cases hr : Register.rows env fmt am es with
        | error f => simp [hr] at h
        | ok rs' =>
          simp only [hr] at h
          cases h
          rw [List.filter_cons_of_pos (by simpa using ho.1)]
          exact .cons ho.2 (ih _ hr)

theorem change_focused (e : Entry M) (am : Option Str) (h : e.Changes am) :
    (e.postings.any fun p => isFocused am p.account) = true := by
  obtain ⟨s, m, hm, -⟩ := h
  rw [List.any_eq_true]
  apply Classical.byContradiction
  intro hc
  have : e.focusAmounts am = [] := by
    unfold Entry.focusAmounts
    rw [List.filter_eq_nil_iff.2, List.map_nil]
    intro p hp hf
    exact hc ⟨p, hp, (isFocused_iff _ _).2 (by simpa using hf)⟩
  simp [Entry.change, this] at hm

open Classical in
theorem select_changes (es : List (Entry M)) (b e : Option Date) (am : Option Str) :
    ((Register.select es b e am).filter fun x => decide (x.Changes am)) = shownBy b e am es := by
  unfold Register.select shownBy
  rw [List.filter_filter]
  apply List.filter_congr
  intro x _
  by_cases hc : x.Changes am
  · simp only [hc, decide_true, Bool.true_and, change_focused x am hc, and_true]
    by_cases hw : Within b e x.date
    · simp [hw, (inRange_iff _ _ _).2 hw]
    · have : Register.inRange b e x.date = false := by
        cases hr : Register.inRange b e x.date with
        | false => rfl
        | true => exact absurd ((inRange_iff _ _ _).1 hr) hw
      simp [hw, this]
  · simp [hc]

theorem runningTotal_snoc (am : Option Str) (before : List (Entry M)) (x : Entry M) (s : Option Str) :
    runningTotal am (before ++ [x]) s = moreBy (runningTotal am before s) (x.change am s) := by
  simp [runningTotal]

theorem figures_line (w : Register.Widths) (tot : Pool M) (s : Option Str) (a : Amount M) (t : M)
    (front : Str) (ha : a.sym = s) (ht : (tot.line s).map Amount.mag = some t) :
    EndsWith s a.mag t (front ++ Register.figures w tot a) := by
  subst ha
  cases hl : tot.line a.sym with
  | none => simp [hl] at ht
  | some b =>
    have hb := Pool.line_sym hl
    simp only [hl, Option.map_some, Option.some.injEq] at ht
    have ho : Pool.only tot a.sym = b := by
      unfold Pool.only
      unfold Pool.line at hl
      rw [hl]
      rfl
    refine ⟨front, w.amount - a.display.length, w.total - b.display.length, ?_⟩
    unfold Register.figures padLeft
    rw [ho, show b = ⟨t, a.sym⟩ by rw [← ht, ← hb]]
    simp only [List.append_assoc]

theorem rowLines_spec (env : Env) (fmt : Str) (am : Option Str) (w : Register.Widths) (tot : Pool M)
    (upto : List (Entry M)) (x : Entry M) (r : RegisterData M) (hr : RowOf env fmt am x r)
    (hc : x.Changes am) (ht : ∀ s, (tot.line s).map Amount.mag = runningTotal am upto s)
    (hin : ∀ s m, x.change am s = some m → ∃ t, runningTotal am upto s = some t) :
    Heads env fmt x (Register.rowLines w tot r) ∧ Figures am upto x (Register.rowLines w tot r) ∧
      ((∀ m : M, Mag.lt (Mag.zero : M) m = true → Mag.lt m (Mag.zero : M) = false) →
        Flows x (Register.rowLines w tot r)) := by
  have hs : r.amounts.map Amount.sym = firstSeen ((x.focusAmounts am).map Amount.sym) := by
    rw [hr.amounts, poolOf_syms]
    rfl
  have hn : (r.amounts.map Amount.sym).Nodup := by
    rw [hs]
    exact (firstSeen_aux _ [] List.nodup_nil).1
  have hline : ∀ a ∈ r.amounts, x.change am a.sym = some a.mag := by
    intro a ha
    have h1 := line_of_mem _ hn a ha
    have h2 := poolOf_line (x.focusAmounts am) [] a.sym
    rw [← hr.amounts, h1] at h2
    exact h2.symm
  have hfig : ∀ a ∈ r.amounts, ∀ front, ∃ m t, x.change am a.sym = some m ∧
      runningTotal am upto a.sym = some t ∧
      EndsWith a.sym m t (front ++ Register.figures w tot a) := by
    intro a ha front
    obtain ⟨t, h⟩ := hin _ _ (hline a ha)
    exact ⟨a.mag, t, hline a ha, h, figures_line w tot _ a t front rfl ((ht _).trans h)⟩
  have hne : r.amounts ≠ [] := by
    intro he
    have := (not_isZero_iff x am).2 hc
    rw [← hr.amounts, he] at this
    simp [Pool.isZero] at this
  unfold Register.rowLines Figures
  rw [← hs]
  cases ha : r.amounts with
  | nil => exact absurd ha hne
  | cons a as =>
    rw [ha] at hfig
    refine ⟨?_, ?_, ?_⟩
    · refine ⟨r.date, w.date - r.date.length, ?_, ?_, hr.date, ?_⟩
      rotate_left 2
      · simp only [Register.prelude, padRight, hr.status, hr.description, List.append_assoc,
          List.cons_append]
        rfl
    · simp only [List.map_cons]
      refine .cons (hfig a List.mem_cons_self _) ?_
      rw [List.forall₂_map_left_iff, List.forall₂_map_right_iff, List.forall₂_same]
      intro c hc
      exact hfig c (List.mem_cons_of_mem _ hc) _
    · intro hlt
      have hf := hr.flow hlt
      refine ⟨padRight w.date r.date ++ s%" " ++ [r.status] ++ s%" ", w.description - r.description.length,
        w.fromAcct - r.flow.1.length, ?_, ?_, ?_⟩
      rotate_left 2
      · simp only [Register.prelude, padRight, padLeft, hr.status, hr.description, hf, List.append_assoc,
          List.cons_append, List.nil_append]
        rfl

theorem printLines_spec (env : Env) (fmt : Str) (am : Option Str) (w : Register.Widths)
    (xs before : List (Entry M)) (rs : List (RegisterData M)) (tot : Pool M)
    (hr : List.Forall₂ (RowOf env fmt am) xs rs) (hc : ∀ x ∈ xs, x.Changes am)
    (ht : ∀ s, (tot.line s).map Amount.mag = runningTotal am before s) :
    ∃ blocks, Register.printLines w rs tot = blocks.flatten ∧
      List.Forall₂ (Heads env fmt) xs blocks ∧ EachUpTo (Figures am) before xs blocks ∧
      ((∀ m : M, Mag.lt (Mag.zero : M) m = true → Mag.lt m (Mag.zero : M) = false) →
        List.Forall₂ Flows xs blocks) := by
  induction hr generalizing before tot with
  | nil => exact ⟨[], rfl, .nil, trivial, fun _ => .nil⟩
  | @cons x r xs rs hx _ ih =>
    have ht' : ∀ s, ((Pool.addPool tot r.amounts).line s).map Amount.mag
        = runningTotal am (before ++ [x]) s := by
      intro s
      have hn : (r.amounts.map Amount.sym).Nodup := by
        rw [hx.amounts, poolOf_syms]
        exact (firstSeen_aux _ [] List.nodup_nil).1
      rw [Pool.line_addPool, specAdd_pool _ hn, ht, runningTotal_snoc, hx.amounts, poolOf_line]
      rfl
    obtain ⟨bs, h1, h2, h3, h4⟩ := ih (before ++ [x]) (Pool.addPool tot r.amounts)
      (fun y hy => hc y (List.mem_cons_of_mem _ hy)) ht'
    have hx' := rowLines_spec env fmt am w (Pool.addPool tot r.amounts) (before ++ [x]) x r hx
      (hc x List.mem_cons_self) ht' (by
        intro s m hm
        rw [runningTotal_snoc, hm]
        exact ⟨_, rfl⟩)
    exact ⟨Register.rowLines w (Pool.addPool tot r.amounts) r :: bs,
      by simp only [Register.printLines, h1, List.flatten_cons], .cons hx'.1 h2, ⟨hx'.2.1, h3⟩,
      fun hlt => .cons (hx'.2.2 hlt) (h4 hlt)⟩

theorem register_blocks (env : Env) (terminal : Bool) (es : List (Entry M)) (fmt : Str)
    (b e : Option Date) (am : Option Str) (ls : List Str)
    (h : Register.display env terminal es fmt b e am = .ok ls) :
    ∃ blocks, ls = blocks.flatten ∧ List.Forall₂ (Heads env fmt) (shownBy b e am es) blocks ∧
      EachUpTo (Figures am) [] (shownBy b e am es) blocks ∧
      ((∀ m : M, Mag.lt (Mag.zero : M) m = true → Mag.lt m (Mag.zero : M) = false) →
        List.Forall₂ Flows (shownBy b e am es) blocks) := by
  simp only [Register.display, bind, Except.bind, pure, Except.pure] at h
  cases terminal with
  | false => simp [fail] at h
  | true =>
    simp only [Bool.not_true, Bool.false_eq_true, if_false] at h
    cases hr : Register.rows env fmt am (Register.select es b e am) with
    | error f => simp [hr] at h
    | ok rs =>
      simp only [hr] at h
      cases h
      have := rows_ok _ _ _ _ _ hr
      rw [select_changes] at this
      exact printLines_spec env fmt am _ _ [] rs [] this (by
        intro x hx
        simp only [shownBy, List.mem_filter, decide_eq_true_eq] at hx
        exact hx.2.2) (fun s => rfl)

/-! ### C73 -/

/-- **C73.** The register shows, in the order of the ledger, exactly the entries between the begin
and end dates, both inclusive, that change the accounts in focus by a non-zero amount: what is
printed is a block of lines for each of them, and the block begins with its date, status and
description. (All postings count here, envelope postings too; see `C73_envelope_entry`.) -/
theorem C73_listed (env : Env) (terminal : Bool) (es : List (Entry M)) (fmt : Str)
    (b e : Option Date) (am : Option Str) (ls : List Str)
    (h : Register.display env terminal es fmt b e am = .ok ls) :
    ∃ blocks, ls = blocks.flatten ∧ List.Forall₂ (Heads env fmt) (shownBy b e am es) blocks := by
  obtain ⟨bs, h1, h2, -⟩ := register_blocks env terminal es fmt b e am ls h
  exact ⟨bs, h1, h2⟩

/-- **C73.** The entries are shown in order of date. -/
theorem C73_date_order (env : Env) (fuel : Nat) (w w' : World) (path : Str) (l : Ledger M)
    (b e : Option Date) (am : Option Str) (h : Ledger.fromFile env fuel w path = .ok (l, w')) :
    (shownBy b e am l.entries).Pairwise fun x y => x.date.dayNum ≤ y.date.dayNum := by
  obtain ⟨is, -, ho⟩ := C47_loaded env fuel w w' path l h
  refine (ho.sorted.imp ?_).sublist List.filter_sublist
  intro x y hxy
  exact (Date.lt_false_iff_dayNum _ _).1 hxy

theorem registerLoop_total (e : Entry M) (am : Option Str) (ps : List (Posting M)) (pos neg : List Str)
    (pool : Pool M) (h : ∀ p ∈ ps, p.amount = none → ∃ b, e.blankAmount = .ok (some b)) :
    ∃ r, registerLoop e am ps pos neg pool = .ok r := by
  induction ps generalizing pos neg pool with
  | nil => exact ⟨_, rfl⟩
  | cons p ps ih =>
    have ih' := fun pos neg pool => ih pos neg pool fun q hq => h q (List.mem_cons_of_mem _ hq)
    simp only [registerLoop, bind, Except.bind, pure, Except.pure]
    cases hp : p.amount with
    | some a => exact ih' _ _ _
    | none =>
      obtain ⟨b, hb⟩ := h p List.mem_cons_self hp
      simp only [hb, unwrap]
      exact ih' _ _ _

theorem rows_total (env : Env) (fmt : Str) (am : Option Str) (es : List (Entry M))
    (h : ∀ x ∈ es, (∀ p ∈ x.postings, p.amount = none → ∃ b, x.blankAmount = .ok (some b)) ∧
      ∃ d, env.fmtDate x.date fmt = some d) :
    ∃ rs, Register.rows env fmt am es = .ok rs := by
  induction es with
  | nil => exact ⟨_, rfl⟩
  | cons x es ih =>
    obtain ⟨rs, hrs⟩ := ih fun y hy => h y (List.mem_cons_of_mem _ hy)
    obtain ⟨hb, d, hd⟩ := h x List.mem_cons_self
    obtain ⟨⟨pos, neg, pool⟩, hl⟩ := registerLoop_total x am x.postings [] [] [] hb
    have : ∃ o, x.registerData env fmt am = .ok o := by
      simp only [Entry.registerData, bind, Except.bind, pure, Except.pure, hl, hd, unwrap]
      split <;> exact ⟨_, rfl⟩
    obtain ⟨o, ho⟩ := this
    simp only [Register.rows, ho, hrs, bind, Except.bind, pure, Except.pure]
    cases o with
    | none => exact ⟨_, rfl⟩
    | some r =>
      simp only
      split <;> exact ⟨_, rfl⟩

theorem blankAmount_some (e : Entry M) (p : Posting M) (hp : p ∈ e.postings) (ha : p.amount = none)
    (b : Option (Amount M)) (hb : e.blankAmount = .ok b) : ∃ c, b = some c := by
  have hh : e.hasBlank = true := by
    unfold Entry.hasBlank
    rw [List.any_eq_true]
    exact ⟨p, hp, by simp [ha]⟩
  simp only [Entry.blankAmount, hh, Bool.not_true, Bool.false_eq_true, if_false, bind, Except.bind,
    pure, Except.pure] at hb
  split at hb
  · split at hb
    · cases hb
    · cases hb; exact ⟨_, rfl⟩
  · split at hb
    · cases hb
    · split at hb
      · cases hb
      · split at hb
        · cases hb
        · cases hb; exact ⟨_, rfl⟩

/-- **C73.** In a terminal, the register of a loaded journal is always shown, if the dates can be
written in its format: it neither fails nor aborts. -/
theorem C73_shown (env : Env) (fuel : Nat) (w w' : World) (path : Str) (l : Ledger M)
    (b e : Option Date) (am : Option Str) (h : Ledger.fromFile env fuel w path = .ok (l, w'))
    (hf : ∀ x ∈ l.entries, ∃ d, env.fmtDate x.date l.dateFormat = some d) :
    ∃ ls, Register.display env true l.entries l.dateFormat b e am = .ok ls := by
  have hi := loaded_inv env fuel w w' path l h
  obtain ⟨rs, hrs⟩ := rows_total env l.dateFormat am (Register.select l.entries b e am) (by
    intro x hx
    have hx := (List.mem_filter.1 hx).1
    refine ⟨?_, hf x hx⟩
    intro p hp ha
    obtain ⟨o, ho⟩ := hi.blanks x hx p hp ha
    obtain ⟨c, rfl⟩ := blankAmount_some x p hp ha o ho
    exact ⟨c, ho⟩)
  exact ⟨_, by simp only [Register.display, hrs, bind, Except.bind, pure, Except.pure]; rfl⟩

/-- Specification: the change of the accounts in focus by the ordinary postings alone: money moved
to and from envelopes stays in its account. -/
def Entry.realChange (e : Entry M) (am : Option Str) (s : Option Str) : Option M :=
  ((e.postings.filter fun p => !p.isEnvelope && decide (InFocus am p.account)).map e.valueOf).foldl
    (specAdd s) none

open Classical in
/-- Specification: the entries that really change the accounts in focus. -/
noncomputable def reallyShown (b e : Option Date) (am : Option Str) (es : List (Entry M)) :
    List (Entry M) :=
  es.filter fun x => decide (Within b e x.date ∧
    ∃ s m, x.realChange am s = some m ∧ Mag.eq m (Mag.zero : M) = false)

/-- **C73, partial.** If no entry has an envelope posting, the register shows exactly the entries
within the dates that really change the accounts in focus. -/
theorem C73_real_changes_partial (env : Env) (terminal : Bool) (es : List (Entry M)) (fmt : Str)
    (b e : Option Date) (am : Option Str) (ls : List Str)
    (hes : ∀ x ∈ es, ∀ p ∈ x.postings, p.isEnvelope = false)
    (h : Register.display env terminal es fmt b e am = .ok ls) :
    ∃ blocks, ls = blocks.flatten ∧ List.Forall₂ (Heads env fmt) (reallyShown b e am es) blocks := by
  have : reallyShown b e am es = shownBy b e am es := by
    classical
    apply List.filter_congr
    intro x hx
    have hp : (x.postings.filter fun p => !p.isEnvelope && decide (InFocus am p.account))
        = x.postings.filter fun p => decide (InFocus am p.account) := by
      apply List.filter_congr
      intro p hp
      simp [hes x hx p hp]
    simp only [Entry.realChange, hp, Entry.Changes, Entry.change, Entry.focusAmounts]
    exact decide_eq_decide.2 Iff.rfl
  rw [this]
  exact C73_listed env terminal es fmt b e am ls h

/-- The lines of the register of a journal. -/
def registerOf (text : String) (b e : Option Date) (am : Option Str) : Res (List Str) := do
  let l ← loadText F64 text
  Register.display (stdEnv june15) true l.entries l.dateFormat b e am

/-- A journal for the examples: entries that change the assets, one whose changes cancel out, and
one that moves money to an envelope. -/
def exRegister : String :=
  "account assets\naccount shop\n2024/01/02 * food\n  assets  -5\n  shop\n2024/01/03 * dear\n  assets  -7
  assets  2 EUR @ 3\n  shop  -1 EUR @ 3\n  shop\n2024/01/04 * fix\n  assets  4\n  assets  -4
2024/01/05 ~ move\n  envelope assets x 30\n"

/-- A date for the examples, in January 2024. -/
def jan (d : Nat) : Option Date := Date.ofYmd? 2024 1 d

/-- Begin and end are included; the focus is on the shop. -/
example : registerOf exRegister (jan 2) (jan 3) (some s%"sho") = .ok [
    s%"2024/01/02 * food      assets -> shop             5       5",
    s%"2024/01/03 * dear  (multiple) -> (multiple)  -1 EUR  -1 EUR",
    s%"                                                  4       9"] := by decide +kernel

/-- From the third on: the entry of the fourth leaves the assets as they are and is not shown. -/
example : registerOf exRegister (jan 3) (jan 4) none = .ok [
    s%"2024/01/03 * dear  (multiple) -> (multiple)      -7      -7",
    s%"                                              2 EUR   2 EUR"] := by decide +kernel

/-- Is there an entry of that date, with nothing but envelope postings? -/
def onlyEnvelopesOn (l : Ledger F64) (d : Option Date) : Bool :=
  l.entries.any fun x => some x.date == d && x.postings.all Posting.isEnvelope

/-- **C73 does not hold** of entries with envelope postings: the entry of the fifth only moves 30
to an envelope of the account. It is shown as a gain of 30, and the running total counts it. -/
theorem C73_envelope_entry :
    (loadText F64 exRegister).map (onlyEnvelopesOn · (jan 5)) = .ok true ∧
    registerOf exRegister none none none = .ok [
      s%"2024/01/02 * food      assets -> shop            -5      -5",
      s%"2024/01/03 * dear  (multiple) -> (multiple)      -7     -12",
      s%"                                              2 EUR   2 EUR",
      s%"2024/01/05 ~ move      (none) -> assets          30      18"] := by decide +kernel

/-! ### C74 -/

/-- **C74.** What the register shows for an entry is a line for each currency it posts to the
accounts in focus; the line ends with the change of that currency and its running total: the sum of
its changes by the entries shown so far, this one included, added up in order. -/
theorem C74_running_total (env : Env) (terminal : Bool) (es : List (Entry M)) (fmt : Str)
    (b e : Option Date) (am : Option Str) (ls : List Str)
    (h : Register.display env terminal es fmt b e am = .ok ls) :
    ∃ blocks, ls = blocks.flatten ∧ EachUpTo (Figures am) [] (shownBy b e am es) blocks := by
  obtain ⟨bs, h1, -, h3, -⟩ := register_blocks env terminal es fmt b e am ls h
  exact ⟨bs, h1, h3⟩

/-- Specification: the amounts of currency `s` an entry posts to the accounts in focus, summed up. -/
def netChange (am : Option Str) (s : Option Str) (x : Entry Rat) : Rat :=
  ((x.focusAmounts am).map fun a => if a.sym = s then a.mag else 0).sum

theorem change_rat (am : Option Str) (s : Option Str) (x : Entry Rat) :
    (x.change am s).getD 0 = netChange am s x := by
  unfold Entry.change netChange
  rw [specAdd_foldl_rat]
  simp

theorem runningTotal_rat (am : Option Str) (upto : List (Entry Rat)) (s : Option Str) :
    (runningTotal am upto s).getD 0 = (upto.map (netChange am s)).sum := by
  suffices ∀ t : Option Rat, (upto.foldl (fun t x => moreBy t (x.change am s)) t).getD 0
      = t.getD 0 + (upto.map (netChange am s)).sum by
    simpa [runningTotal] using this none
  induction upto with
  | nil => simp
  | cons x xs ih =>
    intro t
    have : (moreBy t (x.change am s)).getD 0 = t.getD 0 + netChange am s x := by
      rw [← change_rat]
      cases x.change am s <;> cases t <;> simp [moreBy, Mag.add]
    rw [List.foldl_cons, ih, this, List.map_cons, List.sum_cons]
    ring

theorem EachUpTo.imp {P Q : List (Entry M) → Entry M → List Str → Prop}
    (h : ∀ upto x bl, P upto x bl → Q upto x bl) (xs before : List (Entry M)) (bs : List (List Str))
    (hp : EachUpTo P before xs bs) : EachUpTo Q before xs bs := by
  induction xs generalizing before bs with
  | nil => cases bs <;> simp_all [EachUpTo]
  | cons x xs ih =>
    cases bs with
    | nil => exact hp
    | cons bl bs => exact ⟨h _ _ _ hp.1, ih _ _ hp.2⟩

/-- **C74**, exact arithmetic: the change is the sum of the amounts of the currency in the entry,
and the running total the sum of the changes by the entries shown so far, whatever their order. -/
theorem C74_exact (env : Env) (terminal : Bool) (es : List (Entry Rat)) (fmt : Str)
    (b e : Option Date) (am : Option Str) (ls : List Str)
    (h : Register.display env terminal es fmt b e am = .ok ls) :
    ∃ blocks, ls = blocks.flatten ∧
      EachUpTo (fun upto x block => List.Forall₂
          (fun s line => EndsWith s (netChange am s x) (upto.map (netChange am s)).sum line)
          (firstSeen ((x.focusAmounts am).map Amount.sym)) block)
        [] (shownBy b e am es) blocks := by
  obtain ⟨bs, h1, h2⟩ := C74_running_total env terminal es fmt b e am ls h
  refine ⟨bs, h1, EachUpTo.imp ?_ _ _ _ h2⟩
  intro upto x bl hf
  refine hf.imp ?_
  rintro s line ⟨m, t, hm, ht, hl⟩
  have h1 := change_rat am s x
  have h2 := runningTotal_rat am upto s
  rw [hm] at h1
  rw [ht] at h2
  simp only [Option.getD_some] at h1 h2
  rwa [← h1, ← h2]

/-! ### C78 -/

/-- **C78.** The line of an entry names the account that the money comes from and the one it goes
to: the only account with a negative posting and the only one with a positive posting; `(none)` if
there is none, `(multiple)` if there are several. The blank posting counts with its inferred amount.
`hlt` holds of doubles and of rationals. -/
theorem C78_flow (hlt : ∀ m : M, Mag.lt (Mag.zero : M) m = true → Mag.lt m (Mag.zero : M) = false)
    (env : Env) (terminal : Bool) (es : List (Entry M)) (fmt : Str)
    (b e : Option Date) (am : Option Str) (ls : List Str)
    (h : Register.display env terminal es fmt b e am = .ok ls) :
    ∃ blocks, ls = blocks.flatten ∧ List.Forall₂ Flows (shownBy b e am es) blocks := by
  obtain ⟨bs, h1, -, -, h4⟩ := register_blocks env terminal es fmt b e am ls h
  exact ⟨bs, h1, h4 hlt⟩

/-- The condition of C78 holds of doubles. -/
theorem C78_float (m : F64) (h : Mag.lt (Mag.zero : F64) m = true) : Mag.lt m (Mag.zero : F64) = false := by
  cases m with
  | nan => rfl
  | inf t =>
    simp only [Mag.lt, Mag.zero, F64.zero, F64.zeroS, F64.lt] at *
    simpa using h
  | fin t n hn =>
    simp only [Mag.lt, Mag.zero, F64.zero, F64.zeroS, F64.lt, decide_eq_true_eq,
      decide_eq_false_iff_not] at *
    omega

/-- The condition of C78 holds of rationals. -/
theorem C78_exact (m : Rat) (h : Mag.lt (Mag.zero : Rat) m = true) : Mag.lt m (Mag.zero : Rat) = false := by
  simp only [Mag.lt, Mag.zero, decide_eq_true_eq, decide_eq_false_iff_not, not_lt] at *
  exact le_of_lt h

end Silverfox
