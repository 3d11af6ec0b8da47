import Verif.Props.Register

/-
C92: the columns of the register line up.
-/

namespace Silverfox

set_option linter.unusedSectionVars false

variable {M : Type} [Mag M]

/-! ### Specification -/

/-- Specification: the widths of the columns. -/
structure Cols where
  date : Nat
  description : Nat
  source : Nat
  dest : Nat
  amount : Nat
  total : Nat

/-- Specification: the text in a column of width `n`, on the left of it or on the right. -/
def onLeft (n : Nat) (s : Str) : Str := s ++ List.replicate (n - s.length) ' '
def onRight (n : Nat) (s : Str) : Str := List.replicate (n - s.length) ' ' ++ s

/-- Specification: the texts of the columns before the figures. -/
structure Front where
  date : Str
  status : Char
  description : Str
  source : Str
  dest : Str

/-- Specification: the columns before the figures. -/
def Front.text (c : Cols) (f : Front) : Str :=
  onLeft c.date f.date ++ s%" " ++ [f.status] ++ s%" " ++ onLeft c.description f.description ++ s%"  " ++
  onRight c.source f.source ++ s%" -> " ++ onLeft c.dest f.dest ++ s%"  "

/-- Specification: how wide that is. -/
def Cols.front (c : Cols) : Nat := c.date + 3 + c.description + 2 + c.source + 4 + c.dest + 2

/-- Specification: the bytes in excess of the characters. -/
def excess (s : Str) : Nat := utf8Len s - s.length

/-- Specification: the last two columns. -/
def figureText (c : Cols) (g : Str × Str) : Str := onRight c.amount g.1 ++ s%"  " ++ onRight c.total g.2

/-- Specification: the block of lines for the entry `x`, the last of `upto`, in columns that are wide enough. The
lines after the first begin with spaces: as many as the columns before the figures are wide, and one more for each
byte in excess of the characters there. -/
def LaidOut (env : Env) (fmt : Str) (am : Option Str) (c : Cols) (upto : List (Entry M)) (x : Entry M)
    (block : List Str) : Prop :=
  ∃ (f : Front) (g : Str × Str) (gs : List (Str × Str)),
    env.fmtDate x.date fmt = some f.date ∧ f.status = x.status.toChar ∧ f.description = x.description ∧
    ((∀ m : M, Mag.lt (Mag.zero : M) m = true → Mag.lt m (Mag.zero : M) = false) →
      f.source = named (x.accountsWith fun m => Mag.lt m (Mag.zero : M)) ∧
      f.dest = named (x.accountsWith fun m => Mag.lt (Mag.zero : M) m)) ∧
    f.date.length ≤ c.date ∧ f.description.length ≤ c.description ∧ f.source.length ≤ c.source ∧
    f.dest.length ≤ c.dest ∧
    List.Forall₂ (fun s (g : Str × Str) => ∃ m t, x.change am s = some m ∧ runningTotal am upto s = some t ∧
        g = ((⟨m, s⟩ : Amount M).display, (⟨t, s⟩ : Amount M).display) ∧
        g.1.length ≤ c.amount ∧ g.2.length ≤ c.total)
      (firstSeen ((x.focusAmounts am).map Amount.sym)) (g :: gs) ∧
    block = (f.text c ++ figureText c g) ::
      gs.map fun g => List.replicate
        (c.front + (excess f.date + excess f.description + excess f.source + excess f.dest)) ' ' ++ figureText c g

/-! ### Widths -/

theorem length_le_utf8Len (s : Str) : s.length ≤ utf8Len s := by
  induction s with
  | nil => simp
  | cons c s ih =>
    have := Char.utf8Size_pos c
    simp only [List.length_cons, utf8Len]
    omega

theorem utf8Len_append (a b : Str) : utf8Len (a ++ b) = utf8Len a + utf8Len b := by
  induction a with
  | nil => simp [utf8Len]
  | cons c a ih => simp only [List.cons_append, utf8Len, ih]; omega

theorem utf8Len_spaces (n : Nat) : utf8Len (List.replicate n ' ') = n := by
  induction n with
  | zero => rfl
  | succ n ih =>
    rw [List.replicate_succ, utf8Len, ih]
    have : Char.utf8Size ' ' = 1 := by decide
    omega

theorem maxLen_ge (l : List Nat) : ∀ x ∈ l, x ≤ Register.maxLen l := by
  have key : ∀ (l : List Nat) (m : Nat), m ≤ l.foldl Nat.max m ∧ ∀ x ∈ l, x ≤ l.foldl Nat.max m := by
    intro l
    induction l with
    | nil => intro m; simp
    | cons a l ih =>
      intro m
      obtain ⟨h1, h2⟩ := ih (Nat.max m a)
      simp only [List.foldl_cons, List.mem_cons]
      refine ⟨Nat.le_trans (Nat.le_max_left m a) h1, ?_⟩
      rintro x (rfl | hx)
      · exact Nat.le_trans (Nat.le_max_right m x) h1
      · exact h2 x hx
  exact (key l 0).2

/-- Every row fits. -/
def AllFit (w : Register.Widths) : List (RegisterData M) → Pool M → Prop
  | [], _ => True
  | r :: rs, tot =>
    (utf8Len r.date ≤ w.date ∧ utf8Len r.description ≤ w.description ∧ utf8Len r.flow.1 ≤ w.fromAcct ∧
      utf8Len r.flow.2 ≤ w.toAcct ∧ (∀ a ∈ r.amounts, utf8Len a.display ≤ w.amount) ∧
      (∀ a ∈ Pool.addPool tot r.amounts, utf8Len a.display ≤ w.total)) ∧
    AllFit w rs (Pool.addPool tot r.amounts)

def Register.Widths.Le (v w : Register.Widths) : Prop :=
  v.date ≤ w.date ∧ v.description ≤ w.description ∧ v.fromAcct ≤ w.fromAcct ∧ v.toAcct ≤ w.toAcct ∧
  v.amount ≤ w.amount ∧ v.total ≤ w.total

theorem widths_fit : ∀ (rs : List (RegisterData M)) (tot : Pool M) (w : Register.Widths),
    w.Le (Register.widths rs tot w) ∧ AllFit (Register.widths rs tot w) rs tot
  | [], tot, w => ⟨⟨Nat.le_refl _, Nat.le_refl _, Nat.le_refl _, Nat.le_refl _, Nat.le_refl _, Nat.le_refl _⟩, trivial⟩
  | r :: rs, tot, w => by
    obtain ⟨⟨h1, h2, h3, h4, h5, h6⟩, h7⟩ := widths_fit rs (Pool.addPool tot r.amounts) {
      date := Nat.max w.date (utf8Len r.date)
      description := Nat.max w.description (utf8Len r.description)
      fromAcct := Nat.max w.fromAcct (utf8Len r.flow.1)
      toAcct := Nat.max w.toAcct (utf8Len r.flow.2)
      amount := Nat.max w.amount (Register.maxLen (r.amounts.map fun a => utf8Len a.display))
      total := Nat.max w.total (Register.maxLen ((Pool.addPool tot r.amounts).map fun a => utf8Len a.display)) }
    simp only [Register.widths]
    refine ⟨⟨Nat.le_trans (Nat.le_max_left _ _) h1, Nat.le_trans (Nat.le_max_left _ _) h2,
      Nat.le_trans (Nat.le_max_left _ _) h3, Nat.le_trans (Nat.le_max_left _ _) h4,
      Nat.le_trans (Nat.le_max_left _ _) h5, Nat.le_trans (Nat.le_max_left _ _) h6⟩,
      ⟨Nat.le_trans (Nat.le_max_right _ _) h1, Nat.le_trans (Nat.le_max_right _ _) h2,
      Nat.le_trans (Nat.le_max_right _ _) h3, Nat.le_trans (Nat.le_max_right _ _) h4, ?_, ?_⟩, h7⟩
    · intro a ha
      refine Nat.le_trans (maxLen_ge _ _ ?_) (Nat.le_trans (Nat.le_max_right _ _) h5)
      exact List.mem_map_of_mem ha
    · intro a ha
      refine Nat.le_trans (maxLen_ge _ _ ?_) (Nat.le_trans (Nat.le_max_right _ _) h6)
      exact List.mem_map_of_mem ha

/-- The widths as columns. -/
def Register.Widths.cols (w : Register.Widths) : Cols :=
  ⟨w.date, w.description, w.fromAcct, w.toAcct, w.amount, w.total⟩

def RegisterData.front (r : RegisterData M) : Front := ⟨r.date, r.status, r.description, r.flow.1, r.flow.2⟩

theorem prelude_eq (w : Register.Widths) (r : RegisterData M) : Register.prelude w r = r.front.text w.cols := by
  simp [Register.prelude, Front.text, RegisterData.front, Register.Widths.cols, padRight, padLeft, onLeft, onRight]

theorem utf8Len_onLeft {n : Nat} {s : Str} (h : s.length ≤ n) : utf8Len (onLeft n s) = n + excess s := by
  have := length_le_utf8Len s
  rw [onLeft, utf8Len_append, utf8Len_spaces]
  unfold excess
  omega

theorem utf8Len_onRight {n : Nat} {s : Str} (h : s.length ≤ n) : utf8Len (onRight n s) = n + excess s := by
  have := length_le_utf8Len s
  rw [onRight, utf8Len_append, utf8Len_spaces]
  unfold excess
  omega

theorem length_onLeft {n : Nat} {s : Str} (h : s.length ≤ n) : (onLeft n s).length = n := by
  simp [onLeft]; omega

theorem length_onRight {n : Nat} {s : Str} (h : s.length ≤ n) : (onRight n s).length = n := by
  simp [onRight]; omega

theorem utf8Len_front (c : Cols) (f : Front) (hs : f.status.utf8Size = 1) (h1 : f.date.length ≤ c.date)
    (h2 : f.description.length ≤ c.description) (h3 : f.source.length ≤ c.source) (h4 : f.dest.length ≤ c.dest) :
    utf8Len (f.text c) = c.front + (excess f.date + excess f.description + excess f.source + excess f.dest) := by
  unfold Front.text Cols.front
  simp only [utf8Len_append, utf8Len_onLeft h1, utf8Len_onLeft h2, utf8Len_onRight h3, utf8Len_onLeft h4]
  have e1 : utf8Len s%" " = 1 := by decide
  have e2 : utf8Len s%"  " = 2 := by decide
  have e3 : utf8Len s%" -> " = 4 := by decide
  have e4 : utf8Len [f.status] = 1 := by simp [utf8Len, hs]
  rw [e1, e2, e3, e4]
  omega

theorem length_front (c : Cols) (f : Front) (h1 : f.date.length ≤ c.date)
    (h2 : f.description.length ≤ c.description) (h3 : f.source.length ≤ c.source) (h4 : f.dest.length ≤ c.dest) :
    (f.text c).length = c.front := by
  unfold Front.text Cols.front
  simp only [List.length_append, length_onLeft h1, length_onLeft h2, length_onRight h3, length_onLeft h4,
    List.length_cons, List.length_nil]

theorem toChar_size (s : Status) : s.toChar.utf8Size = 1 := by cases s <;> decide

theorem rowLines_laidOut (env : Env) (fmt : Str) (am : Option Str) (w : Register.Widths) (tot : Pool M)
    (upto : List (Entry M)) (x : Entry M) (r : RegisterData M) (hr : RowOf env fmt am x r)
    (hc : x.Changes am) (ht : ∀ s, (tot.line s).map Amount.mag = runningTotal am upto s)
    (hin : ∀ s m, x.change am s = some m → ∃ t, runningTotal am upto s = some t)
    (hfit : utf8Len r.date ≤ w.date ∧ utf8Len r.description ≤ w.description ∧ utf8Len r.flow.1 ≤ w.fromAcct ∧
      utf8Len r.flow.2 ≤ w.toAcct ∧ (∀ a ∈ r.amounts, utf8Len a.display ≤ w.amount) ∧
      (∀ a ∈ tot, utf8Len a.display ≤ w.total)) :
    LaidOut env fmt am w.cols upto x (Register.rowLines w tot r) := by
  have hs : r.amounts.map Amount.sym = firstSeen ((x.focusAmounts am).map Amount.sym) := by
    rw [hr.amounts, poolOf_syms]
    rfl
  have hn : (r.amounts.map Amount.sym).Nodup := by
    rw [hs]
    exact (firstSeen_aux _ [] List.nodup_nil).1
  have hline : ∀ a ∈ r.amounts, x.change am a.sym = some a.mag := by
    intro a ha
    have h1 := line_of_mem _ hn a ha
    have h2 := poolOf_line (x.focusAmounts am) [] a.sym
    rw [← hr.amounts, h1] at h2
    exact h2.symm
  obtain ⟨f1, f2, f3, f4, f5, f6⟩ := hfit
  have hfig : ∀ a ∈ r.amounts, ∃ m t, x.change am a.sym = some m ∧ runningTotal am upto a.sym = some t ∧
      (a.display, (Pool.only tot a.sym).display) = ((⟨m, a.sym⟩ : Amount M).display, (⟨t, a.sym⟩ : Amount M).display) ∧
      a.display.length ≤ w.amount ∧ (Pool.only tot a.sym).display.length ≤ w.total := by
    intro a ha
    obtain ⟨t, h⟩ := hin _ _ (hline a ha)
    have ht' := (ht a.sym).trans h
    cases hl : tot.line a.sym with
    | none => simp [hl] at ht'
    | some b =>
      have hb := Pool.line_sym hl
      simp only [hl, Option.map_some, Option.some.injEq] at ht'
      have ho : Pool.only tot a.sym = b := by
        unfold Pool.only
        unfold Pool.line at hl
        rw [hl]
        rfl
      have hbm : b ∈ tot := by
        unfold Pool.line at hl
        exact List.mem_of_find?_eq_some hl
      refine ⟨a.mag, t, hline a ha, h, ?_, Nat.le_trans (length_le_utf8Len _) (f5 a ha), ?_⟩
      · rw [ho, show b = ⟨t, a.sym⟩ by rw [← ht', ← hb]]
      · rw [ho]
        exact Nat.le_trans (length_le_utf8Len _) (f6 b hbm)
  have hne : r.amounts ≠ [] := by
    intro he
    have := (not_isZero_iff x am).2 hc
    rw [← hr.amounts, he] at this
    simp [Pool.isZero] at this
  have g1 := Nat.le_trans (length_le_utf8Len _) f1
  have g2 := Nat.le_trans (length_le_utf8Len _) f2
  have g3 := Nat.le_trans (length_le_utf8Len _) f3
  have g4 := Nat.le_trans (length_le_utf8Len _) f4
  unfold Register.rowLines LaidOut
  rw [← hs]
  cases ha : r.amounts with
  | nil => exact absurd ha hne
  | cons a as =>
    rw [ha] at hfig
    refine ⟨r.front, (a.display, (Pool.only tot a.sym).display),
      as.map (fun a => (a.display, (Pool.only tot a.sym).display)), hr.date, hr.status, hr.description, ?_,
      g1, g2, g3, g4, ?_, ?_⟩
    · intro hlt
      have := hr.flow hlt
      exact ⟨congrArg Prod.fst this, congrArg Prod.snd this⟩
    · rw [← List.map_cons (f := fun a : Amount M => (a.display, (Pool.only tot a.sym).display)),
        List.forall₂_map_left_iff, List.forall₂_map_right_iff, List.forall₂_same]
      intro b hb
      exact hfig b hb
    · have hu := utf8Len_front w.cols r.front (by rw [show r.front.status = r.status from rfl, hr.status]; exact toChar_size _)
        g1 g2 g3 g4
      simp only [List.map_map]
      rw [prelude_eq, hu]
      rfl

theorem printLines_laidOut (env : Env) (fmt : Str) (am : Option Str) (w : Register.Widths)
    (xs before : List (Entry M)) (rs : List (RegisterData M)) (tot : Pool M)
    (hr : List.Forall₂ (RowOf env fmt am) xs rs) (hc : ∀ x ∈ xs, x.Changes am)
    (ht : ∀ s, (tot.line s).map Amount.mag = runningTotal am before s) (hfit : AllFit w rs tot) :
    ∃ blocks, Register.printLines w rs tot = blocks.flatten ∧
      EachUpTo (LaidOut env fmt am w.cols) before xs blocks := by
  induction hr generalizing before tot with
  | nil => exact ⟨[], rfl, trivial⟩
  | @cons x r xs rs hx _ ih =>
    have ht' : ∀ s, ((Pool.addPool tot r.amounts).line s).map Amount.mag
        = runningTotal am (before ++ [x]) s := by
      intro s
      have hn : (r.amounts.map Amount.sym).Nodup := by
        rw [hx.amounts, poolOf_syms]
        exact (firstSeen_aux _ [] List.nodup_nil).1
      rw [Pool.line_addPool, specAdd_pool _ hn, ht, runningTotal_snoc, hx.amounts, poolOf_line]
      rfl
    obtain ⟨bs, h1, h2⟩ := ih (before ++ [x]) (Pool.addPool tot r.amounts)
      (fun y hy => hc y (List.mem_cons_of_mem _ hy)) ht' hfit.2
    have hx' := rowLines_laidOut env fmt am w (Pool.addPool tot r.amounts) (before ++ [x]) x r hx
      (hc x List.mem_cons_self) ht' (by
        intro s m hm
        rw [runningTotal_snoc, hm]
        exact ⟨_, rfl⟩) hfit.1
    exact ⟨Register.rowLines w (Pool.addPool tot r.amounts) r :: bs,
      by simp only [Register.printLines, h1, List.flatten_cons], hx', h2⟩

/-- **C92.** The register is laid out in columns: there are widths so that in the block of every entry shown, in
order, each text fits in its column and stands on its side of it; nothing is cut off. -/
theorem C92_layout (env : Env) (terminal : Bool) (es : List (Entry M)) (fmt : Str)
    (b e : Option Date) (am : Option Str) (ls : List Str)
    (h : Register.display env terminal es fmt b e am = .ok ls) :
    ∃ c blocks, ls = blocks.flatten ∧ EachUpTo (LaidOut env fmt am c) [] (shownBy b e am es) blocks := by
  simp only [Register.display, bind, Except.bind, pure, Except.pure] at h
  cases terminal with
  | false => simp [fail] at h
  | true =>
    simp only [Bool.not_true, Bool.false_eq_true, if_false] at h
    cases hr : Register.rows env fmt am (Register.select es b e am) with
    | error f => simp [hr] at h
    | ok rs =>
      simp only [hr] at h
      cases h
      have := rows_ok _ _ _ _ _ hr
      rw [select_changes] at this
      exact ⟨_, printLines_laidOut env fmt am _ _ [] rs [] this (by
        intro x hx
        simp only [shownBy, List.mem_filter, decide_eq_true_eq] at hx
        exact hx.2.2) (fun s => rfl) (widths_fit rs [] {}).2⟩

/-- Specification: only ASCII characters. -/
def Ascii (s : Str) : Prop := ∀ c ∈ s, c.toNat < 128

instance (s : Str) : Decidable (Ascii s) := by unfold Ascii; infer_instance

theorem Ascii.excess {s : Str} (h : Ascii s) : Silverfox.excess s = 0 := by
  have : utf8Len s = s.length := by
    induction s with
    | nil => rfl
    | cons c s ih =>
      have hc := h c (by simp)
      have hu : c.utf8Size = 1 := by
        rw [Char.utf8Size_eq_one_iff]
        have : c.val.toNat < 128 := hc
        rw [UInt32.le_iff_toNat_le]
        have e : (127 : UInt32).toNat = 127 := rfl
        rw [e]
        omega
      rw [utf8Len, hu, ih fun d hd => h d (by simp [hd]), List.length_cons]
      omega
  unfold Silverfox.excess
  omega

theorem named_ascii (as : List Str) (h : ∀ a ∈ as, Ascii a) : Ascii (named as) := by
  unfold named
  split
  · decide
  · exact h _ (by simp)
  · decide

theorem accountsWith_ascii (x : Entry M) (P : M → Bool) (h : ∀ p ∈ x.postings, Ascii p.account) :
    ∀ a ∈ x.accountsWith P, Ascii a := by
  intro a ha
  unfold Entry.accountsWith at ha
  have := ((firstSeen_aux ((x.postings.filter fun p => P (x.valueOf p).mag).map Posting.account) []
    List.nodup_nil).2 a).1 ha
  simp only [List.not_mem_nil, false_or, List.mem_map, List.mem_filter] at this
  obtain ⟨p, ⟨hp, _⟩, rfl⟩ := this
  exact h p hp

theorem figureText_length {c : Cols} {g : Str × Str} (h1 : g.1.length ≤ c.amount) (h2 : g.2.length ≤ c.total) :
    (figureText c g).length = c.amount + 2 + c.total := by
  unfold figureText
  simp [length_onRight h1, length_onRight h2]
  omega

theorem eachUpTo_mem {P : List (Entry M) → Entry M → List Str → Prop} : ∀ (before xs : List (Entry M))
    (bs : List (List Str)), EachUpTo P before xs bs → ∀ b ∈ bs, ∃ upto, ∃ x ∈ xs, P upto x b
  | _, [], [], _, b, hb => by cases hb
  | before, x :: xs, b :: bs, h, b', hb => by
    rcases List.mem_cons.1 hb with rfl | hb
    · exact ⟨_, x, by simp, h.1⟩
    · obtain ⟨u, y, hy, h'⟩ := eachUpTo_mem _ xs bs h.2 b' hb
      exact ⟨u, y, by simp [hy], h'⟩
  | _, [], _ :: _, h, _, _ => h.elim
  | _, _ :: _, [], h, _, _ => h.elim

theorem figs_fit {x : Entry M} {am : Option Str} {upto : List (Entry M)} {c : Cols} {ss : List (Option Str)}
    {gg : List (Str × Str)} (h : List.Forall₂ (fun s (g : Str × Str) =>
      ∃ m t, x.change am s = some m ∧ runningTotal am upto s = some t ∧
      g = ((⟨m, s⟩ : Amount M).display, (⟨t, s⟩ : Amount M).display) ∧
      g.1.length ≤ c.amount ∧ g.2.length ≤ c.total) ss gg) :
    ∀ g' ∈ gg, g'.1.length ≤ c.amount ∧ g'.2.length ≤ c.total := by
  induction h with
  | nil => intro g' h; cases h
  | cons h _ ih =>
    intro g' hg'
    rcases List.mem_cons.1 hg' with rfl | hg'
    · obtain ⟨m, t, _, _, _, b1, b2⟩ := h
      exact ⟨b1, b2⟩
    · exact ih g' hg'

/-- **C92.** The first lines of all entries are equally long, whatever the texts are. -/
theorem C92_first_lines (env : Env) (terminal : Bool) (es : List (Entry M)) (fmt : Str)
    (b e : Option Date) (am : Option Str) (ls : List Str)
    (h : Register.display env terminal es fmt b e am = .ok ls) :
    ∃ (n : Nat) (blocks : List (List Str)), ls = blocks.flatten ∧ blocks.length = (shownBy b e am es).length ∧
      ∀ block ∈ blocks, ∃ (l : Str) (more : List Str), block = l :: more ∧ l.length = n := by
  obtain ⟨c, blocks, h1, h2⟩ := C92_layout env terminal es fmt b e am ls h
  refine ⟨c.front + (c.amount + 2 + c.total), blocks, h1, ?_, ?_⟩
  · have key : ∀ (before xs : List (Entry M)) (bs : List (List Str)),
        EachUpTo (LaidOut env fmt am c) before xs bs → bs.length = xs.length := by
      intro before xs
      induction xs generalizing before with
      | nil => intro bs h; cases bs with
        | nil => rfl
        | cons => exact h.elim
      | cons x xs ih => intro bs h; cases bs with
        | nil => exact h.elim
        | cons b bs => simp [ih _ _ h.2]
    exact key _ _ _ h2
  · intro block hb
    obtain ⟨upto, x, _, f, g, gs, _, _, _, _, a1, a2, a3, a4, hg, rfl⟩ := eachUpTo_mem _ _ _ h2 block hb
    refine ⟨_, _, rfl, ?_⟩
    rw [List.length_append, length_front c f a1 a2 a3 a4]
    obtain ⟨b1, b2⟩ := figs_fit hg g (by simp)
    rw [figureText_length b1 b2]

/-- **C92, in part.** All lines of the register are equally long and the two spaces before the last column are at
the same place in all of them, if the dates, descriptions and account names shown are ASCII. Missing: other
characters, for which it is false (`C92_accents_shift`). -/
theorem C92_columns_line_up_partial
    (hlt : ∀ m : M, Mag.lt (Mag.zero : M) m = true → Mag.lt m (Mag.zero : M) = false)
    (env : Env) (terminal : Bool) (es : List (Entry M)) (fmt : Str)
    (b e : Option Date) (am : Option Str) (ls : List Str)
    (h : Register.display env terminal es fmt b e am = .ok ls)
    (hascii : ∀ x ∈ shownBy b e am es, Ascii x.description ∧ (∀ p ∈ x.postings, Ascii p.account) ∧
      ∀ d, env.fmtDate x.date fmt = some d → Ascii d) :
    ∃ k t : Nat, ∀ l ∈ ls, l.length = k + 2 + t ∧ (l.drop k).take 2 = s%"  " := by
  obtain ⟨c, blocks, rfl, h2⟩ := C92_layout env terminal es fmt b e am ls h
  have fig : ∀ (front : Str) (g : Str × Str), front.length = c.front → g.1.length ≤ c.amount → g.2.length ≤ c.total →
      (front ++ figureText c g).length = c.front + c.amount + 2 + c.total ∧
      ((front ++ figureText c g).drop (c.front + c.amount)).take 2 = s%"  " := by
    intro front g hf h1 h2
    refine ⟨?_, ?_⟩
    · rw [List.length_append, hf, figureText_length h1 h2]; omega
    · have e : front ++ figureText c g = (front ++ onRight c.amount g.1) ++ (s%"  " ++ onRight c.total g.2) := by
        simp [figureText]
      have el : c.front + c.amount = (front ++ onRight c.amount g.1).length := by
        rw [List.length_append, hf, length_onRight h1]
      rw [e, el, List.drop_left]
      rfl
  refine ⟨c.front + c.amount, c.total, fun l hl => ?_⟩
  obtain ⟨block, hb, hl⟩ := List.mem_flatten.1 hl
  obtain ⟨upto, x, hx, f, g, gs, d1, d2, d3, d4, a1, a2, a3, a4, hg, rfl⟩ := eachUpTo_mem _ _ _ h2 block hb
  obtain ⟨as1, as2, as3⟩ := hascii x hx
  obtain ⟨e1, e2⟩ := d4 hlt
  have hfits : ∀ g' ∈ g :: gs, g'.1.length ≤ c.amount ∧ g'.2.length ≤ c.total := by
    intro g' hg'
    exact figs_fit hg g' hg'
  rcases List.mem_cons.1 hl with rfl | hl
  · obtain ⟨b1, b2⟩ := hfits g (by simp)
    exact fig _ g (length_front c f a1 a2 a3 a4) b1 b2
  · obtain ⟨g', hg', rfl⟩ := List.mem_map.1 hl
    obtain ⟨b1, b2⟩ := hfits g' (by simp [hg'])
    apply fig _ g' _ b1 b2
    rw [List.length_replicate, (as3 _ d1).excess, d3, as1.excess, e1, e2,
      (named_ascii _ (accountsWith_ascii x _ as2)).excess, (named_ascii _ (accountsWith_ascii x _ as2)).excess]
    rfl

/-- A journal with an accent in a description and one entry in two currencies. -/
def exAccent : String :=
  "account assets\naccount shop\n2024/01/02 * food\n  assets  -5\n  shop\n2024/01/03 * cafés\n  assets  -7
  assets  2 EUR @ 3\n  shop  -1 EUR @ 3\n  shop\n"

/-- **C92.** False in general: with an accent in the description, the amount in the second currency is one place
too far to the right (widths are counted in bytes, columns in characters). -/
theorem C92_accents_shift :
    registerOf exAccent none none none = .ok [
      s%"2024/01/02 * food        assets -> shop            -5      -5",
      s%"2024/01/03 * cafés   (multiple) -> (multiple)      -7     -12",
      s%"                                                 2 EUR   2 EUR"] ∧
    ¬ ∃ n, ∀ ls, registerOf exAccent none none none = .ok ls → ∀ l ∈ ls, l.length = n := by
  have h : registerOf exAccent none none none = .ok [
      s%"2024/01/02 * food        assets -> shop            -5      -5",
      s%"2024/01/03 * cafés   (multiple) -> (multiple)      -7     -12",
      s%"                                                 2 EUR   2 EUR"] := by decide +kernel
  refine ⟨h, ?_⟩
  rintro ⟨n, hn⟩
  have h1 := hn _ h _ (List.mem_cons_self)
  have h2 := hn _ h _ (List.mem_cons_of_mem _ (List.mem_cons_of_mem _ List.mem_cons_self))
  rw [← h2] at h1
  revert h1
  decide

/-- In the example of C73 all texts are ASCII. -/
example : (loadText F64 exRegister).map (fun l => l.entries.all fun x =>
    decide (Ascii x.description) && x.postings.all fun p => decide (Ascii p.account)) = .ok true := by decide +kernel

end Silverfox
