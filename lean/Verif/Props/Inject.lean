import Verif.Model.Importer
import Verif.Codec
import Verif.Proofs.Check
import Verif.Props.Rules

/-
Variables in rules (C67).
-/

namespace Silverfox

set_option linter.unusedSectionVars false

/-! ### Templates -/

/-- A piece of a template: text, a variable `%name%`, a percent sign `%%`. -/
inductive Seg where
  | text (s : Str)
  | var (n : Str)
  | percent
deriving DecidableEq

/-- The template as written. -/
def Seg.render : Seg → Str
  | .text s => s
  | .var n => '%' :: (n ++ ['%'])
  | .percent => s%"%%"

def render (segs : List Seg) : Str := segs.flatMap Seg.render

/-- What a template is to become: every variable replaced by its value, `%%` by a percent sign. -/
def Seg.meant (value : Str → Str) : Seg → Str
  | .text s => s
  | .var n => value n
  | .percent => s%"%"

def meant (value : Str → Str) (segs : List Seg) : Str := segs.flatMap (Seg.meant value)

/-- Text or variable. -/
def Seg.inner : Seg → Bool
  | .percent => false
  | _ => true

/-- Has percent signs at its borders. -/
def Seg.marked : Seg → Bool
  | .text _ => false
  | _ => true

/-- No percent sign in it. -/
def Clean (s : Str) : Prop := '%' ∉ s

/-- Nothing between two percent signs of the template looks like a variable without being one, also
after values have been filled in: no run of texts and variables between two percent signs spells, with
the values put in, the name of a variable. -/
def NoMixUp (vars : List (Str × Str)) (value : Str → Str) (segs : List Seg) : Prop :=
  ∀ A x run y B, segs = A ++ x :: (run ++ y :: B) → x.marked = true → y.marked = true →
    run ≠ [] → (∀ s ∈ run, s.inner = true) → meant value run ∉ vars.map Prod.fst

/-- The variables of `done` filled in. -/
def Seg.fillIn (value : Str → Str) (done : List Str) : Seg → Seg
  | .var n => if n ∈ done then .text (value n) else .var n
  | s => s

/-! ### Replacing -/

theorem replaceGo_nil (p r : Str) (k : Nat) : replaceGo p r k [] = [] := by cases k <;> rfl

theorem replaceGo_skip (p r : Str) : ∀ (k : Nat) (a b : Str), a.length = k →
    replaceGo p r k (a ++ b) = replaceGo p r 0 b
  | 0, [], b, _ => rfl
  | k + 1, c :: a, b, h => by
    simp only [List.cons_append, replaceGo]
    exact replaceGo_skip p r k a b (by simpa using h)

theorem replaceGo_hit (p r b : Str) (hp : p ≠ []) :
    replaceGo p r 0 (p ++ b) = r ++ replaceGo p r 0 b := by
  cases p with
  | nil => exact absurd rfl hp
  | cons c p =>
    have hpre : (c :: p).isPrefixOf (c :: (p ++ b)) = true :=
      List.isPrefixOf_iff_prefix.mpr ⟨b, rfl⟩
    show replaceGo (c :: p) r 0 (c :: (p ++ b)) = _
    rw [replaceGo, if_pos hpre, replaceGo_skip _ _ _ p b (by simp)]

theorem replaceGo_miss (p r : Str) (c : Char) (b : Str) (h : ¬ p <+: c :: b) :
    replaceGo p r 0 (c :: b) = c :: replaceGo p r 0 b := by
  rw [replaceGo, if_neg]
  rwa [List.isPrefixOf_iff_prefix]

/-- Text without percent signs is passed over. -/
theorem replaceGo_text (q r a b : Str) (ha : Clean a) :
    replaceGo ('%' :: q) r 0 (a ++ b) = a ++ replaceGo ('%' :: q) r 0 b := by
  induction a with
  | nil => rfl
  | cons c a ih =>
    have hc : c ≠ '%' := fun e => ha (by simp [e])
    rw [List.cons_append, replaceGo_miss, ih fun h => ha (by simp [h])]
    · rfl
    · rintro ⟨t, ht⟩
      simp only [List.cons_append, List.cons.injEq] at ht
      exact hc ht.1.symm

/-- Two texts without percent signs, each followed by one, are equal if the wholes agree. -/
theorem clean_unique : ∀ (a b x y : Str), Clean a → Clean b → a ++ '%' :: x = b ++ '%' :: y → a = b
  | [], [], _, _, _, _, _ => rfl
  | [], c :: b, x, y, _, hb, h => by
    simp only [List.nil_append, List.cons_append, List.cons.injEq] at h
    exact absurd h.1 fun e => hb (by simp [← e])
  | c :: a, [], x, y, ha, _, h => by
    simp only [List.nil_append, List.cons_append, List.cons.injEq] at h
    exact absurd h.1 fun e => ha (by simp [e])
  | c :: a, d :: b, x, y, ha, hb, h => by
    simp only [List.cons_append, List.cons.injEq] at h
    rw [h.1, clean_unique a b x y (fun h => ha (by simp [h])) (fun h => hb (by simp [h])) h.2]

/-- What begins a template: texts, then nothing or a percent sign. -/
theorem render_split : ∀ (segs : List Seg), (∀ s, .text s ∈ segs → Clean s) →
    ∃ run rest, segs = run ++ rest ∧ (∀ s ∈ run, ∃ t, s = .text t) ∧ Clean (render run) ∧
      (rest = [] ∨ ∃ y B, rest = y :: B ∧ y.marked = true)
  | [], _ => ⟨[], [], rfl, by simp, by simp [render, Clean], .inl rfl⟩
  | .text s :: segs, h => by
    obtain ⟨run, rest, h1, h2, h3, h4⟩ := render_split segs fun t ht => h t (by simp [ht])
    refine ⟨.text s :: run, rest, by rw [h1]; rfl, ?_, ?_, h4⟩
    · intro x hx
      rcases List.mem_cons.mp hx with rfl | hx
      · exact ⟨s, rfl⟩
      · exact h2 x hx
    · have := h s (by simp)
      simp only [render, List.flatMap_cons, Seg.render, Clean, List.mem_append, not_or] at *
      exact ⟨this, h3⟩
  | .var n :: segs, _ => ⟨[], _, rfl, by simp, by simp [render, Clean], .inr ⟨_, _, rfl, rfl⟩⟩
  | .percent :: segs, _ => ⟨[], _, rfl, by simp, by simp [render, Clean], .inr ⟨_, _, rfl, rfl⟩⟩

theorem render_append (a b : List Seg) : render (a ++ b) = render a ++ render b := by
  simp [render]

theorem render_marked (y : Seg) (B : List Seg) (h : y.marked = true) :
    ∃ t, render (y :: B) = '%' :: t := by
  cases y with
  | text s => simp [Seg.marked] at h
  | var n => exact ⟨_, rfl⟩
  | percent => exact ⟨_, rfl⟩

/-- No run of texts between percent signs spells `n`. -/
def NoRun (n : Str) (segs : List Seg) : Prop :=
  ∀ A x run y B, segs = A ++ x :: (run ++ y :: B) → x.marked = true → y.marked = true →
    run ≠ [] → (∀ s ∈ run, ∃ t, s = .text t) → render run ≠ n

theorem noRun_tail (n : Str) (s : Seg) (segs : List Seg) (h : NoRun n (s :: segs)) : NoRun n segs := by
  intro A x run y B he
  exact h (s :: A) x run y B (by rw [he]; rfl)

/-- After a percent sign that ends a piece, no variable begins. -/
theorem no_hit (n : Str) (x : Seg) (segs : List Seg) (hx : x.marked = true) (hn : Clean n)
    (hne : n ≠ []) (ht : ∀ s, .text s ∈ segs → Clean s) (h : NoRun n (x :: segs)) :
    ¬ '%' :: (n ++ ['%']) <+: '%' :: render segs := by
  rintro ⟨t, he⟩
  simp only [List.cons_append, List.append_assoc, List.cons.injEq, true_and] at he
  obtain ⟨run, rest, h1, h2, h3, h4⟩ := render_split segs ht
  rcases h4 with rfl | ⟨y, B, rfl, hy⟩
  · rw [h1, List.append_nil] at he
    have : '%' ∈ render run := by rw [← he]; simp
    exact h3 this
  · obtain ⟨u, hu⟩ := render_marked y B hy
    rw [h1, render_append, hu] at he
    have e := clean_unique _ _ _ _ hn h3 he
    have hrun : run ≠ [] := by
      rintro rfl
      exact hne (by simpa [render] using e)
    exact h [] x run y B (by rw [h1]; rfl) hx hy hrun h2 e.symm

/-- One variable is replaced. -/
theorem replace_var (n v : Str) (hn : Clean n) (hne : n ≠ []) : ∀ (segs : List Seg),
    (∀ s, .text s ∈ segs → Clean s) → (∀ m, .var m ∈ segs → Clean m ∧ m ≠ []) → NoRun n segs →
    replaceAll ('%' :: (n ++ ['%'])) v (render segs) =
      render (segs.map fun | .var m => if m = n then .text v else .var m | s => s)
  | [], _, _, _ => rfl
  | .text s :: segs, ht, hv, hr => by
    have ih := replace_var n v hn hne segs (fun t h => ht t (by simp [h])) (fun t h => hv t (by simp [h]))
      (noRun_tail n _ _ hr)
    unfold replaceAll at ih ⊢
    show replaceGo _ v 0 (s ++ render segs) = _
    rw [replaceGo_text _ _ _ _ (ht s (by simp)), ih]
    rfl
  | .percent :: segs, ht, hv, hr => by
    have ih := replace_var n v hn hne segs (fun t h => ht t (by simp [h])) (fun t h => hv t (by simp [h]))
      (noRun_tail n _ _ hr)
    unfold replaceAll at ih ⊢
    show replaceGo _ v 0 ('%' :: '%' :: render segs) = _
    rw [replaceGo_miss, replaceGo_miss, ih]
    · rfl
    · exact no_hit n .percent segs rfl hn hne (fun t h => ht t (by simp [h])) hr
    · rintro ⟨t, he⟩
      cases n with
      | nil => exact hne rfl
      | cons c n =>
        simp only [List.cons_append, List.cons.injEq, true_and] at he
        exact hn (by simp [he.1])
  | .var m :: segs, ht, hv, hr => by
    have ih := replace_var n v hn hne segs (fun t h => ht t (by simp [h])) (fun t h => hv t (by simp [h]))
      (noRun_tail n _ _ hr)
    unfold replaceAll at ih ⊢
    by_cases hm : m = n
    · subst hm
      have : render (.var m :: segs) = ('%' :: (m ++ ['%'])) ++ render segs := rfl
      rw [this, replaceGo_hit _ _ _ (by simp), ih]
      simp [render, Seg.render]
    · have : render (.var m :: segs) = '%' :: (m ++ '%' :: render segs) := by
        simp [render, Seg.render]
      rw [this, replaceGo_miss, replaceGo_text _ _ _ _ (hv m (by simp)).1, replaceGo_miss, ih]
      · simp [render, Seg.render, hm]
      · exact no_hit n (.var m) segs rfl hn hne (fun t h => ht t (by simp [h])) hr
      · rintro ⟨t, he⟩
        simp only [List.cons_append, List.append_assoc, List.cons.injEq, true_and] at he
        exact hm (clean_unique _ _ _ _ hn (hv m (by simp)).1 he).symm

/-- `%%` is replaced when no variables are left. -/
theorem replace_percent : ∀ (segs : List Seg), (∀ s ∈ segs, s = .percent ∨ ∃ t, s = .text t ∧ Clean t) →
    replaceAll s%"%%" s%"%" (render segs) = meant id segs
  | [], _ => rfl
  | s :: segs, h => by
    have ih := replace_percent segs fun t ht => h t (by simp [ht])
    unfold replaceAll at ih ⊢
    rcases h s (by simp) with rfl | ⟨t, rfl, ht⟩
    · show replaceGo s%"%%" s%"%" 0 (s%"%%" ++ render segs) = _
      rw [replaceGo_hit _ _ _ (by simp), ih]
      rfl
    · show replaceGo s%"%%" s%"%" 0 (t ++ render segs) = _
      rw [replaceGo_text _ _ _ _ ht, ih]
      rfl

theorem fillIn_run (value : Str → Str) (done : List Str) : ∀ (run : List Seg),
    (∀ s ∈ run.map (Seg.fillIn value done), ∃ t, s = .text t) →
    (∀ s ∈ run, s.inner = true) ∧ render (run.map (Seg.fillIn value done)) = meant value run
  | [], _ => ⟨by simp, rfl⟩
  | s :: run, h => by
    obtain ⟨h1, h2⟩ := fillIn_run value done run fun t ht => h t (by
      rw [List.map_cons]; exact List.mem_cons_of_mem _ ht)
    obtain ⟨t, ht⟩ := h (s.fillIn value done) (by simp)
    have h2' : render (List.map (Seg.fillIn value done) (s :: run)) =
        (s.fillIn value done).render ++ meant value run := by
      rw [← h2]; simp [render]
    cases s with
    | text u => exact ⟨by simpa [Seg.inner] using h1, by rw [h2']; rfl⟩
    | percent => simp [Seg.fillIn] at ht
    | var m =>
      by_cases hm : m ∈ done
      · exact ⟨by simpa [Seg.inner] using h1, by rw [h2']; simp [Seg.fillIn, hm, Seg.render, meant, Seg.meant]⟩
      · simp [Seg.fillIn, hm] at ht

theorem fillIn_marked (value : Str → Str) (done : List Str) (s : Seg)
    (h : (s.fillIn value done).marked = true) : s.marked = true := by
  cases s with
  | text u => simp [Seg.fillIn, Seg.marked] at h
  | percent => rfl
  | var m => rfl

theorem noRun_fillIn (vars : List (Str × Str)) (value : Str → Str) (segs : List Seg)
    (h : NoMixUp vars value segs) (done : List Str) (n : Str) (hn : n ∈ vars.map Prod.fst) :
    NoRun n (segs.map (Seg.fillIn value done)) := by
  intro A x run y B he hx hy hrun ht e
  obtain ⟨A', r1, h1, h2, h3⟩ := List.map_eq_append_iff.mp he
  obtain ⟨x', r2, h4, h5, h6⟩ := List.map_eq_cons_iff.mp h3
  obtain ⟨run', r3, h7, h8, h9⟩ := List.map_eq_append_iff.mp h6
  obtain ⟨y', B', h10, h11, h12⟩ := List.map_eq_cons_iff.mp h9
  subst h8 h5 h11
  obtain ⟨g1, g2⟩ := fillIn_run value done run' ht
  refine h A' x' run' y' B' (by rw [h1, h4, h7, h10]) (fillIn_marked _ _ _ hx) (fillIn_marked _ _ _ hy)
    ?_ g1 ?_
  · rintro rfl; exact hrun rfl
  · rw [← g2, e]; exact hn

/-- All variables of the list are replaced, one after the other. -/
theorem injectAll_fillIn (all : List (Str × Str)) (value : Str → Str) (segs : List Seg)
    (hc : ∀ p ∈ all, Clean p.1 ∧ p.1 ≠ [] ∧ Clean p.2 ∧ value p.1 = p.2)
    (ht : ∀ s, .text s ∈ segs → Clean s) (hv : ∀ m, .var m ∈ segs → Clean m ∧ m ≠ [])
    (hm : NoMixUp all value segs) : ∀ (vars : List (Str × Str)) (done : List Str),
    (∀ p ∈ vars, p ∈ all) → (∀ m ∈ done, Clean (value m)) →
    injectAll vars (render (segs.map (Seg.fillIn value done))) =
      render (segs.map (Seg.fillIn value (vars.map Prod.fst ++ done)))
  | [], done, _, _ => rfl
  | (n, v) :: vars, done, ha, hd => by
    obtain ⟨h1, h2, h3, h4⟩ := hc (n, v) (ha _ (by simp))
    simp only at h1 h2 h3 h4
    rw [injectAll, replace_var n v h1 h2]
    · rw [List.map_map]
      have : ((fun | Seg.var m => if m = n then Seg.text v else Seg.var m | s => s) ∘
          Seg.fillIn value done) = Seg.fillIn value (n :: done) := by
        funext s
        cases s with
        | text u => rfl
        | percent => rfl
        | var m =>
          by_cases hmd : m ∈ done
          · simp [Seg.fillIn, hmd]
          · by_cases hmn : m = n
            · subst hmn; simp [Seg.fillIn, hmd, h4]
            · simp [Seg.fillIn, hmd, hmn]
      rw [this, injectAll_fillIn all value segs hc ht hv hm vars (n :: done)
        (fun p hp => ha p (by simp [hp])) (by
          intro m hm'
          rcases List.mem_cons.mp hm' with rfl | hm'
          · rw [h4]; exact h3
          · exact hd m hm')]
      congr 2
      funext s
      cases s with
      | text u => rfl
      | percent => rfl
      | var m => simp only [Seg.fillIn, List.map_cons, List.cons_append, List.mem_cons, List.mem_append]; grind
    · intro s hs
      obtain ⟨x, hx, he⟩ := List.mem_map.mp hs
      cases x with
      | text u => simp only [Seg.fillIn, Seg.text.injEq] at he; subst he; exact ht _ hx
      | percent => simp [Seg.fillIn] at he
      | var m =>
        by_cases hmd : m ∈ done
        · simp only [Seg.fillIn, hmd, if_true, Seg.text.injEq] at he
          rw [← he]; exact hd m hmd
        · simp [Seg.fillIn, hmd] at he
    · intro m hm'
      obtain ⟨x, hx, he⟩ := List.mem_map.mp hm'
      cases x with
      | text u => simp [Seg.fillIn] at he
      | percent => simp [Seg.fillIn] at he
      | var m' =>
        by_cases hmd : m' ∈ done
        · simp [Seg.fillIn, hmd] at he
        · simp only [Seg.fillIn, hmd, if_false, Seg.var.injEq] at he
          subst he; exact hv _ hx
    · exact noRun_fillIn all value segs hm done n (List.mem_map.mpr ⟨(n, v), ha _ (by simp), rfl⟩)

/-- **C67, partial.** In a template made of text, variables and doubled percent signs every variable
is replaced by its value and `%%` by one percent sign, in whatever order the variables are visited: if
names are not empty, names, values and text have no percent signs, all variables of the template exist,
and nothing between two percent signs can be mistaken for a variable. Missing from the claim: other
values and names, for which it is false (`C67_value_with_percent`, `C67_value_like_name`,
`C67_empty_name`). -/
theorem C67_variables_partial (env : Env) (vars : List (Str × Str)) (value : Str → Str)
    (segs : List Seg) (hord : ∀ p, p ∈ env.ord vars ↔ p ∈ vars)
    (hc : ∀ p ∈ vars, Clean p.1 ∧ p.1 ≠ [] ∧ Clean p.2 ∧ value p.1 = p.2)
    (ht : ∀ s, .text s ∈ segs → Clean s) (hv : ∀ m, .var m ∈ segs → m ∈ vars.map Prod.fst)
    (hm : NoMixUp vars value segs) :
    inject env vars (render segs) = meant value segs := by
  have hv' : ∀ m, .var m ∈ segs → Clean m ∧ m ≠ [] := by
    intro m h
    obtain ⟨p, hp, rfl⟩ := List.mem_map.mp (hv m h)
    exact ⟨(hc p hp).1, (hc p hp).2.1⟩
  have h0 : segs.map (Seg.fillIn value []) = segs := by
    conv => rhs; rw [← List.map_id segs]
    congr 1
    funext s
    cases s <;> simp [Seg.fillIn]
  have h1 := injectAll_fillIn vars value segs hc ht hv' hm (env.ord vars) []
    (fun p hp => (hord p).mp hp) (by simp)
  rw [h0] at h1
  unfold inject
  rw [h1, replace_percent]
  · simp only [meant, List.flatMap_map]
    simp only [List.flatMap_def]
    congr 1
    refine List.map_congr_left fun s hs => ?_
    cases s with
    | text u => rfl
    | percent => rfl
    | var m =>
      have : m ∈ (env.ord vars).map Prod.fst ++ [] := by
        obtain ⟨p, hp, he⟩ := List.mem_map.mp (hv m hs)
        simp only [List.append_nil]
        exact List.mem_map.mpr ⟨p, (hord p).mpr hp, he⟩
      simp only [Seg.fillIn, this, if_true, Seg.meant]
  · intro s hs
    obtain ⟨x, hx, he⟩ := List.mem_map.mp hs
    cases x with
    | text u => exact .inr ⟨u, he.symm, ht u hx⟩
    | percent => exact .inl he.symm
    | var m =>
      obtain ⟨p, hp, hpm⟩ := List.mem_map.mp (hv m hx)
      have : m ∈ (env.ord vars).map Prod.fst ++ [] := by
        simp only [List.append_nil]
        exact List.mem_map.mpr ⟨p, (hord p).mpr hp, hpm⟩
      simp only [Seg.fillIn, this, if_true] at he
      refine .inr ⟨value m, he.symm, ?_⟩
      rw [← hpm, (hc p hp).2.2.2]; exact (hc p hp).2.2.1

/-- Two orders in which a table may be visited. -/
def forwards : Env := stdEnv ⟨2024, 6, 15, by decide⟩
def backwards : Env := { stdEnv ⟨2024, 6, 15, by decide⟩ with ord := List.reverse }

/-- A template with all kinds of pieces, variables side by side; both orders. -/
def exSegs : List Seg :=
  [.var s%"payee", .text s%" (", .var s%"rate", .percent, .text s%") ", .var s%"day", .var s%"month"]

def exVars : List (Str × Str) :=
  [(s%"payee", s%"Shop"), (s%"rate", s%"5"), (s%"day", s%"01"), (s%"month", s%"Feb")]

example : render exSegs = s%"%payee% (%rate%%%) %day%%month%" := by decide
example : inject forwards exVars (render exSegs) = s%"Shop (5%) 01Feb" ∧
    inject backwards exVars (render exSegs) = s%"Shop (5%) 01Feb" := by decide +kernel

/-- Is there a run of `texts` between percent signs that spells a name? A check that is enough for
`NoMixUp`, by going through all places. -/
def runsFrom (value : Str → Str) : List Seg → List Str
  | [] => []
  | s :: segs =>
    if s.inner then
      (match segs with
        | [] => []
        | y :: _ => if y.marked then [s.meant value] else []) ++
      (runsFrom value segs).map (s.meant value ++ ·)
    else []

def mixUps (vars : List (Str × Str)) (value : Str → Str) : List Seg → Bool
  | [] => false
  | x :: segs => (x.marked && (runsFrom value segs).any fun r => r ∈ vars.map Prod.fst) ||
      mixUps vars value segs

theorem runsFrom_mem (value : Str → Str) (y : Seg) (B : List Seg) (hy : y.marked = true) :
    ∀ (run : List Seg), run ≠ [] → (∀ s ∈ run, s.inner = true) →
    meant value run ∈ runsFrom value (run ++ y :: B)
  | [], h, _ => absurd rfl h
  | [s], _, h => by
    have := h s (by simp)
    simp [runsFrom, this, hy, meant]
  | s :: t :: run, _, h => by
    have ih := runsFrom_mem value y B hy (t :: run) (by simp) fun u hu => h u (by simp [hu])
    have hs := h s (by simp)
    rw [List.cons_append, runsFrom.eq_def]
    simp only [hs, if_true]
    refine List.mem_append_right _ (List.mem_map.mpr ⟨_, ih, ?_⟩)
    simp [meant]

theorem noMixUp_of (vars : List (Str × Str)) (value : Str → Str) (segs : List Seg)
    (h : mixUps vars value segs = false) : NoMixUp vars value segs := by
  intro A x run y B he hx hy hrun hi hmem
  subst he
  induction A with
  | nil =>
    simp only [List.nil_append, mixUps, hx, Bool.true_and, Bool.or_eq_false_iff,
      List.any_eq_false] at h
    exact h.1 _ (runsFrom_mem value y B hy run hrun hi) (by simpa using hmem)
  | cons a A ih =>
    simp only [List.cons_append, mixUps, Bool.or_eq_false_iff] at h
    exact ih h.2

/-- The conditions of `C67_variables_partial` hold of the example. -/
example : inject backwards exVars (render exSegs) =
    meant (fun n => (mapGet exVars n).getD []) exSegs :=
  C67_variables_partial backwards exVars _ exSegs (fun p => List.mem_reverse)
    (by unfold Clean; decide) (by
      intro s hs
      simp only [exSegs, List.mem_cons, List.not_mem_nil, or_false, Seg.text.injEq, reduceCtorEq,
        false_or] at hs
      rcases hs with rfl | rfl <;> (unfold Clean; decide)) (by
      intro s hs
      simp only [exSegs, List.mem_cons, List.not_mem_nil, or_false, Seg.var.injEq, reduceCtorEq,
        false_or] at hs
      rcases hs with rfl | rfl | rfl | rfl <;> decide)
    (noMixUp_of _ _ _ (by decide))

/-- **C67, refuted.** A percent sign in a value is taken for a rule's own: the description
`%amount%` of a record becomes the amount or stays, according to the order in which the table of
variables happens to be visited; `50%%` in a value always loses one of its signs. -/
theorem C67_value_with_percent :
    inject forwards [(s%"text", s%"%amount%"), (s%"amount", s%"5")] s%"%text%" = s%"5" ∧
    inject backwards [(s%"text", s%"%amount%"), (s%"amount", s%"5")] s%"%text%" = s%"%amount%" ∧
    inject forwards [(s%"text", s%"50%%")] s%"%text%" = s%"50%" := by decide +kernel

/-- **C67, refuted.** Even without percent signs in the values the order matters, when three variables
stand side by side and the value of the middle one is the name of a variable. -/
theorem C67_value_like_name :
    inject forwards [(s%"b", s%"d"), (s%"d", s%"4"), (s%"a", s%"1"), (s%"c", s%"3")] s%"%a%%b%%c%" =
      s%"%a4c%" ∧
    inject backwards [(s%"b", s%"d"), (s%"d", s%"4"), (s%"a", s%"1"), (s%"c", s%"3")] s%"%a%%b%%c%" =
      s%"1d3" := by decide +kernel

/-- **C67, refuted.** A column left without a name (`fields date,,amount`) is a variable named by
nothing, written `%%`: no percent sign can be written any more. -/
theorem C67_empty_name :
    inject forwards [(s%"date", s%"2024/06/01"), ([], s%"x"), (s%"amount", s%"5")] s%"100%%" = s%"100x" := by
  decide +kernel

end Silverfox
