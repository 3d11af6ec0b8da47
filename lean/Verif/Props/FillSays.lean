import Verif.Props.FillBalance

/-
C145: what a command that fills the envelopes reports, and what the journal it leaves says.
-/

namespace Silverfox

set_option linter.unusedSectionVars false

/-! ### Sums of doubles, some of them not yet rounded -/

theorem close_sums (ys : List F64) (ds : List Int) (h : List.Forall₂ (fun y (d : Int) => Close y d (5 / 8)) ys ds) :
    (∀ y ∈ ys, y.finite = true) ∧ |exactSum ys * 100000000 - (ds.sum : Int)| ≤ 5 / 8 * (ds.length : Rat) ∧
      absSum ys * 100000000 ≤ (ds.map fun d : Int => |(d : Rat)|).sum + 5 / 8 * (ds.length : Rat) := by
  induction h with
  | nil => exact ⟨by simp, by simp [exactSum], by simp [absSum]⟩
  | @cons y d ys ds h1 _ ih =>
    obtain ⟨i1, i2, i3⟩ := ih
    obtain ⟨c1, c2⟩ := h1
    simp only [List.map_cons, List.sum_cons, exactSum, absSum, List.length_cons] at i2 i3 ⊢
    refine ⟨?_, ?_, ?_⟩
    · intro z hz
      rcases List.mem_cons.1 hz with rfl | hz
      · exact c1
      · exact i1 z hz
    · push_cast
      generalize (ys.map F64.value).sum = S at *
      rw [abs_le] at *
      constructor <;> linarith [c2.1, c2.2, i2.1, i2.2]
    · push_cast
      have : |y.value| * 100000000 ≤ |(d : Rat)| + 5 / 8 := by
        have h3 : |y.value * 100000000| ≤ |y.value * 100000000 - d| + |(d : Rat)| := by
          have := abs_add_le (y.value * 100000000 - d) (d : Rat)
          rwa [sub_add_cancel] at this
        rw [abs_mul, abs_of_pos (show (0 : Rat) < 100000000 by norm_num)] at h3
        linarith
      linarith

theorem abs_sum_le (ds : List Int) : |((ds.sum : Int) : Rat)| ≤ (ds.map fun d : Int => |(d : Rat)|).sum := by
  induction ds with
  | nil => simp
  | cons d ds ih =>
    rw [List.sum_cons, List.map_cons, List.sum_cons]
    push_cast
    exact le_trans (abs_add_le _ _) (by linarith)

/-- A sum of doubles near to hundred-millionths, and of some that have not been rounded: how far it can be off. -/
theorem sumF_mixed (xs ys zs : List F64) (ts : List (Int × Nat)) (ds : List Int) (V : Rat)
    (hx : List.Forall₂ (fun x t => NearTo x t.1 t.2) xs ts) (hy : List.Forall₂ (fun y (d : Int) => Close y d (5 / 8)) ys ds)
    (hz : zs.Perm (xs ++ ys)) (hne : ds ≠ []) (hV : (ds.map fun d : Int => |(d : Rat)|).sum ≤ V) (hV2 : 2 * (ds.length : Rat) ≤ V)
    (hb : ((ts.length : Rat) + ds.length + 3) * (((ts.map Prod.snd).sum : Nat) + V) ≤ 2 ^ 51) :
    (sumF zs).finite = true ∧
      |(sumF zs).value * 100000000 - ((ts.map Prod.fst).sum + ds.sum : Int)| ≤ 5 / 8 * (ds.length : Rat) + 21 / 32 ∧
      |(sumF zs).value| * 100000000 ≤ 2 ^ 50 := by
  obtain ⟨a1, a2, a3, a4, _⟩ := near_sums xs ts hx
  obtain ⟨b1, b2, b3⟩ := close_sums ys ds hy
  have b4 := abs_sum_le ds
  have hm : (1 : Rat) ≤ ds.length := by exact_mod_cast List.length_pos_iff.2 hne
  have e1 : exactSum zs = exactSum xs + exactSum ys := by
    unfold exactSum
    rw [(hz.map _).sum_eq, List.map_append, List.sum_append]
  have e2 : absSum zs = absSum xs + absSum ys := by
    unfold absSum
    rw [(hz.map _).sum_eq, List.map_append, List.sum_append]
  have e3 : zs.length = ts.length + ds.length := by
    rw [hz.length_eq, List.length_append, hx.length_eq, hy.length_eq]
  have hfin : ∀ z ∈ zs, z.finite = true := by
    intro z hz'
    rcases List.mem_append.1 (hz.mem_iff.1 hz') with h | h
    · exact a1 z h
    · exact b1 z h
  have a4 : |(((ts.map Prod.fst).sum : Int) : Rat)| ≤ ((ts.map Prod.snd).sum : Nat) := by
    rw [← Int.cast_abs, ← Nat.cast_natAbs]
    exact_mod_cast a4
  have hA0 : (0 : Rat) ≤ ((ts.map Prod.snd).sum : Nat) := Nat.cast_nonneg _
  have hl0 : (0 : Rat) ≤ ts.length := Nat.cast_nonneg _
  have hn : zs.length ≤ 2 ^ 51 := by
    have : ((ts.length : Rat) + ds.length + 3) * 2 ≤ ((ts.length : Rat) + ds.length + 3) * (((ts.map Prod.snd).sum : Nat) + V) :=
      mul_le_mul_of_nonneg_left (by linarith) (by linarith)
    have h2 : ((zs.length : Nat) : Rat) ≤ ((2 ^ 51 : Nat) : Rat) := by
      rw [e3]
      push_cast
      linarith
    exact_mod_cast h2
  have e3 : ((zs.length : Nat) : Rat) = ts.length + ds.length := by rw [e3]; push_cast; rfl
  push_cast
  generalize (((ts.map Prod.snd).sum : Nat) : Rat) = A at *
  generalize (((ts.map Prod.fst).sum : Int) : Rat) = D at *
  generalize ((ds.sum : Int) : Rat) = d at *
  generalize (ts.length : Rat) = n at *
  generalize (ds.length : Rat) = m at *
  generalize (ds.map fun d : Int => |(d : Rat)|).sum = B at *
  have h4 : 4 * (A + V) ≤ 2 ^ 51 := le_trans (mul_le_mul_of_nonneg_right (by linarith) (by linarith)) hb
  have hab : absSum zs * 100000000 ≤ (A + V) * (21 / 16 + 1 / 2 ^ 52) := by
    rw [e2]
    have : 0 ≤ V * (1 / 2 ^ 52) := mul_nonneg (by linarith) (by norm_num)
    linarith
  have hpow : (2 : Rat) ^ 52 ≤ 2 ^ 1000 := pow_le_pow_right₀ (by norm_num) (by norm_num)
  cases zs with
  | nil => simp at e3; linarith
  | cons z zs =>
    obtain ⟨g1, g2⟩ := sum_err z zs hfin (le_trans hn (by norm_num)) (le_trans (by linarith : _ ≤ (2 : Rat) ^ 52) hpow)
    have key : |(sumF (z :: zs)).value * 100000000 - (D + d)| ≤ 5 / 8 * m + 21 / 32 := by
      show |(zs.foldl F64.add z).value * 100000000 - (D + d)| ≤ _
      rw [e3] at g2
      rw [e1] at g2
      clear hpow
      generalize (zs.foldl F64.add z).value = v at *
      generalize absSum (z :: zs) = C at *
      generalize exactSum xs = S at *
      generalize exactSum ys = S' at *
      have k1 : |v - (S + S')| * 100000000 ≤ (n + m) * ((A + V) * (21 / 16 + 1 / 2 ^ 52)) / 2 ^ 52 := by
        calc |v - (S + S')| * 100000000 ≤ (n + m) * C / 2 ^ 52 * 100000000 := mul_le_mul_of_nonneg_right g2 (by norm_num)
          _ = (n + m) * (C * 100000000) / 2 ^ 52 := by ring
          _ ≤ _ := div_le_div_of_nonneg_right (mul_le_mul_of_nonneg_left hab (by linarith)) (by norm_num)
      have k2 : (n + m) * (A + V) ≤ 2 ^ 51 - 3 * (A + V) := by linarith
      have k3 : (n + m) * ((A + V) * (21 / 16 + 1 / 2 ^ 52)) / 2 ^ 52 + A / 2 ^ 52 ≤ 21 / 32 := by
        have : (n + m) * ((A + V) * (21 / 16 + 1 / 2 ^ 52)) / 2 ^ 52 = ((n + m) * (A + V)) * ((21 / 16 + 1 / 2 ^ 52) / 2 ^ 52) := by ring
        rw [this]
        have := mul_le_mul_of_nonneg_right k2 (show (0 : Rat) ≤ (21 / 16 + 1 / 2 ^ 52) / 2 ^ 52 by norm_num)
        linarith
      have e : v * 100000000 - (D + d) = (v - (S + S')) * 100000000 + (S * 100000000 - D) + (S' * 100000000 - d) := by ring
      rw [e]
      refine le_trans (abs_add_le _ _) ?_
      refine le_trans (add_le_add_left (abs_add_le _ _) _) ?_
      rw [abs_mul, abs_of_pos (show (0 : Rat) < 100000000 by norm_num)]
      linarith
    refine ⟨g1, key, ?_⟩
    have h5 : |(sumF (z :: zs)).value * 100000000| ≤ |(sumF (z :: zs)).value * 100000000 - (D + d)| + |D + d| := by
      have := abs_add_le ((sumF (z :: zs)).value * 100000000 - (D + d)) (D + d)
      rwa [sub_add_cancel] at this
    rw [abs_mul, abs_of_pos (show (0 : Rat) < 100000000 by norm_num)] at h5
    have := abs_add_le D d
    linarith

/-- It is printed as something that is off by at most as many hundred-millionths as there are doubles not yet rounded. -/
theorem mixed_shown (xs ys zs : List F64) (ts : List (Int × Nat)) (ds : List Int) (V : Rat)
    (hx : List.Forall₂ (fun x t => NearTo x t.1 t.2) xs ts) (hy : List.Forall₂ (fun y (d : Int) => Close y d (5 / 8)) ys ds)
    (hz : zs.Perm (xs ++ ys)) (hV : (ds.map fun d : Int => |(d : Rat)|).sum ≤ V) (hV2 : 2 * (ds.length : Rat) ≤ V)
    (hb : ((ts.length : Rat) + ds.length + 3) * (((ts.map Prod.snd).sum : Nat) + V) ≤ 2 ^ 51) :
    (round8 (sumF zs)).finite = true ∧ ∃ (neg : Bool) (d k : Nat) (z : Int), IsNumeral (Mag.fmt (round8 (sumF zs))) neg d k ∧
      Mag.parse (Mag.fmt (round8 (sumF zs))) = some ((z : Rat) / 100000000) ∧
      |z - ((ts.map Prod.fst).sum + ds.sum)| ≤ ds.length := by
  by_cases hne : ds = []
  · subst hne
    cases hy
    rw [List.append_nil] at hz
    obtain ⟨ts', t1, t2⟩ := List.perm_comp_forall₂ hz hx
    have hfst := (t2.map Prod.fst).sum_eq
    have hsnd := (t2.map Prod.snd).sum_eq
    have hb' : (ts'.length + 3) * (ts'.map Prod.snd).sum ≤ 2 ^ 51 := by
      rw [t2.length_eq, hsnd]
      have h0 : (0 : Rat) ≤ V := by simpa using hV
      have : (((ts.length + 3) * (ts.map Prod.snd).sum : Nat) : Rat) ≤ ((2 ^ 51 : Nat) : Rat) := by
        push_cast
        refine le_trans ?_ hb
        simp only [List.length_nil, Nat.cast_zero, add_zero]
        refine mul_le_mul_of_nonneg_left ?_ (by positivity)
        linarith
      exact_mod_cast this
    obtain ⟨r1, neg, r2, r3⟩ := sumF_shown _ ts' t1 hb'
    obtain ⟨d, k, q1, q2⟩ := shows_rat r2
    refine ⟨r1, neg, d, k, _, q1, q2, ?_⟩
    rw [← r3, hfst]
    simp
  · obtain ⟨r1, r2, r3⟩ := sumF_mixed xs ys zs ts ds V hx hy hz hne hV hV2 hb
    obtain ⟨neg, n, n1, n2, n3⟩ := round8_any _ r1 r3
    obtain ⟨hr, e⟩ := typed_fin neg n n1
    obtain ⟨d, k, q1, q2⟩ := shows_rat (fmt_shows neg n n1)
    rw [← n2] at q1 q2
    refine ⟨by rw [n2, e]; rfl, neg, d, k, _, q1, q2, ?_⟩
    have hm : (1 : Rat) ≤ ds.length := by exact_mod_cast List.length_pos_iff.2 hne
    have : |((F64.sgn neg n - ((ts.map Prod.fst).sum + ds.sum) : Int) : Rat)| < ((ds.length : Int) + 1 : Int) := by
      push_cast at r2 ⊢
      rw [abs_le] at r2 n3
      rw [abs_lt]
      constructor <;> linarith [r2.1, r2.2, n3.1, n3.2]
    have : |(F64.sgn neg n - ((ts.map Prod.fst).sum + ds.sum) : Int)| < (ds.length : Int) + 1 := by
      rw [← Int.cast_abs] at this
      exact_mod_cast this
    omega

/-! ### What is counted after the envelopes have been filled -/

theorem pool_mag (ms : List (Amount F64)) (a : Amount F64) (ha : a ∈ ms.foldl Pool.add []) :
    a.mag = sumF (partsOf a.sym ms) := by
  have e1 : ((ms.foldl Pool.add []).only a.sym).mag = a.mag := by
    have := line_of_mem _ (pool_syms ms).1 a ha
    unfold Pool.line at this
    unfold Pool.only
    rw [this]; rfl
  rw [← e1, plus_runAll, only_parts, plus_parts]
  cases partsOf a.sym ms <;> rfl

theorem fill_counted_moves (today : Date) (ps : List (EnvPosting F64)) (k : Str) :
    (Ledger.fillEntry today ps).counted.movesOf k = (ps.filter fun q => q.account = k).map EnvPosting.amount := by
  unfold Entry.movesOf
  have : (Ledger.fillEntry today ps).counted.postings =
      ps.map fun q => Posting.classic ⟨q.account, some q.amount, none, none⟩ := by
    show ((ps.map Posting.envelope).map Posting.counted) = _
    rw [List.map_map]; rfl
  rw [this, List.filterMap_map]
  induction ps with
  | nil => rfl
  | cons q ps ih =>
    have ih := ih (by
      show ((ps.map Posting.envelope).map Posting.counted) = _
      rw [List.map_map]; rfl)
    by_cases e : q.account = k
    · rw [List.filter_cons_of_pos (a := q) (by simpa using e), List.map_cons,
        List.filterMap_cons_some (a := q) (b := q.amount) (by simp [e, Entry.worthOf])]
      congr 1
    · rw [List.filter_cons_of_neg (a := q) (by simpa using e), List.filterMap_cons_none (a := q) (by simp [e])]
      exact ih

theorem fill_parts {ps : List (EnvPosting F64)} {ls : List MLine} (h : List.Forall₂ LineOf ps ls)
    (h8 : ∀ m ∈ ls, m.value.1 * 100000000 = u8 m.value.1) (k : Str) (s : Option Str) :
    List.Forall₂ (fun y (d : Int) => Close y d (5 / 8)) (partsOf s ((ps.filter fun q => q.account = k).map EnvPosting.amount))
      ((linesIn k s ls).map fun m => u8 m.value.1) := by
  unfold partsOf linesIn
  induction h with
  | nil => exact .nil
  | @cons q m ps ls h1 _ ih =>
    have ih := ih fun m hm => h8 m (by simp [hm])
    by_cases e : m.account = k
    · have eq : q.account = k := by rw [← h1.account, e]
      rw [List.filter_cons_of_pos (a := q) (by simpa using eq), List.map_cons]
      by_cases e2 : m.value.2 = s
      · have eq2 : q.amount.sym = s := by rw [← h1.sym, e2]
        rw [List.filter_cons_of_pos (a := m) (by simpa using ⟨e, e2⟩), List.filter_cons_of_pos (a := q.amount) (by simpa using eq2),
          List.map_cons, List.map_cons]
        refine .cons ?_ ih
        rw [← h8 m (by simp)]
        exact h1.close
      · have eq2 : q.amount.sym ≠ s := by rw [← h1.sym]; exact e2
        rw [List.filter_cons_of_neg (a := m) (by simp [e2]), List.filter_cons_of_neg (a := q.amount) (by simpa using eq2)]
        exact ih
    · have eq : q.account ≠ k := by rw [← h1.account]; exact e
      rw [List.filter_cons_of_neg (a := q) (by simpa using eq), List.filter_cons_of_neg (a := m) (by simp [e])]
      exact ih

/-- The entries as they are read, and the one for the envelopes. -/
structure FilledEntries (env : Env) (accs : List DeclAccount) (es : List BEntry) (ls : List MLine) (ys : List (Entry F64)) : Prop where
  ok : ∀ b ∈ es, b.Ok env (accs.map Prod.fst)
  words : ∀ p ∈ accs, isWord p.1
  declared : ∀ p ∈ accs, ∀ x ∈ p.2, DeclOk env x
  whole : ∀ m ∈ ls, m.value.1 * 100000000 = u8 m.value.1
  made : ∃ (xs : List (Entry F64)) (ps : List (EnvPosting F64)), List.Forall₂ BEntryOf es xs ∧ List.Forall₂ LineOf ps ls ∧
    (∀ q ∈ ps, ∃ p ∈ accs, ∃ x ∈ p.2, q.account = p.1 ∧ q.amount.sym = x.target.sym) ∧
    DateOrdered (xs ++ if ps = [] then [] else [Ledger.fillEntry env.today ps]) ys

section

variable {env : Env} {accs : List DeclAccount} {es : List BEntry} {ls : List MLine} {ys : List (Entry F64)}

theorem FilledEntries.cases (h : FilledEntries env accs es ls ys) {y : Entry F64} (hy : y ∈ ys) :
    (∃ b ∈ es, BEntryOf b y) ∨ ∀ p ∈ y.postings, ∃ q : EnvPosting F64, p = .envelope q ∧
      ∃ p ∈ accs, ∃ x ∈ p.2, q.account = p.1 ∧ q.amount.sym = x.target.sym := by
  obtain ⟨xs, ps, h1, _, h3, h4⟩ := h.made
  rcases List.mem_append.1 (h4.same.mem_iff.1 hy) with hx | hx
  · obtain ⟨b, hb, hbx⟩ := forall₂_mem_right h1 hx
    exact Or.inl ⟨b, hb, hbx⟩
  · right
    split at hx
    · cases hx
    · rw [List.mem_singleton] at hx
      subst hx
      intro p hp
      obtain ⟨q, hq, rfl⟩ := List.mem_map.1 (show p ∈ ps.map Posting.envelope from hp)
      exact ⟨q, rfl, h3 q hq⟩

theorem FilledEntries.noMixing (h : FilledEntries env accs es ls ys) : ∀ y ∈ ys, NoMixing y := by
  intro y hy
  rcases h.cases hy with ⟨b, hb, hbx⟩ | hq
  · exact (h.ok b hb).noMixing hbx
  · rintro ⟨p, hp, ha⟩
    obtain ⟨q, rfl, _⟩ := hq p hp
    cases ha

theorem FilledEntries.accounts (h : FilledEntries env accs es ls ys) : ∀ y ∈ ys, ∀ p ∈ y.postings, isWord p.account := by
  intro y hy p hp
  rcases h.cases hy with ⟨b, hb, hbx⟩ | hq
  · rw [hbx.2] at hp
    obtain ⟨j, hj, rfl⟩ := List.mem_map.1 hp
    cases j with
    | posting q => exact (((h.ok b hb).line hj).1 q rfl).word
    | move m => exact (((h.ok b hb).line hj).2 m rfl).words.1
  · obtain ⟨q, rfl, p, hp, _, _, e, _⟩ := hq p hp
    show isWord q.account
    rw [e]
    exact h.words p hp

theorem FilledEntries.symbols (h : FilledEntries env accs es ls ys) : ReadableSymbols ys := by
  intro y hy p hp a hpa s hs
  rcases h.cases hy with ⟨b, hb, hbx⟩ | hq
  · rw [hbx.2] at hp
    obtain ⟨j, hj, rfl⟩ := List.mem_map.1 hp
    cases j with
    | posting q =>
      obtain ⟨⟨m, y⟩, hv, rfl⟩ := read_sym hpa
      simp only at hs
      subst hs
      obtain ⟨_, _, _, _, _, _, hw | ⟨sym, e1, e2, _⟩⟩ := ((((h.ok b hb).line hj).1 q rfl).given m _ hv).2.2
      · cases hw.1
      · cases e1; exact e2
    | move m =>
      cases hpa
      obtain ⟨_, _, _, _, _, _, hw | ⟨sym, e1, e2, _⟩⟩ := (((h.ok b hb).line hj).2 m rfl).amount
      · rw [show m.value.2 = some s from hs] at hw; cases hw.1
      · rw [show m.value.2 = some s from hs] at e1; cases e1; exact e2
  · obtain ⟨q, rfl, p, hp, x, hx, _, e⟩ := hq p hp
    cases hpa
    exact target_symbol (h.declared p hp x hx) s (by rw [← e]; exact hs)

theorem FilledEntries.first (h : FilledEntries env accs es ls ys) {k : Str} (hk : SeenBefore k (es.map BEntry.counted)) :
    FirstHasAmount k (ys.map Entry.counted) := by
  have hd := h.made
  obtain ⟨xs, ps, h1, _, _, h4⟩ := hd
  intro p hp
  obtain ⟨y, k1, k2, k3, k4⟩ := first_posting k _ h4.counted.sorted p hp
  obtain ⟨y0, hy0, rfl⟩ := List.mem_map.1 k1
  obtain ⟨p0, hp0, rfl⟩ := List.mem_map.1 (show p ∈ y0.postings.map Posting.counted from k2)
  rcases h.cases hy0 with ⟨b, hb, hbx⟩ | hq
  · have hey := hbx.counted
    have k2 : p0.counted ∈ y0.counted.postings := List.mem_map_of_mem hp0
    rw [hey.2] at k2
    obtain ⟨l, hl, hlp⟩ := List.mem_map.1 k2
    cases hv : l.value with
    | some v => rw [← hlp]; simp [PLine.posting, PLine.read, Posting.amount, hv]
    | none =>
      obtain ⟨e', he', hlt, l', hl', hk'⟩ := hk b.counted (List.mem_map_of_mem hb) ⟨l, hl, by rw [← k3, ← hlp]; rfl, hv⟩
      obtain ⟨b', hb', rfl⟩ := List.mem_map.1 he'
      obtain ⟨y', hy', hey'⟩ := forall₂_mem_left h1 hb'
      refine absurd hk' (k4 y'.counted (List.mem_map_of_mem (h4.same.mem_iff.2 (List.mem_append_left _ hy'))) ?_ l'.posting (by
        rw [hey'.counted.2]; exact List.mem_map_of_mem hl'))
      rw [hey'.counted.1.1, hey.1.1]; exact hlt
  · obtain ⟨q, rfl, _⟩ := hq p0 hp0
    simp [Posting.counted, Posting.amount]

/-- What is counted for an account. -/
theorem FilledEntries.counted (h : FilledEntries env accs es ls ys) {k : Str} (hk : SeenBefore k (es.map BEntry.counted)) :
    ∃ (ms : List (Amount F64)) (ps : List (EnvPosting F64)), List.Forall₂ LineOf ps ls ∧
      ms.Perm ((es.map BEntry.counted).flatMap (PEntry.readMoves k) ++ (ps.filter fun q => q.account = k).map EnvPosting.amount) ∧
      ((∃ y ∈ ys, ∃ p ∈ y.postings, p.account = k) → countAll k ys none = some (ms.foldl Pool.add [])) ∧
      ((¬ ∃ y ∈ ys, ∃ p ∈ y.postings, p.account = k) → ms = []) := by
  have hd := h.made
  obtain ⟨xs, ps, h1, h2, h3, h4⟩ := hd
  have hsound : ∀ e ∈ es.map BEntry.counted, e.Sound := by
    intro e he
    obtain ⟨b, hb, rfl⟩ := List.mem_map.1 he
    exact (h.ok b hb).counted_sound
  have hne : NoEnvelopeOf k (ys.map Entry.counted) := by
    intro x hx p hp he
    obtain ⟨y, _, rfl⟩ := List.mem_map.1 hx
    obtain ⟨q, _, rfl⟩ := List.mem_map.1 (show p ∈ y.postings.map Posting.counted from hp)
    cases q <;> cases he
  have hc := countAll_none k _ hne (h.first hk)
  rw [countAll_counted k ys h.noMixing] at hc
  refine ⟨(ys.map Entry.counted).flatMap fun x => x.movesOf k, ps, h2, ?_, ?_, ?_⟩
  · have e1 := (h4.counted.same.flatMap_right fun x => x.movesOf k)
    refine e1.trans ?_
    rw [List.map_append, List.flatMap_append, all_moves hsound (forall₂_counted h1) k]
    refine List.Perm.append_left _ ?_
    split
    · rename_i e; subst e; exact .refl _
    · rw [List.map_singleton, List.flatMap_singleton, fill_counted_moves]
  · rintro ⟨y, hy, p, hp, e⟩
    rw [hc, if_pos]
    rw [List.any_eq_true]
    exact ⟨p.counted, List.mem_flatMap.2 ⟨y.counted, List.mem_map_of_mem hy, List.mem_map_of_mem hp⟩, by
      rw [counted_account, e]; simp⟩
  · intro hno
    rw [List.flatMap_eq_nil_iff]
    intro x hx
    obtain ⟨y, hy, rfl⟩ := List.mem_map.1 hx
    unfold Entry.movesOf
    rw [List.filterMap_eq_nil_iff]
    intro p hp
    obtain ⟨q, hq, rfl⟩ := List.mem_map.1 (show p ∈ y.postings.map Posting.counted from hp)
    have : q.account ≠ k := fun e => hno ⟨y, hy, q, hq, e⟩
    rw [← counted_account] at this
    cases hqc : q.counted with
    | envelope e => rfl
    | classic c =>
      rw [hqc] at this
      simp only [Posting.account] at this
      simp [this]

/-- Specification: there is room for the lines that are added. -/
def RoomFor (es : List BEntry) (ls : List MLine) : Prop :=
  ∀ k s, ∃ V : Rat, ((linesIn k s ls).map fun m => |m.value.1|).sum * 100000000 ≤ V ∧ 2 * ((linesIn k s ls).length : Rat) ≤ V ∧
    (((weighedIn k s (es.map BEntry.counted)).length : Rat) + (linesIn k s ls).length + 3) *
      (((weighedIn k s (es.map BEntry.counted)).map Prod.snd).sum * 100000000 + V) ≤ 2 ^ 51

/-- What the balance report says then. -/
theorem FilledEntries.said (hord : FairOrder env.ord) {l : Ledger F64} (h : FilledEntries env accs es ls l.entries)
    (h8 : EightDecimals (es.map BEntry.counted)) (hseen : ∀ k, SeenBefore k (es.map BEntry.counted))
    (hsmall : ∀ k, Small k (es.map BEntry.counted)) (hroom : RoomFor es ls) {out : List Str}
    (hout : l.displayBalance env = .ok out) (k : Str) (s : Option Str) :
    |sumIn s (reportedFor out k) - (writtenSum k s (es.map BEntry.plain) + asideSum k s es +
      ((linesIn k s ls).map fun m => m.value.1).sum)| ≤ (linesIn k s ls).length / 100000000 := by
  have hsound : ∀ e ∈ es.map BEntry.counted, e.Sound := by
    intro e he
    obtain ⟨b, hb, rfl⟩ := List.mem_map.1 he
    exact (h.ok b hb).counted_sound
  have shown : ∀ (k : Str) (ms : List (Amount F64)) (ps : List (EnvPosting F64)), List.Forall₂ LineOf ps ls →
      ms.Perm ((es.map BEntry.counted).flatMap (PEntry.readMoves k) ++ (ps.filter fun q => q.account = k).map EnvPosting.amount) →
      ∀ s, (round8 (sumF (partsOf s ms))).finite = true ∧ ∃ (neg : Bool) (d n : Nat) (v : Rat),
        IsNumeral (Mag.fmt (round8 (sumF (partsOf s ms)))) neg d n ∧ Mag.parse (Mag.fmt (round8 (sumF (partsOf s ms)))) = some v ∧
        |v - (writtenSum k s (es.map BEntry.plain) + asideSum k s es + ((linesIn k s ls).map fun m => m.value.1).sum)| ≤
          (linesIn k s ls).length / 100000000 := by
    intro k ms ps h2 hp s
    obtain ⟨p1, p2, p3⟩ := parts_near s _ _ (all_near hsound h8 k (hsmall k))
    obtain ⟨V, v1, v2, v3⟩ := hroom k s
    have hparts : (partsOf s ms).Perm (partsOf s ((es.map BEntry.counted).flatMap (PEntry.readMoves k)) ++
        partsOf s ((ps.filter fun q => q.account = k).map EnvPosting.amount)) := by
      have := (hp.filter fun a => decide (a.sym = s)).map Amount.mag
      rwa [List.filter_append, List.map_append] at this
    have hwh : ∀ m ∈ linesIn k s ls, m.value.1 * 100000000 = u8 m.value.1 := fun m hm => h.whole m (List.mem_of_mem_filter hm)
    have esum : ((linesIn k s ls).map fun m => m.value.1).sum * 100000000 =
        (((linesIn k s ls).map fun m => u8 m.value.1).sum : Int) := by
      generalize linesIn k s ls = L at hwh
      induction L with
      | nil => simp
      | cons m L ih =>
        simp only [List.map_cons, List.sum_cons]
        rw [add_mul, ih fun x hx => hwh x (by simp [hx]), hwh m (by simp)]
        push_cast; rfl
    have eabs : (((linesIn k s ls).map fun m => u8 m.value.1).map fun d : Int => |(d : Rat)|).sum =
        ((linesIn k s ls).map fun m => |m.value.1|).sum * 100000000 := by
      generalize linesIn k s ls = L at hwh
      induction L with
      | nil => simp
      | cons m L ih =>
        simp only [List.map_cons, List.sum_cons]
        rw [add_mul, ih fun x hx => hwh x (by simp [hx]), ← hwh m (by simp), abs_mul,
          abs_of_pos (show (0 : Rat) < 100000000 by norm_num)]
    have ets : (((((es.map BEntry.counted).flatMap (PEntry.weighed k)).filter fun w => w.1.2 = s).map
        fun w => (u8 w.1.1, (u8 w.2).natAbs)).map Prod.snd).sum =
        (((((es.map BEntry.counted).flatMap (PEntry.weighed k)).filter fun w => w.1.2 = s).map fun w => (u8 w.2).natAbs)).sum := by
      rw [List.map_map]; rfl
    have ets1 : (((((es.map BEntry.counted).flatMap (PEntry.weighed k)).filter fun w => w.1.2 = s).map
        fun w => (u8 w.1.1, (u8 w.2).natAbs)).map Prod.fst).sum =
        (((((es.map BEntry.counted).flatMap (PEntry.weighed k)).filter fun w => w.1.2 = s).map fun w => u8 w.1.1)).sum := by
      rw [List.map_map]; rfl
    obtain ⟨r1, neg, d, n, z, q1, q2, q3⟩ := mixed_shown _ _ _ _ _ V p1 (fill_parts h2 h.whole k s) hparts (by rw [eabs]; exact v1)
      (by rw [List.length_map]; exact v2) (by
        rw [ets, List.length_map, List.length_map, ← p3]
        exact v3)
    refine ⟨r1, neg, d, n, _, q1, q2, ?_⟩
    rw [ets1, List.length_map] at q3
    rw [← counted_sum h.ok, writtenSum_weighed]
    unfold weighedIn
    have e : (z : Rat) / 100000000 - ((((((es.map BEntry.counted).flatMap (PEntry.weighed k)).filter fun w => w.1.2 = s).map
        fun w => w.1.1)).sum + ((linesIn k s ls).map fun m => m.value.1).sum) =
        ((z - ((((((es.map BEntry.counted).flatMap (PEntry.weighed k)).filter fun w => w.1.2 = s).map fun w => u8 w.1.1)).sum +
          ((linesIn k s ls).map fun m => u8 m.value.1).sum) : Int) : Rat) / 100000000 := by
      push_cast
      rw [← p2, ← esum]
      ring
    rw [e, abs_div, abs_of_pos (show (0 : Rat) < 100000000 by norm_num)]
    refine div_le_div_of_nonneg_right ?_ (by norm_num)
    rw [← Int.cast_abs]
    exact_mod_cast q3
  obtain ⟨r1, r2, r3⟩ := report_reads_back env hord l out hout h.accounts h.symbols (by
    intro k pool hk a ha
    obtain ⟨ms, ps, c1, c2, c3, _⟩ := h.counted (hseen k)
    have hin : ∃ y ∈ l.entries, ∃ p ∈ y.postings, p.account = k := by
      have := countAll_some_iff k l.entries none
      rw [hk] at this
      simpa using this
    have := c3 hin
    rw [hk] at this
    cases this
    refine fmtOk_f64 ?_
    rw [pool_mag ms a ha]
    exact (shown k ms ps c1 c2 a.sym).1)
  obtain ⟨ms, ps, c1, c2, c3, c4⟩ := h.counted (hseen k)
  have hsh := shown k ms ps c1 c2
  choose hfin neg d n v v1 v2 v3 using hsh
  have hzero : ∀ s, partsOf s ms = [] → v s = 0 := by
    intro s hs
    have := v2 s
    rw [hs] at this
    have e : (Mag.parse (Mag.fmt (round8 (sumF []))) : Option Rat) = some 0 := by decide +kernel
    rw [e] at this
    exact (Option.some.inj this).symm
  have hval : sumIn s (reportedFor out k) = v s := by
    rcases reported_cases r1 k with ⟨n1, n2⟩ | ⟨ts, n1, n2⟩
    · rw [n2, hzero s]
      · rfl
      · rw [c4 fun hc => n1 ((r2 k).2 hc)]; rfl
    · rw [n2]
      obtain ⟨pool, h5, h6⟩ := r3 k ts n1
      have hq : ∀ b ∈ pool, ∀ s, b.sym = some s → ValidSymbol '.' s :=
        (countAll_syms (fun o => ∀ s, o = some s → ValidSymbol '.' s) (by simp) k l.entries h.symbols none (by simp) pool h5).1
      rw [c3 ((r2 k).1 (List.mem_map.2 ⟨_, n1, rfl⟩))] at h5
      cases h5
      have hsyms := pool_syms ms
      rw [sum_reported (v := v) hsyms.1 (s := s) (ts := ts)]
      · split
        · rfl
        · rename_i hno
          rw [hsyms.2 s] at hno
          refine (hzero s ?_).symm
          unfold partsOf
          rw [List.filter_eq_nil_iff.2]
          · rfl
          · intro a ha hc
            exact hno (List.mem_map.2 ⟨a, ha, of_decide_eq_true hc⟩)
      · rw [List.forall₂_map_right_iff]
        refine forall₂_strengthen h6 ?_
        intro t a ha ⟨ht, _⟩
        rw [ht]
        refine Amount.parse_display_as (neg := neg a.sym) (d := d a.sym) (k := n a.sym) ?_ ?_ (hq a ha)
        · rw [pool_mag ms a ha]; exact v1 a.sym
        · rw [pool_mag ms a ha]; exact v2 a.sym
  rw [hval]
  exact v3 s

end

theorem lines_whole {today : Date} {es : List BEntry} {served : List DeclAccount} {mss : List (List MLine)}
    (h : List.Forall₂ (AccountFillsF today es) served mss) : ∀ m ∈ mss.flatten, m.value.1 * 100000000 = u8 m.value.1 := by
  intro m hm
  obtain ⟨ms, hms, hm⟩ := List.mem_flatten.1 hm
  obtain ⟨p, _, fs, os, _, h2, rfl⟩ := forall₂_mem_right h hms
  obtain ⟨o, ho, hom⟩ := List.mem_filterMap.1 hm
  rw [id] at hom
  subst hom
  obtain ⟨xf, _, _, t, u, r, rfl, _, _, ⟨i, hi⟩, _⟩ := forall₂_mem_right h2 ho
  have : (moveLine p.1 xf.1 r t).value.1 * 100000000 = (i : Rat) := by
    show r * 100000000 = i
    rw [hi]; ring
  rw [u8_of this]
  exact this

theorem room_for {env : Env} {accs : List DeclAccount} {es : List BEntry} (hes : ∀ b ∈ es, b.Ok env (accs.map Prod.fst))
    (hs : SmallBooks accs es) (hd : Decided accs es) {today : Date} {served : List DeclAccount} {mss : List (List MLine)}
    (h1 : served.Perm accs) (h2 : List.Forall₂ (AccountFillsF today es) served mss) (hroom : RoomToFill accs es) :
    RoomFor es mss.flatten := by
  intro k s
  obtain ⟨g1, g2⟩ := accounts_room h2 (fun p hp x hx left f hf => fillBy_le hes hs hd (h1.mem_iff.1 hp) hx hf) k s
  have hperm : (envelopesIn served k s).Perm (envelopesIn accs k s) := (h1.filter _).flatMap_right _
  rw [hperm.length_eq] at g1
  rw [(hperm.map _).sum_eq] at g2
  have hr := hroom k s
  have hW : 0 ≤ ((weighedIn k s (es.map BEntry.counted)).map Prod.snd).sum := by
    refine List.sum_nonneg fun w hw => ?_
    obtain ⟨v, hv, rfl⟩ := List.mem_map.1 hw
    obtain ⟨e, _, hv⟩ := List.mem_flatMap.1 (List.mem_of_mem_filter hv)
    exact weight_nonneg k e v hv
  have hE : 2 * ((envelopesIn accs k s).length : Rat) ≤
      ((envelopesIn accs k s).map fun x => fillWeight k es x + 1 / 100000000).sum * 100000000 := by
    generalize envelopesIn accs k s = L
    induction L with
    | nil => simp
    | cons x L ih =>
      have := fillWeight_one k es x
      rw [List.map_cons, List.sum_cons, List.length_cons]
      push_cast
      linarith
  have g1 : ((linesIn k s mss.flatten).length : Rat) ≤ (envelopesIn accs k s).length := by exact_mod_cast g1
  refine ⟨((envelopesIn accs k s).map fun x => fillWeight k es x + 1 / 100000000).sum * 100000000,
    mul_le_mul_of_nonneg_right g2 (by norm_num), by linarith, ?_⟩
  refine le_trans ?_ hr
  rw [← add_mul, ← mul_assoc]
  have : (0 : Rat) ≤ (envelopesIn accs k s).length := Nat.cast_nonneg _
  exact mul_le_mul_of_nonneg_right (mul_le_mul_of_nonneg_right (by linarith) (by linarith)) (by norm_num)

theorem aside_lines (added : List BEntry) (k : Str) (s : Option Str) :
    asideSum k s added = ((linesIn k s (added.flatMap BEntry.moves)).map fun m => m.value.1).sum := by
  have e : added.flatMap (BEntry.aside k) =
      ((added.flatMap BEntry.moves).filter fun m => decide (m.account = k)).map MLine.value := by
    induction added with
    | nil => rfl
    | cons b added ih =>
      rw [List.flatMap_cons, ih, List.flatMap_cons, List.filter_append, List.map_append]
      rfl
  unfold asideSum linesIn
  rw [e]
  generalize added.flatMap BEntry.moves = ms
  induction ms with
  | nil => rfl
  | cons m ms ih =>
    by_cases e1 : m.account = k
    · rw [List.filter_cons_of_pos (a := m) (by simpa using e1), List.map_cons, List.map_cons, List.sum_cons, ih]
      by_cases e2 : m.value.2 = s
      · rw [if_pos e2, List.filter_cons_of_pos (a := m) (by simpa using ⟨e1, e2⟩), List.map_cons, List.sum_cons]
      · rw [if_neg e2, List.filter_cons_of_neg (a := m) (by simp [e2]), zero_add]
    · rw [List.filter_cons_of_neg (a := m) (by simpa using e1), List.filter_cons_of_neg (a := m) (by simp [e1]), ih]

/-! ### C145 -/

/-- C145. With doubles, as the program has them: a command `balance` that fills the envelopes says of each account and
currency what the same command with `--no-move` says right afterwards, up to a hundred-millionth for each line that has been
added for this account and currency. Full statement: it says the same. Missing: the last digits, where lines have been added
(they are written with eight decimals, but the report is made with more): see `C145_the_report_differs`. -/
theorem C145_nearly_the_same_partial (env : Env) (hord : FairOrder env.ord) (o : Outside) (w : World)
    (accs : List DeclAccount) (es : List BEntry) (text path day : Str) (h : EnvelopeJournal env accs es text)
    (hf : EnvelopesFit env.today accs es) (hr : w.read path = some text) (hfuel : o.fuel ≠ 0)
    (hp : path.head? = some '/' ∨ '/' ∉ path) (hw : w.canAppend (resolve w.cwd path) = true)
    (hm : (⟨env.today, day, [], []⟩ : Morning).Ok env accs)
    (hcur : ∀ p ∈ accs, ∀ x ∈ p.2, ∀ y ∈ p.2, x.1.name = y.1.name → x.target.sym = y.target.sym)
    (hs : SmallJournal accs es) (h8 : EightDecimals (es.map BEntry.counted))
    (hseen : ∀ k, SeenBefore k (es.map BEntry.counted)) (hsmall : RoomToFill accs es)
    (c cb : Str) (args argsb : List Str) (fs fsb : List Flag) (hc : c.head? = some 'b') (hcb : cb.head? = some 'b')
    (ha : Spelled fs args) (hab : Spelled fsb argsb) (hj : journalFor o fs = some path) (hjb : journalFor o fsb = some path)
    (hn : Flag.noMove ∉ fs) (hnb : Flag.noMove ∈ fsb) :
    ∃ added filled, FilledOnF accs ⟨env.today, day, [], []⟩ es (es ++ added) filled ∧
      ∃ w' said, mainProgram F64 env o (c :: args) w = (w', .ok said) ∧
        w'.file (resolve w.cwd path) = some (text ++ filled) ∧
        ∃ w2 later, mainProgram F64 env o (cb :: argsb) { w' with cwd := w.cwd } = (w2, .ok later) ∧ w2.file = w'.file ∧
          ∀ k s, |sumIn s (reportedFor said k) - sumIn s (reportedFor later k)| ≤
            (linesIn k s (added.flatMap BEntry.moves)).length / 100000000 := by
  obtain ⟨w1, l, served, mss, _, k1, k2, k3, k4, k5, rfl, k6, k7, k8, k9, k10, k11, k12, _, _, xs, ps, m1, m2, m3, m4⟩ :=
    filled_ledger env hord o w accs es text path day h hf hr hfuel hp hw hm.date.1 hm.notZero hcur hs.books hs.sides hs.fills
  have hname : endsInName path = true := by
    unfold World.read at hr
    split at hr
    · assumption
    · cases hr
  have hfile : w.file (resolve w.cwd path) = some text := by
    unfold World.read at hr
    rwa [if_pos hname] at hr
  obtain ⟨after, filled, n1, n2, n3, n4⟩ := filled_after h hm hf hcur k4 k5
  have hlines : (fillOf env.today day mss.flatten).lines = [] ↔ mss.flatten = [] := by
    show mss.flatten.map BLine.move = [] ↔ _
    exact List.map_eq_nil_iff
  have hdisk : w1.file (resolve w.cwd path) = some (text ++ filled) := by
    rcases n4 with ⟨hem, rfl, _⟩ | ⟨hem, rfl, _⟩
    · rw [k6 (hlines.2 hem), List.append_nil]
      exact hfile
    · exact (k7 fun c => hem (hlines.1 c)).1
  have hadd : ∃ added, after = es ++ added ∧ ∀ k s, (linesIn k s (added.flatMap BEntry.moves)).map MLine.value =
      (linesIn k s mss.flatten).map MLine.value := by
    rcases n4 with ⟨hem, _, rfl⟩ | ⟨_, _, ms, hms, rfl⟩
    · exact ⟨[], by simp, fun k s => by rw [hem]; rfl⟩
    · refine ⟨_, rfl, fun k s => ?_⟩
      rw [List.flatMap_singleton, (refill_moves _ _ _).1]
      exact reread_values hms k s
  obtain ⟨added, rfl, e1⟩ := hadd
  obtain ⟨added', e2, a1, a2⟩ := filled_added n1
  obtain rfl := List.append_cancel_left e2
  have hsm := filled_small h.entries hs.books hs.sides.decided n1 hsmall
  have hfe : FilledEntries env accs es mss.flatten l.entries :=
    ⟨h.entries, fun p hp => (h.names p hp).1, h.envelopes, lines_whole k5, xs, ps, m1, m2, m3, m4⟩
  have hl := k1 fs hj hn
  obtain ⟨said, hsaid⟩ := displayBalance_total env l (ledgerFor_inv env o fs w w1 l hl)
  have hwas := fun k s => hfe.said hord h8 hseen (room_small hsmall)
    (room_for h.entries hs.books hs.sides.decided k4 k5 hsmall) hsaid k s
  obtain ⟨w2, later, l1, l2, l3⟩ := balance_said env hord o { w1 with cwd := w.cwd } accs (es ++ added) (text ++ filled) path n2
    n3 (by unfold World.read; rw [hname]; exact hdisk) hfuel cb argsb fsb hcb hab hjb hnb
    (added_decimals h8 a1 fun b hb l hl => (a2 b hb l hl).2.2) (fun k => added_seen (hseen k) a1) hsm
  refine ⟨added, filled, n1, w1, said, C79_report_printed env o c args w w1 said .balance fs hc ha l hl (.balance hsaid) (by simp)
    (by simp), hdisk, w2, later, l1, l2, fun k s => ?_⟩
  have hk := hwas k s
  have hlen : (linesIn k s (added.flatMap BEntry.moves)).length = (linesIn k s mss.flatten).length := by
    simpa using congrArg List.length (e1 k s)
  have hval : ((linesIn k s (added.flatMap BEntry.moves)).map fun m => m.value.1) =
      (linesIn k s mss.flatten).map fun m => m.value.1 := by
    have := congrArg (List.map Prod.fst) (e1 k s)
    simpa [List.map_map, Function.comp_def] using this
  rw [l3, List.map_append, writtenSum_append, added_plain a1, asideSum_append, aside_lines added, hlen, hval]
  rw [add_zero, ← add_assoc]
  exact hk

/-- C145. Of an account and a currency for which no line is added, the report says the same. -/
theorem C145_where_nothing_is_added_partial (env : Env) (hord : FairOrder env.ord) (o : Outside) (w : World)
    (accs : List DeclAccount) (es : List BEntry) (text path day : Str) (h : EnvelopeJournal env accs es text)
    (hf : EnvelopesFit env.today accs es) (hr : w.read path = some text) (hfuel : o.fuel ≠ 0)
    (hp : path.head? = some '/' ∨ '/' ∉ path) (hw : w.canAppend (resolve w.cwd path) = true)
    (hm : (⟨env.today, day, [], []⟩ : Morning).Ok env accs)
    (hcur : ∀ p ∈ accs, ∀ x ∈ p.2, ∀ y ∈ p.2, x.1.name = y.1.name → x.target.sym = y.target.sym)
    (hs : SmallJournal accs es) (h8 : EightDecimals (es.map BEntry.counted))
    (hseen : ∀ k, SeenBefore k (es.map BEntry.counted)) (hsmall : RoomToFill accs es)
    (c cb : Str) (args argsb : List Str) (fs fsb : List Flag) (hc : c.head? = some 'b') (hcb : cb.head? = some 'b')
    (ha : Spelled fs args) (hab : Spelled fsb argsb) (hj : journalFor o fs = some path) (hjb : journalFor o fsb = some path)
    (hn : Flag.noMove ∉ fs) (hnb : Flag.noMove ∈ fsb) :
    ∃ added filled, FilledOnF accs ⟨env.today, day, [], []⟩ es (es ++ added) filled ∧
      ∃ w' said, mainProgram F64 env o (c :: args) w = (w', .ok said) ∧
        w'.file (resolve w.cwd path) = some (text ++ filled) ∧
        ∃ w2 later, mainProgram F64 env o (cb :: argsb) { w' with cwd := w.cwd } = (w2, .ok later) ∧ w2.file = w'.file ∧
          (∀ k s, (∀ b ∈ added, ∀ m ∈ b.moves, m.account = k → m.value.2 ≠ s) →
            sumIn s (reportedFor said k) = sumIn s (reportedFor later k)) ∧
          ∀ k, (∀ p ∈ accs, p.1 = k → p.2 = []) → ∀ s, sumIn s (reportedFor said k) = sumIn s (reportedFor later k) := by
  obtain ⟨added, filled, n1, w', said, n2, n3, w2, later, n4, n5, n6⟩ := C145_nearly_the_same_partial env hord o w accs es text
    path day h hf hr hfuel hp hw hm hcur hs h8 hseen hsmall c cb args argsb fs fsb hc hcb ha hab hj hjb hn hnb
  have key : ∀ k s, (∀ b ∈ added, ∀ m ∈ b.moves, m.account = k → m.value.2 ≠ s) →
      sumIn s (reportedFor said k) = sumIn s (reportedFor later k) := by
    intro k s hno
    have := n6 k s
    have e : linesIn k s (added.flatMap BEntry.moves) = [] := by
      refine List.filter_eq_nil_iff.2 fun m hm => ?_
      obtain ⟨b, hb, hm⟩ := List.mem_flatMap.1 hm
      simpa using hno b hb m hm
    rw [e] at this
    simp only [List.length_nil, Nat.cast_zero, zero_div] at this
    exact sub_eq_zero.1 (abs_nonpos_iff.1 this)
  refine ⟨added, filled, n1, w', said, n2, n3, w2, later, n4, n5, key, fun k hk s => key k s fun b hb m hm e => ?_⟩
  obtain ⟨added', e2, _, a2⟩ := filled_added n1
  obtain rfl := List.append_cancel_left e2
  obtain ⟨⟨p, hp, h1, h2⟩, _⟩ := a2 b hb m hm
  exact absurd (hk p hp (by rw [← h2, e])) h1

/-! ### The negation, and a concrete case -/

/-- Three envelopes to which a third of a dollar is to be added. -/
def exThirdsText : Str := s%"account bank\n  expense a due every 18th\n    amount $1\n    for shop\n    funding conservative\n  expense b due every 18th\n    amount $1\n    for shop\n    funding conservative\n  expense c due every 18th\n    amount $1\n    for shop\n    funding conservative\naccount shop\naccount pay\n2024/06/01 * salary\n bank $100\n pay $-100\n"

/-- C145. A command that fills the envelopes can report something else than the journal it leaves: here the balance report
says that the bank has $ 101, and right afterwards, with `--no-move`, $ 100.99999999. -/
theorem C145_the_report_differs :
    ∃ said, (mainProgram F64 (stdEnv june15) exOutside [s%"balance", s%"-f", s%"j"]
      (disk [("j", String.ofList exThirdsText)])).2 = .ok said ∧
    ∃ later, (mainProgram F64 (stdEnv june15) exOutside [s%"balance", s%"-f", s%"j", s%"-n"]
      { (mainProgram F64 (stdEnv june15) exOutside [s%"balance", s%"-f", s%"j"]
          (disk [("j", String.ofList exThirdsText)])).1 with cwd := [s%"h"] }).2 = .ok later ∧
      reportedFor said s%"bank" = [s%"$ 101"] ∧ reportedFor later s%"bank" = [s%"$ 100.99999999"] := by decide +kernel

/-- C145. The envelope report, too: it says that $ 99 are available, and right afterwards $ 99.00000001. -/
theorem C145_the_envelope_report_differs :
    ∃ said, (mainProgram F64 (stdEnv june15) exOutside [s%"envelopes", s%"-f", s%"j"]
      (disk [("j", String.ofList exThirdsText)])).2 = .ok said ∧
    ∃ later, (mainProgram F64 (stdEnv june15) exOutside [s%"envelopes", s%"-f", s%"j", s%"-n"]
      { (mainProgram F64 (stdEnv june15) exOutside [s%"envelopes", s%"-f", s%"j"]
          (disk [("j", String.ofList exThirdsText)])).1 with cwd := [s%"h"] }).2 = .ok later ∧
      (readEnvelopes said).map (·.available) = [[s%"$ 99"]] ∧
      (readEnvelopes later).map (·.available) = [[s%"$ 99.00000001"]] := by decide +kernel

/-- The journal of C122 meets the conditions of the partial theorems. -/
example : ∃ added filled, FilledOnF exTripAccounts ⟨june15, s%"2024/06/15", [], []⟩ [exSalaryIn, exShopping, exSaving]
      ([exSalaryIn, exShopping, exSaving] ++ added) filled ∧
    ∃ w' said, mainProgram F64 (stdEnv june15) exOutside [s%"balance", s%"-f", s%"j"] exTripDisk = (w', .ok said) := by
  obtain ⟨h8, hseen, hsmall⟩ := exTrip_counted
  obtain ⟨added, filled, n1, w1, said, n2, _⟩ := C145_nearly_the_same_partial (stdEnv june15) (fun _ l => List.Perm.refl l) exOutside
    exTripDisk exTripAccounts _ exTripText s%"j" s%"2024/06/15" exTripText_ok exTrip_fits (by decide +kernel) (by decide)
    (Or.inr (by decide)) (by decide +kernel) (exTwoDays_ok ⟨june15, s%"2024/06/15", [], []⟩ (by simp [exTwoDays])) (by decide +kernel)
    ⟨small_books_of_all (by decide +kernel) (by decide +kernel) (by decide +kernel) (by decide +kernel),
      by unfold BothSides; decide +kernel, small_fills_of_all (by decide +kernel)⟩ h8 hseen hsmall s%"balance" s%"balance"
    [s%"-f", s%"j"] [s%"-f", s%"j", s%"-n"] [.file s%"j"] [.file s%"j", .noMove] rfl rfl (.cons (.fileShort _) .nil)
    (.cons (.fileShort _) (.cons .noMoveShort .nil)) rfl rfl (by simp) (by simp)
  exact ⟨added, filled, n1, w1, said, n2⟩

end Silverfox
