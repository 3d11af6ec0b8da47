import Verif.Props.RegisterPriced

/-
C131: the register ends with what the balance report says. C132: journals with the same sums have the same report.
-/

namespace Silverfox

set_option linter.unusedSectionVars false

/-! ### Specification -/

/-- Specification: what some printed amounts come to in a currency. -/
def worthIn (s : Option Str) (ts : List Str) : Rat :=
  (ts.map fun t => match (Amount.parse t '.' : Res (Amount Rat)) with
    | .ok a => if a.sym = s then a.mag else 0
    | .error _ => 0).sum

/-- Specification: what a balance report says about some accounts together, in a currency. -/
def saidOf (report : List (Str × List Str)) (P : Str → Prop) [DecidablePred P] (s : Option Str) : Rat :=
  (report.map fun p => if P p.1 then worthIn s p.2 else 0).sum

/-- Specification: lines that end with figures in two columns. -/
def EndWith (c : Cols) (lines : List Str) (figures : List (Str × Str)) : Prop :=
  List.Forall₂ (fun line g => ∃ front, line = front ++ figureText c g) lines figures

/-- Specification: the last total in a currency. -/
def lastTotal (s : Option Str) (figures : List (Str × Str)) : Option Rat :=
  (figures.filterMap fun g => match (Amount.parse g.2 '.' : Res (Amount Rat)) with
    | .ok a => if a.sym = s then some a.mag else none
    | .error _ => none).getLast?

/-! ### What a report says -/

/-- All lines of all entries. -/
def everyLine (r : QEntry → Rat × Option Str) (es : List QEntry) : List (Str × (Rat × Option Str)) :=
  es.flatMap fun e => e.lines.map fun l => (l.account, l.value.getD (r e))

theorem moves_everyLine (r : QEntry → Rat × Option Str) (k : Str) (es : List QEntry) :
    es.flatMap (QEntry.moves r k) = (everyLine r es).filterMap fun p => if p.1 = k then some p.2 else none := by
  unfold everyLine
  rw [List.filterMap_flatMap]
  refine List.flatMap_congr fun e _ => ?_
  rw [List.filterMap_map]
  rfl

theorem sum_filterMap_if {α : Type} (L : List α) (p : α → Prop) [DecidablePred p] (g : α → Rat × Option Str) (s : Option Str) :
    ((L.filterMap fun a => if p a then some (g a) else none).map fun v => if v.2 = s then v.1 else 0).sum =
      (L.map fun a => if p a then (if (g a).2 = s then (g a).1 else 0) else 0).sum := by
  induction L with
  | nil => rfl
  | cons a L ih =>
    by_cases h : p a
    · rw [List.filterMap_cons_some (by rw [if_pos h]), List.map_cons, List.sum_cons, ih, List.map_cons, List.sum_cons, if_pos h]
    · rw [List.filterMap_cons_none (by rw [if_neg h]), ih, List.map_cons, List.sum_cons, if_neg h, zero_add]

theorem pricedSum_everyLine (r : QEntry → Rat × Option Str) (k : Str) (s : Option Str) (es : List QEntry) :
    pricedSum r k s es = ((everyLine r es).map fun p => if p.1 = k then (if p.2.2 = s then p.2.1 else 0) else 0).sum := by
  unfold pricedSum
  rw [moves_everyLine, sum_filterMap_if]

theorem changes_everyLine (am : Option Str) (r : QEntry → Rat × Option Str) (s : Option Str) (es : List QEntry) :
    (es.map (QEntry.changeIn am r s)).sum =
      ((everyLine r es).map fun p => if InFocus am p.1 then (if p.2.2 = s then p.2.1 else 0) else 0).sum := by
  unfold everyLine
  induction es with
  | nil => rfl
  | cons e es ih =>
    rw [List.map_cons, List.sum_cons, ih, List.flatMap_cons, List.map_append, List.sum_append]
    congr 1
    unfold QEntry.changeIn QEntry.touches
    rw [List.map_map, List.map_filterMap]
    have := sum_filterMap_if e.lines (fun l => InFocus am l.account) (fun l => l.value.getD (r e)) s
    rw [List.map_filterMap] at this
    refine Eq.trans ?_ this
    congr 1
    refine List.filterMap_congr fun l _ => ?_
    split <;> rfl

/-- A sum over keys, of which one fits. -/
theorem sum_one_key (ks : List Str) (hn : ks.Nodup) (a : Str) (ha : a ∈ ks) (f : Str → Rat) :
    (ks.map fun k => if a = k then f k else 0).sum = f a := by
  induction ks with
  | nil => simp at ha
  | cons k ks ih =>
    rw [List.map_cons, List.sum_cons]
    rw [List.nodup_cons] at hn
    by_cases h : a = k
    · subst h
      have : (ks.map fun k => if a = k then f k else 0).sum = 0 := by
        refine List.sum_eq_zero fun x hx => ?_
        obtain ⟨j, hj, rfl⟩ := List.mem_map.1 hx
        exact if_neg fun (h : a = j) => hn.1 (h ▸ hj)
      rw [this, if_pos rfl, add_zero]
    · rw [if_neg h, zero_add]
      exact ih hn.2 (by simpa [h] using ha)

theorem sum_over_keys (ks : List Str) (hn : ks.Nodup) (P : Str → Prop) [DecidablePred P] (L : List (Str × Rat))
    (hL : ∀ p ∈ L, p.1 ∈ ks) :
    (ks.map fun k => if P k then (L.map fun p => if p.1 = k then p.2 else 0).sum else 0).sum =
      (L.map fun p => if P p.1 then p.2 else 0).sum := by
  induction L with
  | nil =>
    simp only [List.map_nil, List.sum_nil, ite_self]
    exact List.sum_eq_zero fun x hx => by obtain ⟨_, _, rfl⟩ := List.mem_map.1 hx; rfl
  | cons p L ih =>
    have h1 := sum_one_key ks hn p.1 (hL p (by simp)) fun k => if P k then p.2 else 0
    rw [List.map_cons, List.sum_cons, ← ih fun q hq => hL q (by simp [hq]), ← h1, ← List.sum_map_add]
    congr 1
    refine List.map_congr_left fun k _ => ?_
    rw [List.map_cons, List.sum_cons]
    by_cases hk : P k <;> by_cases hp : p.1 = k <;> simp [hk, hp]

/-- What is printed for an account comes to the sum, in every currency. -/
theorem worth_of_account {r : QEntry → Rat × Option Str} {es : List QEntry} {report : List (Str × List Str)}
    (h : ExactReport r es report) {k : Str} {ts : List Str} (hm : (k, ts) ∈ report) (s : Option Str) :
    worthIn s ts = pricedSum r k s es := by
  obtain ⟨cs, c1, c2, c3⟩ := h.amounts k ts hm
  have h0 : s ∉ cs → pricedSum r k s es = 0 := by
    intro hs
    unfold pricedSum
    refine List.sum_eq_zero fun x hx => ?_
    obtain ⟨v, hv, rfl⟩ := List.mem_map.1 hx
    obtain ⟨e, he, hv⟩ := List.mem_flatMap.1 hv
    exact if_neg fun hvs => hs ((c2 s).2 ⟨e, he, v, hv, hvs⟩)
  have key : ∀ (cs : List (Option Str)) (ts : List Str), cs.Nodup →
      List.Forall₂ (fun t s => Amount.parse t '.' = .ok (⟨pricedSum r k s es, s⟩ : Amount Rat)) ts cs →
      worthIn s ts = if s ∈ cs then pricedSum r k s es else 0 := by
    intro cs ts hn hF
    induction hF with
    | nil => rfl
    | @cons t c ts cs h1 _ ih =>
      rw [List.nodup_cons] at hn
      have ih := ih hn.2
      unfold worthIn at ih ⊢
      rw [List.map_cons, List.sum_cons, ih, h1]
      by_cases hc : c = s
      · subst hc; simp [hn.1]
      · have : ¬ s = c := fun h => hc h.symm
        simp [hc, this]
  rw [key cs ts c1 c3]
  split
  · rfl
  · rename_i hs; exact (h0 hs).symm

/-- What the report says about some accounts is what the lines for them come to. -/
theorem said_sum {r : QEntry → Rat × Option Str} {es : List QEntry} {report : List (Str × List Str)}
    (h : ExactReport r es report) (P : Str → Prop) [DecidablePred P] (s : Option Str) :
    saidOf report P s = ((everyLine r es).map fun p => if P p.1 then (if p.2.2 = s then p.2.1 else 0) else 0).sum := by
  have hn : (report.map Prod.fst).Nodup := by
    rw [List.nodup_iff_pairwise_ne, List.pairwise_map]
    refine h.sorted.imp fun hlt heq => ?_
    rw [heq, strLt_irrefl] at hlt; cases hlt
  have hL : ∀ p ∈ (everyLine r es).map fun p => (p.1, if p.2.2 = s then p.2.1 else 0), p.1 ∈ report.map Prod.fst := by
    intro p hp
    obtain ⟨q, hq, rfl⟩ := List.mem_map.1 hp
    obtain ⟨e, he, hq⟩ := List.mem_flatMap.1 hq
    obtain ⟨l, hl, rfl⟩ := List.mem_map.1 hq
    exact (h.accounts _).2 ⟨e, he, l, hl, rfl⟩
  have := sum_over_keys (report.map Prod.fst) hn P _ hL
  rw [List.map_map] at this
  refine Eq.trans ?_ (this.trans ?_)
  · unfold saidOf
    congr 1
    refine List.map_congr_left fun p hp => ?_
    obtain ⟨k, ts⟩ := p
    simp only [Function.comp]
    rw [worth_of_account h hp s, pricedSum_everyLine, List.map_map]
    rfl
  · rw [List.map_map]; rfl

/-! ### How a register ends -/

theorem lastTotal_append (s : Option Str) (a b : List (Str × Str)) :
    lastTotal s (a ++ b) = (lastTotal s b).or (lastTotal s a) := by
  unfold lastTotal
  rw [List.filterMap_append, List.getLast?_append]

theorem register_end {env : Env} {fmt : Str} {am : Option Str} {r : QEntry → Rat × Option Str} {c : Cols}
    {before es : List QEntry} {blocks : List (List Str)} (h : Rows am r (RowAs env fmt am r c) before es blocks) :
    ∃ figures, EndWith c blocks.flatten figures ∧ ∀ s,
      (lastTotal s figures = none ∧ (es.map (QEntry.changeIn am r s)).sum = 0) ∨
      lastTotal s figures = some ((before ++ es).map (QEntry.changeIn am r s)).sum := by
  induction h with
  | done => exact ⟨[], .nil, fun s => Or.inl ⟨rfl, rfl⟩⟩
  | @left_out before es e blocks h0 _ ih =>
    obtain ⟨figures, i1, i2⟩ := ih
    refine ⟨figures, i1, fun s => ?_⟩
    rcases i2 s with ⟨j1, j2⟩ | j
    · exact Or.inl ⟨j1, by rw [List.map_cons, List.sum_cons, h0 s, j2, add_zero]⟩
    · right; rw [j]; simp
  | @listed before es e block blocks hb _ ih =>
    obtain ⟨figures, i1, i2⟩ := ih
    obtain ⟨f, g, gs, _, _, _, _, _, _, _, _, h9, h10⟩ := hb
    refine ⟨(g :: gs) ++ figures, ?_, fun s => ?_⟩
    · rw [List.flatten_cons]
      refine List.rel_append ?_ i1
      rw [h10]
      refine .cons ⟨_, rfl⟩ ?_
      rw [List.forall₂_map_left_iff]
      refine List.forall₂_same.2 fun g _ => ⟨_, rfl⟩
    · rw [lastTotal_append]
      rcases i2 s with ⟨j1, j2⟩ | j
      · rw [j1, Option.none_or]
        -- the block of the entry
        have key : ∀ (ss : List (Option Str)) (gg : List (Str × Str)),
            List.Forall₂ (fun s (g : Str × Str) =>
              Amount.parse g.1 '.' = .ok (⟨e.changeIn am r s, s⟩ : Amount Rat) ∧
              Amount.parse g.2 '.' = .ok (⟨((before ++ [e]).map (QEntry.changeIn am r s)).sum, s⟩ : Amount Rat) ∧
              g.1.length ≤ c.amount ∧ g.2.length ≤ c.total) ss gg →
            (s ∉ ss → lastTotal s gg = none) ∧
            (s ∈ ss → lastTotal s gg = some ((before ++ [e]).map (QEntry.changeIn am r s)).sum) := by
          intro ss gg hF
          induction hF with
          | nil => exact ⟨fun _ => rfl, by simp⟩
          | @cons u g ss gg h1 _ ih =>
            have e1 : lastTotal s (g :: gg) = (lastTotal s gg).or
                (if u = s then some ((before ++ [e]).map (QEntry.changeIn am r u)).sum else none) := by
              rw [show g :: gg = [g] ++ gg from rfl, lastTotal_append]
              congr 1
              unfold lastTotal
              by_cases hu : u = s
              · rw [List.filterMap_cons_some (b := ((before ++ [e]).map (QEntry.changeIn am r u)).sum) (by
                  simp only [h1.2.1, hu, if_true]), if_pos hu]
                rfl
              · rw [List.filterMap_cons_none (by simp only [h1.2.1, hu, if_false]), if_neg hu]
                rfl
            rw [e1]
            constructor
            · intro hs
              have hs : s ≠ u ∧ s ∉ ss := by simpa using hs
              rw [ih.1 hs.2, if_neg fun h => hs.1 h.symm]; rfl
            · intro hs
              by_cases hin : s ∈ ss
              · rw [ih.2 hin]; rfl
              · have : u = s := by
                  rcases List.mem_cons.1 hs with h | h
                  · exact h.symm
                  · exact absurd h hin
                rw [ih.1 hin, if_pos this, this]; rfl
        obtain ⟨k1, k2⟩ := key _ _ h9
        by_cases hs : s ∈ firstSeen ((e.touches am r).map fun v => v.1.2)
        · right
          rw [k2 hs]
          simp only [List.map_append, List.sum_append, List.map_cons, List.map_nil, List.sum_cons, List.sum_nil, j2]
        · left
          refine ⟨k1 hs, ?_⟩
          rw [List.map_cons, List.sum_cons, j2, add_zero]
          unfold QEntry.changeIn
          refine List.sum_eq_zero fun x hx => ?_
          obtain ⟨v, hv, rfl⟩ := List.mem_map.1 hx
          refine if_neg fun hvs => hs ?_
          have := (firstSeen_aux ((e.touches am r).map fun v => v.1.2) [] List.nodup_nil).2 s
          unfold firstSeen
          exact this.2 (Or.inr (List.mem_map.2 ⟨v, hv, hvs⟩))
      · right
        rw [j, Option.some_or]
        simp

/-! ### C131 -/

/-- C131. The register ends with what the balance report says: on a journal that meets the conditions of C129 and C130, the
last total that `register` prints in a currency is exactly what `balance` prints in that currency for the accounts that begin
with "asset", together; and if the register has no total in it, that comes to nothing. -/
theorem C131_register_and_balance_agree (env : Env) (hord : FairOrder env.ord) (o : Outside) (w : World) (path : Str)
    (items all : List QItem) (n : Nat) (hroot : Holds w path items) (h : Spread (w.cdParent path) n items all)
    (hw : WellWritten env s%"%Y/%m/%d" [] all) (hfuel : n < o.fuel) (hfine : ∀ e ∈ QItem.entries all, e.Fine)
    (hseen : ∀ k, PricedBefore k (QItem.entries all)) (hsmall : ∀ k, LittleIn QEntry.booked k (QItem.entries all))
    (hsway : SwaysLittle none QEntry.booked (QItem.entries all))
    (hday : ∀ e ∈ QItem.entries all, ∃ d, env.fmtDate e.day (lastFormat all) = some d)
    (hterm : o.terminal = true) (cb cr : Str) (ab ar : List Str) (fb fr : List Flag)
    (hcb : cb.head? = some 'b') (hab : Spelled fb ab) (hjb : journalFor o fb = some path)
    (hcr : cr.head? = some 'r') (har : Spelled fr ar) (hjr : journalFor o fr = some path) :
    ∃ w1 w2 report register figures cols, mainProgram F64 env o (cb :: ab) w = (w1, .ok report) ∧
      mainProgram F64 env o (cr :: ar) w = (w2, .ok register) ∧ EndWith cols register figures ∧
      ∀ s, (lastTotal s figures).getD 0 = saidOf (readReport report) (fun k => s%"asset" <+: k) s := by
  obtain ⟨w1, report, b1, _, b3⟩ := C129_exact_rule env hord o w path items all n hroot h hw hfuel hfine hseen hsmall cb ab fb
    hcb hab hjb
  obtain ⟨w2, register, r1, _, r3⟩ := C130_exact_rule env hord o w path items all n hroot h hw hfuel hfine (fun _ _ _ => rfl)
    hsway hday hterm cr ar fr hcr har hjr
  obtain ⟨ds, cols, blocks, d1, d2, d3⟩ := r3
  obtain ⟨figures, f1, f2⟩ := register_end d3
  refine ⟨w1, w2, report, register, figures, cols, b1, r1, by rw [d2]; exact f1, fun s => ?_⟩
  have e0 : entriesWithin none none (QItem.entries all) = QItem.entries all := by
    classical
    unfold entriesWithin
    refine List.filter_eq_self.2 fun e _ => decide_eq_true ⟨by simp, by simp⟩
  rw [e0] at d1
  have e1 : saidOf (readReport report) (fun k => s%"asset" <+: k) s =
      ((QItem.entries all).map (QEntry.changeIn none QEntry.booked s)).sum := by
    rw [changes_everyLine]
    exact said_sum b3 (fun k => InFocus none k) s
  rw [e1, ← (d1.same.map _).sum_eq]
  rcases f2 s with ⟨j1, j2⟩ | j
  · rw [j1, j2]; rfl
  · rw [j]; rfl

/-! ### C132 -/

/-- C132. Journals with the same sums have the same report: whatever else differs (the number of entries, their days and
order, how they are spread over files, prices, blank lines), for every account and every currency the balance report of one
comes to what the report of the other comes to. -/
theorem C132_same_sums_same_report (env : Env) (hord : FairOrder env.ord) (o : Outside) (w w' : World) (path path' : Str)
    (items all items' all' : List QItem) (n n' : Nat)
    (hroot : Holds w path items) (h : Spread (w.cdParent path) n items all) (hw : WellWritten env s%"%Y/%m/%d" [] all)
    (hroot' : Holds w' path' items') (h' : Spread (w'.cdParent path') n' items' all') (hw' : WellWritten env s%"%Y/%m/%d" [] all')
    (hfuel : n < o.fuel) (hfuel' : n' < o.fuel)
    (hfine : ∀ e ∈ QItem.entries all, e.Fine) (hfine' : ∀ e ∈ QItem.entries all', e.Fine)
    (hseen : ∀ k, PricedBefore k (QItem.entries all)) (hseen' : ∀ k, PricedBefore k (QItem.entries all'))
    (hsmall : ∀ k, LittleIn QEntry.booked k (QItem.entries all)) (hsmall' : ∀ k, LittleIn QEntry.booked k (QItem.entries all'))
    (hsame : ∀ k s, pricedSum QEntry.booked k s (QItem.entries all) = pricedSum QEntry.booked k s (QItem.entries all'))
    (c c' : Str) (args args' : List Str) (fs fs' : List Flag)
    (hc : c.head? = some 'b') (ha : Spelled fs args) (hj : journalFor o fs = some path)
    (hc' : c'.head? = some 'b') (ha' : Spelled fs' args') (hj' : journalFor o fs' = some path') :
    ∃ w1 w2 out out', mainProgram F64 env o (c :: args) w = (w1, .ok out) ∧
      mainProgram F64 env o (c' :: args') w' = (w2, .ok out') ∧
      ∀ k s, saidOf (readReport out) (fun j => j = k) s = saidOf (readReport out') (fun j => j = k) s := by
  obtain ⟨w1, out, b1, _, b3⟩ := C129_exact_rule env hord o w path items all n hroot h hw hfuel hfine hseen hsmall c args fs hc ha hj
  obtain ⟨w2, out', r1, _, r3⟩ := C129_exact_rule env hord o w' path' items' all' n' hroot' h' hw' hfuel' hfine' hseen' hsmall'
    c' args' fs' hc' ha' hj'
  refine ⟨w1, w2, out, out', b1, r1, fun k s => ?_⟩
  rw [said_sum b3, said_sum r3, ← pricedSum_everyLine, ← pricedSum_everyLine]
  exact hsame k s

/-! ### Examples -/

theorem exFolio_little : (∀ k, PricedBefore k (QItem.entries (exFolioB ++ exFolioTail))) ∧
    ∀ r k, LittleIn r k (QItem.entries (exFolioB ++ exFolioTail)) := by
  constructor
  · have h1 : PricedBefore s%"assets:bank" (QItem.entries (exFolioB ++ exFolioTail)) := by unfold PricedBefore; decide +kernel
    have h3 : ∀ e ∈ QItem.entries (exFolioB ++ exFolioTail), ∀ l ∈ e.lines, l.value = none → l.account = s%"assets:bank" := by
      decide +kernel
    intro k e he ⟨l, hl, hk, hv⟩
    have := h3 e he l hl hv
    have h2 := h1 e he ⟨l, hl, this, hv⟩
    rw [← hk, this]; exact h2
  · intro r k
    apply little_of_all
    by_cases h1 : k = s%"assets:bank"
    · subst h1; decide +kernel
    · by_cases h2 : k = s%"fee"
      · subst h2; decide +kernel
      · by_cases h3 : k = s%"assets:shares"
        · subst h3; decide +kernel
        · have : ∀ e ∈ QItem.entries (exFolioB ++ exFolioTail), ∀ l ∈ e.lines,
              l.account = s%"assets:bank" ∨ l.account = s%"fee" ∨ l.account = s%"assets:shares" := by decide +kernel
          have e : ((QItem.entries (exFolioB ++ exFolioTail)).flatMap fun e => e.lines.filterMap fun l =>
              if l.account = k then some (e.weight l) else none) = [] := by
            rw [List.flatMap_eq_nil_iff]
            intro e he
            rw [List.filterMap_eq_nil_iff]
            intro l hl
            refine if_neg ?_
            rcases this e he l hl with h | h | h <;> rw [h] <;> exact Ne.symm ‹_›
          rw [e]; norm_num

/-- The journal of C130 meets the conditions. Its register ends with five shares and 81.5 (see there), and so says the report. -/
example : (∀ k, PricedBefore k (QItem.entries (exFolioB ++ exFolioTail))) ∧
    (∀ k, LittleIn QEntry.booked k (QItem.entries (exFolioB ++ exFolioTail))) ∧
    lastTotal none [(s%"100", s%"100"), (s%"5 XYZ", s%"5 XYZ"), (s%"-18.5", s%"81.5")] = some (163 / 2) ∧
    lastTotal (some s%"XYZ") [(s%"100", s%"100"), (s%"5 XYZ", s%"5 XYZ"), (s%"-18.5", s%"81.5")] = some 5 ∧
    ∃ out, (mainProgram F64 (stdEnv june15) exOutside [s%"balance", s%"-f", s%"j"] exFolio).2 = .ok out ∧
      readReport out = [(s%"assets:bank", [s%" 81.5"]), (s%"assets:shares", [s%" 5 XYZ"]), (s%"fee", [s%"-99"])] ∧
      saidOf (readReport out) (fun k => s%"asset" <+: k) none = 163 / 2 ∧
      saidOf (readReport out) (fun k => s%"asset" <+: k) (some s%"XYZ") = 5 :=
  ⟨exFolio_little.1, exFolio_little.2 _, by decide +kernel, by decide +kernel, by decide +kernel⟩

/-- The same balances, written as one entry. -/
def exClosed : World :=
  disk [("k", "account assets:bank\naccount assets:shares\naccount fee\n2025/01/01 * opening\n assets:bank 81.5\n assets:shares 5 XYZ @ 3.5\n fee -99\n")]

def exClosing : QEntry where
  date := s%"2025/01/01"
  mark := s%"*"
  title := s%"opening"
  day := ⟨2025, 1, 1, by decide⟩
  lines := [⟨⟨s%" ", s%"assets:bank", s%" ", s%"81.5", some (163 / 2, none)⟩, []⟩,
    ⟨⟨s%" ", s%"assets:shares", s%" ", s%"5 XYZ", some (5, some s%"XYZ")⟩, [⟨s%"@", s%"3.5", (7 / 2, none)⟩]⟩,
    ⟨⟨s%" ", s%"fee", s%" ", s%"-99", some (-99, none)⟩, []⟩]

def exClosedAll : List QItem := [.account s%"assets:bank", .account s%"assets:shares", .account s%"fee", .entry exClosing]

theorem exClosing_ok : exClosing.Ok (stdEnv june15) s%"%Y/%m/%d" [s%"fee", s%"assets:shares", s%"assets:bank"] := by
  obtain ⟨_, _, a3, a4, _, _⟩ := exAmounts
  have a1 : WrittenAmount s%"81.5" (163 / 2) none := ⟨s%"81.5", false, 815, 1,
    ⟨s%"81", s%"5", by decide, by decide, by decide, by decide, by decide, by decide⟩, by norm_num, Or.inl ⟨rfl, rfl⟩⟩
  have a2 : WrittenAmount s%"-99" (-99) none := ⟨s%"-99", true, 99, 0,
    ⟨s%"99", [], by decide, by decide, by decide, by decide, by decide, by decide⟩, by norm_num, Or.inl ⟨rfl, rfl⟩⟩
  refine ⟨by decide +kernel, by decide, ⟨s%"opening", none, Or.inl ⟨by decide, by decide, rfl⟩⟩, by decide +kernel, ?_, by decide, ?_⟩
  · intro l hl
    simp only [exClosing, List.mem_cons, List.not_mem_nil, or_false] at hl
    rcases hl with rfl | rfl | rfl
    · refine exQLine _ _ (by decide) (by decide) (by decide) (by decide) (by decide +kernel) (by simp) ?_ (by decide) (by decide) (by simp)
      intro q s h; cases h; exact ⟨by decide, by decide +kernel, a1⟩
    · refine exQLine _ _ (by decide) (by decide) (by decide) (by decide) (by decide +kernel) (by simp) ?_ (by decide) (by decide) ?_
      · intro q s h; cases h; exact ⟨by decide, by decide +kernel, a3⟩
      · intro c hc
        simp only [List.mem_cons, List.not_mem_nil, or_false] at hc
        subst hc; exact ⟨by decide +kernel, a4⟩
    · refine exQLine _ _ (by decide) (by decide) (by decide) (by decide) (by decide +kernel) (by simp) ?_ (by decide) (by decide) (by simp)
      intro q s h; cases h; exact ⟨by decide, by decide +kernel, a2⟩
  · rintro ⟨l, hl, hv⟩
    simp only [exClosing, List.mem_cons, List.not_mem_nil, or_false] at hl
    rcases hl with rfl | rfl | rfl <;> cases hv

theorem exFolioBuy_booked : exFolioBuy.booked = (-(37 / 2), none) := by
  unfold QEntry.booked
  rw [if_neg]
  · have : exFolioBuy.lines.filterMap QLine.home = [35 / 2, 1] := by decide +kernel
    rw [this]; norm_num
  · rintro ⟨s, hs⟩
    have h1 := hs (5, some s%"XYZ") (by decide)
    have h2 := hs (1, none) (by decide)
    rw [← h1] at h2; cases h2

/-- Closing the books: the journal of C130 in two files, and one entry with its balances, meet the conditions. -/
example : Holds exClosed s%"k" exClosedAll ∧ Spread (exClosed.cdParent s%"k") 0 exClosedAll exClosedAll ∧
    WellWritten (stdEnv june15) s%"%Y/%m/%d" [] exClosedAll ∧ (∀ e ∈ QItem.entries exClosedAll, e.Fine) ∧
    (∀ k, PricedBefore k (QItem.entries exClosedAll)) ∧ (∀ k, LittleIn QEntry.booked k (QItem.entries exClosedAll)) ∧
    (∀ k s, pricedSum QEntry.booked k s (QItem.entries (exFolioB ++ exFolioTail)) =
      pricedSum QEntry.booked k s (QItem.entries exClosedAll)) ∧
    ∃ out, (mainProgram F64 (stdEnv june15) exOutside [s%"balance", s%"-f", s%"k"] exClosed).2 = .ok out ∧
      readReport out = [(s%"assets:bank", [s%" 81.5"]), (s%"assets:shares", [s%" 5 XYZ"]), (s%"fee", [s%"-99"])] := by
  have hmem : ∀ e ∈ QItem.entries exClosedAll, e = exClosing := by
    intro e he
    change e ∈ [exClosing] at he
    simpa using he
  have hno : ¬ ∃ l ∈ exClosing.lines, l.value = none := by decide +kernel
  refine ⟨⟨_, rfl, by decide +kernel⟩, .own (by simp) (.own (by simp) (.own (by simp) (.own (by simp) .nil))),
    ⟨by decide +kernel, by decide +kernel, by decide +kernel, exClosing_ok, trivial⟩, ?_, ?_, ?_, ?_, by decide +kernel⟩
  · intro e he
    rw [hmem e he]
    refine ⟨?_, fun h => absurd h hno, fun h => absurd h hno, fun h => absurd h hno⟩
    intro v hv
    change v ∈ [((163 / 2 : Rat), (none : Option Str)), (5, some s%"XYZ"), (-99, none)] at hv
    simp only [List.mem_cons, List.not_mem_nil, or_false] at hv
    rcases hv with rfl | rfl | rfl
    · exact ⟨8150000000, by norm_num⟩
    · exact ⟨500000000, by norm_num⟩
    · exact ⟨-9900000000, by norm_num⟩
  · intro k e he ⟨l, hl, _, hv⟩
    rw [hmem e he] at hl
    exact absurd ⟨l, hl, hv⟩ hno
  · intro k
    apply little_of_all
    by_cases h1 : k = s%"assets:bank"
    · subst h1; decide +kernel
    · by_cases h2 : k = s%"fee"
      · subst h2; decide +kernel
      · by_cases h3 : k = s%"assets:shares"
        · subst h3; decide +kernel
        · have : ∀ e ∈ QItem.entries exClosedAll, ∀ l ∈ e.lines,
              l.account = s%"assets:bank" ∨ l.account = s%"fee" ∨ l.account = s%"assets:shares" := by decide +kernel
          have e : ((QItem.entries exClosedAll).flatMap fun e => e.lines.filterMap fun l =>
              if l.account = k then some (e.weight l) else none) = [] := by
            rw [List.flatMap_eq_nil_iff]
            intro e he
            rw [List.filterMap_eq_nil_iff]
            intro l hl
            refine if_neg ?_
            rcases this e he l hl with h | h | h <;> rw [h] <;> exact Ne.symm ‹_›
          rw [e]; norm_num
  · intro k s
    rw [pricedSum_everyLine, pricedSum_everyLine]
    have e1 : everyLine QEntry.booked (QItem.entries (exFolioB ++ exFolioTail)) =
        [(s%"assets:shares", (5, some s%"XYZ")), (s%"fee", (1, none)), (s%"assets:bank", exFolioBuy.booked),
          (s%"assets:bank", (100, none)), (s%"fee", (-100, none))] := rfl
    have e2 : everyLine QEntry.booked (QItem.entries exClosedAll) =
        [(s%"assets:bank", (163 / 2, none)), (s%"assets:shares", (5, some s%"XYZ")), (s%"fee", (-99, none))] := rfl
    rw [e1, e2, exFolioBuy_booked]
    simp only [List.map_cons, List.map_nil, List.sum_cons, List.sum_nil]
    by_cases h1 : s%"assets:bank" = k <;> by_cases h2 : s%"assets:shares" = k <;> by_cases h3 : s%"fee" = k <;>
      by_cases h4 : (none : Option Str) = s <;> by_cases h5 : some s%"XYZ" = s <;> simp only [h1, h2, h3, h4, h5, if_true, if_false] <;>
        norm_num

end Silverfox
