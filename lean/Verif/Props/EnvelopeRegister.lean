import Verif.Props.EnvelopeAgree
import Verif.Props.Agree

/-
C144: on journals with envelopes too, the register ends with what the balance report says.
-/

namespace Silverfox

set_option linter.unusedSectionVars false

/-! ### All lines -/

/-- What all lines bring, with their accounts. -/
def pLines (es : List PEntry) : List (Str × (Rat × Option Str)) :=
  es.flatMap fun e => e.lines.filterMap fun l => (e.worth l).map fun v => (l.account, v)

theorem moves_pLines (k : Str) (es : List PEntry) :
    es.flatMap (PEntry.moves k) = (pLines es).filterMap fun p => if p.1 = k then some p.2 else none := by
  unfold pLines
  rw [List.filterMap_flatMap]
  refine List.flatMap_congr fun e _ => ?_
  unfold PEntry.moves
  rw [List.filterMap_filterMap]
  refine List.filterMap_congr fun l _ => ?_
  cases e.worth l <;> by_cases h : l.account = k <;> simp [h]

theorem assets_pLines (es : List PEntry) :
    es.flatMap PEntry.assets = (pLines es).filterMap fun p => if s%"asset" <+: p.1 then some p.2 else none := by
  unfold pLines
  rw [List.filterMap_flatMap]
  refine List.flatMap_congr fun e _ => ?_
  unfold PEntry.assets
  rw [List.filterMap_filterMap]
  refine List.filterMap_congr fun l _ => ?_
  cases e.worth l <;> by_cases h : s%"asset" <+: l.account <;> simp [h]

theorem shift_sum (s : Option Str) (es : List PEntry) :
    (es.map (PEntry.shift s)).sum = ((pLines es).map fun p => if s%"asset" <+: p.1 then (if p.2.2 = s then p.2.1 else 0) else 0).sum := by
  rw [← sum_filterMap_if (pLines es) (fun p => s%"asset" <+: p.1) Prod.snd s, ← assets_pLines]
  induction es with
  | nil => rfl
  | cons e es ih =>
    rw [List.map_cons, List.sum_cons, ih, List.flatMap_cons, List.map_append, List.sum_append]
    rfl

theorem writtenSum_pLines (k : Str) (s : Option Str) (es : List PEntry) :
    writtenSum k s es = ((pLines es).map fun p => if p.1 = k then (if p.2.2 = s then p.2.1 else 0) else 0).sum := by
  unfold writtenSum
  rw [moves_pLines, sum_filterMap_if (pLines es) (fun p => p.1 = k) Prod.snd s]

/-- What is said of an account in a report in order. -/
theorem reported_mem {out : List Str} (h : (readReport out).Pairwise (fun a b => strLt a.1 b.1 = true)) {k : Str} {ts : List Str}
    (hm : (k, ts) ∈ readReport out) : reportedFor out k = ts := by
  unfold reportedFor
  generalize readReport out = rs at h hm
  induction rs with
  | nil => cases hm
  | cons r rs ih =>
    rw [List.pairwise_cons] at h
    rcases List.mem_cons.1 hm with rfl | hm
    · rw [List.filter_cons_of_pos (by simp), List.filter_eq_nil_iff.2 ?_]
      · simp
      · intro r hr e
        have := h.1 r hr
        rw [of_decide_eq_true e, strLt_irrefl] at this
        cases this
    · rw [List.filter_cons_of_neg, ih h.2 hm]
      intro e
      have := h.1 _ hm
      rw [of_decide_eq_true e, strLt_irrefl] at this
      cases this

/-! ### How a register ends -/

theorem listing_end {env : Env} {c : Cols} {before es : List PEntry} {blocks : List (List Str)}
    (h : Listing (ListedAs env c) before es blocks) :
    ∃ figures, EndWith c blocks.flatten figures ∧ ∀ s,
      (lastTotal s figures = none ∧ (es.map (PEntry.shift s)).sum = 0) ∨
      lastTotal s figures = some ((before ++ es).map (PEntry.shift s)).sum := by
  induction h with
  | done => exact ⟨[], .nil, fun s => Or.inl ⟨rfl, rfl⟩⟩
  | @left_out before es e blocks h0 _ ih =>
    obtain ⟨figures, i1, i2⟩ := ih
    refine ⟨figures, i1, fun s => ?_⟩
    rcases i2 s with ⟨j1, j2⟩ | j
    · exact Or.inl ⟨j1, by rw [List.map_cons, List.sum_cons, h0 s, j2, add_zero]⟩
    · right; rw [j]; simp
  | @listed before es e block blocks hb _ ih =>
    obtain ⟨figures, i1, i2⟩ := ih
    obtain ⟨f, g, gs, _, _, _, _, _, _, _, h9, h10⟩ := hb
    refine ⟨(g :: gs) ++ figures, ?_, fun s => ?_⟩
    · rw [List.flatten_cons]
      refine List.rel_append ?_ i1
      rw [h10]
      refine .cons ⟨_, rfl⟩ ?_
      rw [List.forall₂_map_left_iff]
      refine List.forall₂_same.2 fun g _ => ⟨_, rfl⟩
    · rw [lastTotal_append]
      rcases i2 s with ⟨j1, j2⟩ | j
      · rw [j1, Option.none_or]
        have key : ∀ (ss : List (Option Str)) (gg : List (Str × Str)),
            List.Forall₂ (fun s (g : Str × Str) =>
              Amount.parse g.1 '.' = .ok (⟨e.shift s, s⟩ : Amount Rat) ∧
              Amount.parse g.2 '.' = .ok (⟨((before ++ [e]).map (PEntry.shift s)).sum, s⟩ : Amount Rat) ∧
              g.1.length ≤ c.amount ∧ g.2.length ≤ c.total) ss gg →
            (s ∉ ss → lastTotal s gg = none) ∧
            (s ∈ ss → lastTotal s gg = some ((before ++ [e]).map (PEntry.shift s)).sum) := by
          intro ss gg hF
          induction hF with
          | nil => exact ⟨fun _ => rfl, by simp⟩
          | @cons u g ss gg h1 _ ih =>
            have e1 : lastTotal s (g :: gg) = (lastTotal s gg).or
                (if u = s then some ((before ++ [e]).map (PEntry.shift u)).sum else none) := by
              rw [show g :: gg = [g] ++ gg from rfl, lastTotal_append]
              congr 1
              unfold lastTotal
              by_cases hu : u = s
              · rw [List.filterMap_cons_some (b := ((before ++ [e]).map (PEntry.shift u)).sum) (by
                  simp only [h1.2.1, hu, if_true]), if_pos hu]
                rfl
              · rw [List.filterMap_cons_none (by simp only [h1.2.1, hu, if_false]), if_neg hu]
                rfl
            rw [e1]
            constructor
            · intro hs
              have hs : s ≠ u ∧ s ∉ ss := by simpa using hs
              rw [ih.1 hs.2, if_neg fun h => hs.1 h.symm]; rfl
            · intro hs
              by_cases hin : s ∈ ss
              · rw [ih.2 hin]; rfl
              · have : u = s := by
                  rcases List.mem_cons.1 hs with h | h
                  · exact h.symm
                  · exact absurd h hin
                rw [ih.1 hin, if_pos this, this]; rfl
        obtain ⟨k1, k2⟩ := key _ _ h9
        by_cases hs : s ∈ firstSeen (e.assets.map Prod.snd)
        · right
          rw [k2 hs]
          simp only [List.map_append, List.sum_append, List.map_cons, List.map_nil, List.sum_cons, List.sum_nil, j2]
        · left
          refine ⟨k1 hs, ?_⟩
          rw [List.map_cons, List.sum_cons, j2, add_zero]
          unfold PEntry.shift
          refine List.sum_eq_zero fun x hx => ?_
          obtain ⟨v, hv, rfl⟩ := List.mem_map.1 hx
          refine if_neg fun hvs => hs ?_
          have := (firstSeen_aux (e.assets.map Prod.snd) [] List.nodup_nil).2 s
          unfold firstSeen
          exact this.2 (Or.inr (List.mem_map.2 ⟨v, hv, hvs⟩))
      · right
        rw [j, Option.some_or]
        simp

/-! ### C144 -/

/-- C144. On journals with envelopes too the register ends with what the balance report says, with doubles, as the program has
them: the last total that `register --no-move` prints in a currency is exactly what `balance --no-move` prints in that currency
for the accounts that begin with "asset", together; and if the register has no total in it, that comes to nothing. -/
theorem C144_register_and_balance_agree (env : Env) (hord : FairOrder env.ord) (o : Outside) (w : World)
    (accs : List DeclAccount) (es : List BEntry) (text path : Str) (h : EnvelopeJournal env accs es text)
    (hf : EnvelopesFit env.today accs es) (hr : w.read path = some text) (hfuel : o.fuel ≠ 0) (hterm : o.terminal = true)
    (cb cr : Str) (ab ar : List Str) (fb fr : List Flag)
    (hcb : cb.head? = some 'b') (hab : Spelled fb ab) (hjb : journalFor o fb = some path) (hnb : Flag.noMove ∈ fb)
    (hcr : cr.head? = some 'r') (har : Spelled fr ar) (hjr : journalFor o fr = some path) (hnr : Flag.noMove ∈ fr)
    (hday : ∀ e ∈ es, ∃ d, env.fmtDate e.day s%"%Y/%m/%d" = some d)
    (h8 : EightDecimals (es.map BEntry.counted)) (hseen : ∀ k, SeenBefore k (es.map BEntry.counted))
    (hsmall : ∀ k, Small k (es.map BEntry.counted)) (hswing : SwingSmall (es.map BEntry.counted)) :
    ∃ w1 w2 report register figures cols, mainProgram F64 env o (cb :: ab) w = (w1, .ok report) ∧ w1.file = w.file ∧
      mainProgram F64 env o (cr :: ar) w = (w2, .ok register) ∧ w2.file = w.file ∧ EndWith cols register figures ∧
      ∀ s, (lastTotal s figures).getD 0 = saidOf (readReport report) (fun k => s%"asset" <+: k) s := by
  obtain ⟨w1, report, b1, b2, b3, b4, _⟩ := C137_exact_rule env hord o w accs es text path h hf hr hfuel cb ab fb hcb hab hjb hnb
    h8 hseen hsmall
  obtain ⟨w1', report', c1, _, c3⟩ := balance_said env hord o w accs es text path h hf hr hfuel cb ab fb hcb hab hjb hnb
    h8 hseen hsmall
  rw [b1] at c1
  obtain ⟨rfl, rfl⟩ : w1 = w1' ∧ report = report' := by cases c1; exact ⟨rfl, rfl⟩
  obtain ⟨w2, register, r1, r2, ds, cols, blocks, r3, r4, r5⟩ := C138_exact_rule env hord o w accs es text path h hf hr hfuel
    hterm cr ar fr hcr har hjr hnr hday h8 hswing
  obtain ⟨figures, f1, f2⟩ := listing_end r5
  refine ⟨w1, w2, report, register, figures, cols, b1, b2, r1, r2, by rw [r4]; exact f1, fun s => ?_⟩
  have e1 : saidOf (readReport report) (fun k => s%"asset" <+: k) s = ((ds.map BEntry.counted).map (PEntry.shift s)).sum := by
    rw [((r3.same.map BEntry.counted).map _).sum_eq, shift_sum]
    have hn : ((readReport report).map Prod.fst).Nodup := by
      rw [List.nodup_iff_pairwise_ne, List.pairwise_map]
      refine b3.imp fun hlt heq => ?_
      rw [heq, strLt_irrefl] at hlt; cases hlt
    have hL : ∀ p ∈ (pLines (es.map BEntry.counted)).map fun p => (p.1, if p.2.2 = s then p.2.1 else 0),
        p.1 ∈ (readReport report).map Prod.fst := by
      intro p hp
      obtain ⟨q, hq, rfl⟩ := List.mem_map.1 hp
      obtain ⟨e, he, hq⟩ := List.mem_flatMap.1 hq
      obtain ⟨b, hb, rfl⟩ := List.mem_map.1 he
      obtain ⟨l, hl, hq⟩ := List.mem_filterMap.1 hq
      obtain ⟨v, _, rfl⟩ := Option.map_eq_some_iff.1 hq
      obtain ⟨j, hj, rfl⟩ := List.mem_map.1 hl
      refine (b4 _).2 ⟨b, hb, ?_⟩
      cases j with
      | posting q => exact Or.inl ⟨q, mem_plain.2 hj, rfl⟩
      | move m => exact Or.inr ⟨m, mem_moves.2 hj, rfl⟩
    have := sum_over_keys ((readReport report).map Prod.fst) hn (fun k => s%"asset" <+: k) _ hL
    rw [List.map_map] at this
    refine Eq.trans ?_ (this.trans ?_)
    · unfold saidOf
      congr 1
      refine List.map_congr_left fun p hp => ?_
      obtain ⟨k, ts⟩ := p
      simp only [Function.comp]
      have e2 : worthIn s ts = writtenSum k s (es.map BEntry.counted) := by
        have := c3 k s
        rw [reported_mem b3 hp] at this
        rw [counted_sum h.entries]
        exact this
      rw [e2, writtenSum_pLines, List.map_map]
      rfl
    · rw [List.map_map]; rfl
  rw [e1]
  rcases f2 s with ⟨j1, j2⟩ | j
  · rw [j1, j2]; rfl
  · rw [j]; rfl

/-! ### A concrete case -/

/-- The journal of C137 meets the conditions: both reports say $ 138.50 of the assets. -/
example : (∃ w1 w2 report register figures cols,
      mainProgram F64 (stdEnv june15) exOutside [s%"balance", s%"-f", s%"j", s%"-n"] (disk [("j", String.ofList exAssetText)]) =
        (w1, .ok report) ∧
      mainProgram F64 (stdEnv june15) exOutside [s%"register", s%"-f", s%"j", s%"-n"] (disk [("j", String.ofList exAssetText)]) =
        (w2, .ok register) ∧ EndWith cols register figures ∧
      ∀ s, (lastTotal s figures).getD 0 = saidOf (readReport report) (fun k => s%"asset" <+: k) s) ∧
    lastTotal (some s%"$") [(s%"$ 130.5", s%"$ 130.5"), (s%"$ 8", s%"$ 138.5")] = some (277 / 2) ∧
    saidOf [(s%"assets:bank", [s%"$ 138.5"]), (s%"pay", [s%"$-100"])] (fun k => s%"asset" <+: k) (some s%"$") = 277 / 2 := by
  refine ⟨?_, by decide +kernel, by decide +kernel⟩
  obtain ⟨h8, hs, hsm, hsw⟩ := exAsset_small
  obtain ⟨w1, w2, report, register, figures, cols, h1, _, h2, _, h3⟩ := C144_register_and_balance_agree (stdEnv june15)
    (fun _ l => List.Perm.refl l) exOutside (disk [("j", String.ofList exAssetText)]) exAssetAccounts _ exAssetText s%"j"
    exAssetText_ok exAsset_fits (by decide +kernel) (by decide) rfl s%"balance" s%"register" [s%"-f", s%"j", s%"-n"]
    [s%"-f", s%"j", s%"-n"] [.file s%"j", .noMove] [.file s%"j", .noMove] rfl (.cons (.fileShort _) (.cons .noMoveShort .nil)) rfl
    (by simp) rfl (.cons (.fileShort _) (.cons .noMoveShort .nil)) rfl (by simp) (by
      intro e he
      simp only [List.mem_cons, List.not_mem_nil, or_false] at he
      rcases he with rfl | rfl
      · exact ⟨s%"2024/06/01", by decide +kernel⟩
      · exact ⟨s%"2024/06/02", by decide +kernel⟩) h8 hs hsm hsw
  exact ⟨w1, w2, report, register, figures, cols, h1, h2, h3⟩

end Silverfox
