import Verif.Props.FillOrder
import Verif.Props.Import

/-
C84: filling moves money within each account and neither makes nor loses any.
-/

namespace Silverfox

set_option linter.unusedSectionVars false
variable {M : Type} [Mag M]

/-! ### The postings of one account -/

theorem ofAccount_all (n : Str) (ps : List (EnvPosting M)) (h : ∀ p ∈ ps, p.account = n) :
    ofAccount n ps = ps := by
  unfold ofAccount
  rw [List.filter_eq_self]
  intro p hp
  simp [h p hp]

theorem fillAll_none (today : Date) (as : List (Str × Account M)) (ps : List (EnvPosting M))
    (h : Ledger.fillAll today as = .ok ps) (k : Str) (hno : k ∉ as.map Prod.fst)
    (hk : ∀ k a, (k, a) ∈ as → ∀ e ∈ a.envelopes, e.account = k) : ofAccount k ps = [] := by
  induction as generalizing ps with
  | nil => cases h; rfl
  | cons x as ih =>
    obtain ⟨k', a⟩ := x
    obtain ⟨qs, rs, h1, h2, rfl⟩ := (fillAll_cons today k' a _ ps).1 h
    rw [List.map_cons, List.mem_cons, not_or] at hno
    rw [ofAccount_append, ih rs h2 hno.2 (fun k a hm => hk k a (by simp [hm])),
      ofAccount_other k k' (Ne.symm hno.1) qs (fillingPostings_account today a qs h1 k' (hk k' a (by simp)))]
    rfl

/-- Of all fill postings, those to one account are its own. -/
theorem fillAll_ofAccount (today : Date) (as : List (Str × Account M)) (hk : Keyed as)
    (ps : List (EnvPosting M)) (h : Ledger.fillAll today as = .ok ps) (k : Str) (a : Account M)
    (hm : (k, a) ∈ as) : a.fillingPostings today = .ok (ofAccount k ps) := by
  induction as generalizing ps with
  | nil => cases hm
  | cons x as ih =>
    obtain ⟨k', a'⟩ := x
    obtain ⟨qs, rs, h1, h2, rfl⟩ := (fillAll_cons today k' a' _ ps).1 h
    have hk' : Keyed as := ⟨(List.nodup_cons.1 hk.1).2, fun k a hm => hk.2 k a (by simp [hm])⟩
    have hq := fillingPostings_account today a' qs h1 k' (hk.2 k' a' (by simp))
    have hnot := (List.nodup_cons.1 hk.1).1
    rw [ofAccount_append]
    rcases List.mem_cons.1 hm with he | hm
    · obtain ⟨rfl, rfl⟩ := Prod.mk.inj he
      rw [ofAccount_all k qs hq, fillAll_none today as rs h2 k hnot hk'.2, List.append_nil]
      exact h1
    · have hne : k' ≠ k := by
        intro he
        exact hnot (List.mem_map.2 ⟨(k, a), hm, he.symm⟩)
      rw [ofAccount_other k k' hne qs hq]
      exact ih hk' rs h2 hm

/-- What the fill entry moves into an envelope. -/
theorem manualMoves_fill (today : Date) (ps : List (EnvPosting M)) (e : Envelope M) :
    manualMoves (Ledger.fillEntry today ps) e =
      ((ofAccount e.account ps).filter fun p => decide (p.envelope = e.name)).map EnvPosting.amount := by
  show (ps.map Posting.envelope).filterMap _ = _
  unfold ofAccount
  induction ps with
  | nil => rfl
  | cons p ps ih =>
    rw [List.map_cons, List.filterMap_cons]
    by_cases h1 : p.account = e.account
    · by_cases h2 : p.envelope = e.name
      · simp [h1, h2, ih]
      · simp [h1, h2, ih]
    · simp [h1, ih]

/-- With different names, the sum of the fills by the name of an envelope is its own fill. -/
theorem fills_by_name (es : List (Envelope Rat)) (ps : List (EnvPosting Rat)) (hl : ps.length = es.length)
    (hn : (es.map Envelope.name).Nodup) (hz : ∀ ep ∈ es.zip ps, ep.2.envelope = ep.1.name)
    (ep : Envelope Rat × EnvPosting Rat) (hm : ep ∈ es.zip ps) :
    sumMags (((ps.filter fun p => !Mag.eq p.amount.mag (Mag.zero : Rat)).filter
      fun p => decide (p.envelope = ep.1.name)).map EnvPosting.amount) = ep.2.amount.mag := by
  have none : ∀ (es : List (Envelope Rat)) (ps : List (EnvPosting Rat)) (n : Str), ps.length = es.length →
      n ∉ es.map Envelope.name → (∀ ep ∈ es.zip ps, ep.2.envelope = ep.1.name) →
      (ps.filter fun p => !Mag.eq p.amount.mag (Mag.zero : Rat)).filter
        (fun p => decide (p.envelope = n)) = [] := by
    intro es ps n hl hn hz
    rw [List.filter_eq_nil_iff]
    intro p hp
    have hp' := (List.mem_filter.1 hp).1
    obtain ⟨i, hi, rfl⟩ := List.mem_iff_getElem.1 hp'
    have hi' : i < es.length := by omega
    have hzip : (es[i], ps[i]) ∈ es.zip ps := by
      rw [List.mem_iff_getElem]
      exact ⟨i, by simp [hi, hi'], by simp⟩
    have := hz _ hzip
    simp only at this
    rw [this]
    simp only [decide_eq_true_eq]
    intro he
    exact hn (List.mem_map.2 ⟨es[i], List.getElem_mem _, he⟩)
  induction es generalizing ps with
  | nil => simp at hm
  | cons e es ih =>
    cases ps with
    | nil => simp at hm
    | cons p ps =>
      rw [List.zip_cons_cons] at hm hz
      rw [List.map_cons, List.nodup_cons] at hn
      have hl' : ps.length = es.length := by simpa using hl
      have hpe : p.envelope = e.name := hz (e, p) (by simp)
      have hz' : ∀ ep ∈ es.zip ps, ep.2.envelope = ep.1.name := fun ep h => hz ep (by simp [h])
      rcases List.mem_cons.1 hm with rfl | hm
      · have := none es ps e.name hl' hn.1 hz'
        by_cases h0 : p.amount.mag = 0
        · simp only [List.filter_cons, Mag.eq, Mag.zero, h0] at this ⊢
          simp [this, sumMags]
        · simp only [List.filter_cons, Mag.eq, Mag.zero] at this ⊢
          simp [h0, hpe, this, sumMags]
      · have hne : p.envelope ≠ ep.1.name := by
          rw [hpe]
          intro he
          exact hn.1 (List.mem_map.2 ⟨ep.1, (List.of_mem_zip hm).1, he.symm⟩)
        have := ih ps hl' hn.2 hz' hm
        rw [← this]
        simp only [List.filter_cons]
        split
        · simp [hne]
        · rfl

theorem filled_sum (s : Option Str) (es es' : List (Envelope Rat)) (ps : List (EnvPosting Rat))
    (hl : ps.length = es.length)
    (h : List.Forall₂ (fun (ep : Envelope Rat × EnvPosting Rat) (e' : Envelope Rat) =>
      e'.holds = ep.1.holds + ep.2.amount.mag ∧ e'.amount.sym = ep.1.amount.sym ∧
      ep.2.amount.sym = ep.1.amount.sym) (es.zip ps) es') :
    (es'.map (Envelope.holdsIn s)).sum = (es.map (Envelope.holdsIn s)).sum + fillsIn s ps := by
  induction es generalizing ps es' with
  | nil =>
    rw [List.zip_nil_left] at h
    cases h
    have : ps = [] := List.length_eq_zero_iff.1 hl
    subst this
    simp [fillsIn]
  | cons e es ih =>
    cases ps with
    | nil => simp at hl
    | cons p ps =>
      rw [List.zip_cons_cons] at h
      cases h with
      | cons hs hst =>
        rename_i e' es1
        have h1 := ih es1 ps (by simpa using hl) hst
        rw [fillsIn_cons, List.map_cons, List.sum_cons, List.map_cons, List.sum_cons, h1]
        obtain ⟨h2, h3, h4⟩ := hs
        simp only at h2 h3 h4
        have : e'.holdsIn s = e.holdsIn s + p.amount.inSym s := by
          unfold Envelope.holdsIn Amount.inSym
          rw [h3, h4]
          split
          · exact h2
          · simp
        linarith

/-! ### C84 -/

/-- Specification: account `a` was filled and became `a'`. Its real money is the same; each envelope, in
the order of filling, holds its fill more than before and is otherwise as before; and what is available in
each currency is less by what was filled in that currency. -/
def Filled (today : Date) (a a' : Account Rat) : Prop :=
  a'.name = a.name ∧ a'.real = a.real ∧
  ∃ fills, a.fillingPostings today = .ok fills ∧ fills.length = a.envelopes.length ∧
    List.Forall₂ (fun (ep : Envelope Rat × EnvPosting Rat) (e' : Envelope Rat) =>
      ep.2.envelope = ep.1.name ∧ 0 ≤ ep.2.amount.mag ∧
      e'.holds = ep.1.holds + ep.2.amount.mag ∧ ep.1.SameButMoney e')
      (a.envelopes.reverse.zip fills) a'.envelopes.reverse ∧
    ∀ s, (a'.available.only s).mag = (a.available.only s).mag - fillsIn s fills

theorem filled_of (today : Date) (a a' : Account Rat) (hw : a.WF) (hn : (a.envelopes.map Envelope.name).Nodup)
    (ps qs : List (EnvPosting Rat)) (hps : a.fillingPostings today = .ok ps) (hne : qs ≠ [])
    (hqs : ofAccount a.name qs = ps.filter fun p => !Mag.eq p.amount.mag (Mag.zero : Rat))
    (h : a.processEntry today (Ledger.fillEntry today qs) = .ok a') : Filled today a a' := by
  obtain ⟨hlen, hzip⟩ := fillLoop_zip today _ _ _ hps
  have hw' := processEntry_wf today _ a a' h hw
  have hreal : a'.real = a.real := C45_envelope_postings_no_effect today _ a a' (by
    intro p hp
    obtain ⟨q, _, rfl⟩ := List.mem_map.1 (show p ∈ qs.map Posting.envelope from hp)
    rfl) h
  have hname : a'.name = a.name := by
    unfold Account.processEntry at h
    simp only [bind, Except.bind, pure, Except.pure] at h
    repeat' split at h
    all_goals first | cases h; done | (cases h; rfl)
  have henv : (Ledger.fillEntry today qs).hasEnvelopePosting = true := by
    rw [fillEntry_has]; simpa using hne
  have hf2 : List.Forall₂ (fun e e' => e.processEntry today (Ledger.fillEntry today qs) = .ok e')
      a.envelopes.reverse a'.envelopes.reverse :=
    List.forall₂_reverse_iff.2 (C31_envelopes_independent today a a' _ h)
  have key : List.Forall₂ (fun (ep : Envelope Rat × EnvPosting Rat) (e' : Envelope Rat) =>
      ep.2.envelope = ep.1.name ∧ 0 ≤ ep.2.amount.mag ∧
      e'.holds = ep.1.holds + ep.2.amount.mag ∧ ep.1.SameButMoney e')
      (a.envelopes.reverse.zip ps) a'.envelopes.reverse := by
    refine zip_forall₂ _ _ _ hf2 hlen ?_
    intro ep hep e' hp
    obtain ⟨z1, z2, z3, z4⟩ := hzip ep hep
    have he : ep.1 ∈ a.envelopes := by simpa using (List.of_mem_zip hep).1
    obtain ⟨c1, c2, _⟩ := C31_named_changes_by_postings today ep.1 e' _ henv hp
    refine ⟨z2, z4, ?_, c2⟩
    rw [c1, manualMoves_fill, hw.owner ep.1 he, hqs]
    rw [fills_by_name a.envelopes.reverse ps hlen
      (by rw [List.map_reverse]; exact (List.reverse_perm _).nodup_iff.2 hn) (fun ep h => (hzip ep h).2.1) ep hep]
  refine ⟨hname, hreal, ps, hps, by simpa using hlen, key, fun s => ?_⟩
  have hsum := filled_sum s a.envelopes.reverse a'.envelopes.reverse ps hlen (by
    refine zip_forall₂ _ _ _ hf2 hlen ?_
    intro ep hep e' hp
    obtain ⟨z1, z2, z3, z4⟩ := hzip ep hep
    have he : ep.1 ∈ a.envelopes := by simpa using (List.of_mem_zip hep).1
    obtain ⟨c1, c2, _⟩ := C31_named_changes_by_postings today ep.1 e' _ henv hp
    refine ⟨?_, by rw [(SameButMoney.fields c2).2.2.1], z3⟩
    rw [c1, manualMoves_fill, hw.owner ep.1 he, hqs]
    rw [fills_by_name a.envelopes.reverse ps hlen
      (by rw [List.map_reverse]; exact (List.reverse_perm _).nodup_iff.2 hn) (fun ep h => (hzip ep h).2.1) ep hep])
  rw [List.map_reverse, List.sum_reverse, List.map_reverse, List.sum_reverse] at hsum
  have e1 := available_holdsIn a s hw.currency
  have e2 := available_holdsIn a' s hw'.currency
  show a'.available.bal s = a.available.bal s - fillsIn s ps
  rw [e1, e2, hsum, hreal]
  ring

theorem filled_same (today : Date) (a : Account Rat) (ps : List (EnvPosting Rat))
    (hps : a.fillingPostings today = .ok ps) (hz : ∀ p ∈ ps, p.amount.mag = 0) : Filled today a a := by
  obtain ⟨hlen, hzip⟩ := fillLoop_zip today _ _ _ hps
  have hrefl : List.Forall₂ (fun e e' : Envelope Rat => e' = e) a.envelopes.reverse a.envelopes.reverse :=
    forall₂_refl (r := fun e e' : Envelope Rat => e' = e) (fun _ => rfl) _
  refine ⟨rfl, rfl, ps, hps, by simpa using hlen, ?_, fun s => ?_⟩
  · refine zip_forall₂ _ _ _ hrefl hlen ?_
    rintro ep hep e' rfl
    obtain ⟨_, z2, _, z4⟩ := hzip ep hep
    refine ⟨z2, z4, ?_, ?_⟩
    · rw [hz _ (List.of_mem_zip hep).2]; ring
    · simp [Envelope.SameButMoney]
  · have : fillsIn s ps = 0 := by
      clear hps hlen hzip hrefl
      induction ps with
      | nil => rfl
      | cons p ps ih =>
        rw [fillsIn_cons, ih (fun q hq => hz q (by simp [hq]))]
        simp [Amount.inSym, hz p (by simp)]
    rw [this]; ring

/-- C84, exact arithmetic: filling a ledger leaves every account's real money, gives each envelope its fill,
and takes the fills from what is available, in each currency. The condition is that no two envelopes of an
account share a name (an expense and a goal may). -/
theorem C84_filling_conserves_partial (env : Env) (hord : FairOrder env.ord) (w w' : World)
    (l l' : Ledger Rat) (hl : l.Inv)
    (hn : ∀ k a, (k, a) ∈ l.accounts → (a.envelopes.map Envelope.name).Nodup)
    (h : l.fillEnvelopes env w = (w', .ok l')) :
    l'.accounts.map Prod.fst = l.accounts.map Prod.fst ∧
    ∀ k a', (k, a') ∈ l'.accounts → ∃ a, (k, a) ∈ l.accounts ∧ Filled env.today a a' := by
  have hk : Keyed (env.ord l.accounts) := by
    refine ⟨((hord _ l.accounts).map Prod.fst).nodup_iff.2 hl.keys, fun k a hm e he => ?_⟩
    have hm' := (hord _ l.accounts).mem_iff.1 hm
    rw [(hl.wf k a hm').owner e he, hl.names k a hm']
  unfold Ledger.fillEnvelopes at h
  split at h
  · cases h
  · rename_i ps hps
    have hown : ∀ k a, (k, a) ∈ l.accounts → a.fillingPostings env.today = .ok (ofAccount k ps) :=
      fun k a hm => fillAll_ofAccount env.today _ hk ps hps k a ((hord _ l.accounts).mem_iff.2 hm)
    simp only at h
    split at h
    · rename_i hemp
      cases h
      refine ⟨rfl, fun k a hm => ⟨a, hm, filled_same env.today a _ (hown k a hm) fun p hp => ?_⟩⟩
      rw [List.isEmpty_iff, List.filter_eq_nil_iff] at hemp
      have := hemp p (List.mem_filter.1 hp).1
      simpa [Mag.eq, Mag.zero] using this
    · rename_i hne
      rcases appendEntry_cases env w l _ w' _ h with ⟨_, hx, _⟩ | ⟨_, _, _, h3⟩
      · cases hx
      · obtain ⟨accs, h4, rfl, _⟩ := addEntry_ok _ _ _ _ h3.symm
        obtain ⟨h5, h6⟩ := processAll_ok _ _ _ _ h4
        refine ⟨h5, fun k a' hm => ?_⟩
        obtain ⟨a, ha, hp⟩ := h6 k a' hm
        refine ⟨a, ha, filled_of env.today a a' (hl.wf k a ha) (hn k a ha) _ _ (hown k a ha)
          (by simpa using hne) ?_ hp⟩
        rw [hl.names k a ha]
        unfold ofAccount
        rw [List.filter_filter, List.filter_filter]
        congr 1
        funext p
        exact Bool.and_comm _ _

/-- C84: so, if no envelope was overdrawn, filling never leaves less than nothing available. -/
theorem C84_available_not_negative_partial (env : Env) (hord : FairOrder env.ord) (w w' : World)
    (l l' : Ledger Rat) (hl : l.Inv)
    (hn : ∀ k a, (k, a) ∈ l.accounts → (a.envelopes.map Envelope.name).Nodup)
    (hpos : ∀ k a, (k, a) ∈ l.accounts → ∀ e ∈ a.envelopes, 0 ≤ e.holds)
    (h : l.fillEnvelopes env w = (w', .ok l')) (k : Str) (a' : Account Rat) (hm : (k, a') ∈ l'.accounts) :
    ∃ a, (k, a) ∈ l.accounts ∧ a'.real = a.real ∧
      ∀ s, 0 ≤ (a.available.only s).mag → 0 ≤ (a'.available.only s).mag := by
  obtain ⟨a, ha, hf⟩ := (C84_filling_conserves_partial env hord w w' l l' hl hn h).2 k a' hm
  obtain ⟨_, h1, fills, h2, _, _, h3⟩ := hf
  refine ⟨a, ha, h1, fun s hs => ?_⟩
  rw [h3 s]
  exact C39_available_stays_partial env.today a (hpos k a ha) fills h2 s hs

/-- C84 for a journal that was loaded. -/
theorem C84_loaded_partial (env : Env) (hord : FairOrder env.ord) (fuel : Nat) (w w1 w' : World)
    (path : Str) (l l' : Ledger Rat) (hload : Ledger.fromFile env fuel w path = .ok (l, w1))
    (hn : ∀ k a, (k, a) ∈ l.accounts → (a.envelopes.map Envelope.name).Nodup)
    (h : l.fillEnvelopes env w1 = (w', .ok l')) (k : Str) (a' : Account Rat) (hm : (k, a') ∈ l'.accounts) :
    ∃ a, (k, a) ∈ l.accounts ∧ Filled env.today a a' :=
  (C84_filling_conserves_partial env hord w1 w' l l' (loaded_inv env fuel w w1 path l hload) hn h).2 k a' hm

/-- An account whose expense and goal have one name. -/
def sharedName : World := disk [("j",
  "account a\n  expense x due every 1st\n    amount 50\n    funding aggressive\n  goal x due every 1st\n    amount 50
2024/01/02 * pay\n a 30\n")]

/-- What account `a` has available, and what its envelopes hold, before and after filling. -/
def fillReport (w : World) : Option ((Rat × List Rat) × (Rat × List Rat)) := do
  let r ← (Ledger.fromFile (stdEnv june15) 9 w s%"j" : Res (Ledger Rat × World)).toOption
  let l ← (r.1.fillEnvelopes (stdEnv june15) r.2).2.toOption
  let a ← mapGet r.1.accounts s%"a"
  let b ← mapGet l.accounts s%"a"
  pure (((a.available.only none).mag, a.envelopes.map Envelope.holds),
    ((b.available.only none).mag, b.envelopes.map Envelope.holds))

/-- C84 fails for a shared name: 30 are available and 30 are filled into the expense, but the goal of that name,
which is not even funded automatically, gets them as well, and 30 too many are gone. -/
theorem C84_shared_name_overspends :
    fillReport sharedName = some ((30, [0, 0]), (-30, [30, 30])) := by decide +kernel

/-- A case of C84: two envelopes, of which the second takes what it needs and the first the rest. -/
example : fillReport (disk [("j",
    "account a\n  expense x due every 1st\n    amount 50\n    funding aggressive\n  goal y due every 1st\n    amount 20\n    funding aggressive
2024/01/02 * pay\n a 30\n")]) = some ((30, [0, 0]), (0, [10, 20])) := by decide +kernel

end Silverfox
