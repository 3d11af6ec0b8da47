import Verif.Props.Files

/-
C82: filling does not depend on the order of the hash map, but for the order of the postings written.
-/

namespace Silverfox

set_option linter.unusedSectionVars false
variable {M : Type} [Mag M]

/-! ### The postings -/

/-- Different keys, and envelopes that know their account. -/
def Keyed (as : List (Str × Account M)) : Prop :=
  (as.map Prod.fst).Nodup ∧ ∀ k a, (k, a) ∈ as → ∀ e ∈ a.envelopes, e.account = k

theorem fillingPostings_account (today : Date) (a : Account M) (ps : List (EnvPosting M))
    (h : a.fillingPostings today = .ok ps) (n : Str) (hn : ∀ e ∈ a.envelopes, e.account = n) :
    ∀ p ∈ ps, p.account = n :=
  fillLoop_account today _ _ _ h n (fun e he => hn e (by simpa using he))

theorem fillAll_cons (today : Date) (k : Str) (a : Account M) (as : List (Str × Account M))
    (ps : List (EnvPosting M)) :
    Ledger.fillAll today ((k, a) :: as) = .ok ps ↔
      ∃ qs rs, a.fillingPostings today = .ok qs ∧ Ledger.fillAll today as = .ok rs ∧ ps = qs ++ rs := by
  simp only [Ledger.fillAll, bind, Except.bind, pure, Except.pure]
  cases h1 : a.fillingPostings today with
  | error f => simp
  | ok qs =>
    cases h2 : Ledger.fillAll today as with
    | error f => simp
    | ok rs =>
      constructor
      · intro h; cases h; exact ⟨qs, rs, rfl, rfl, rfl⟩
      · rintro ⟨qs', rs', h3, h4, rfl⟩; cases h3; cases h4; rfl

/-- The postings that belong to one account. -/
def ofAccount (n : Str) (ps : List (EnvPosting M)) : List (EnvPosting M) :=
  ps.filter fun p => decide (p.account = n)

theorem ofAccount_append (n : Str) (ps qs : List (EnvPosting M)) :
    ofAccount n (ps ++ qs) = ofAccount n ps ++ ofAccount n qs := List.filter_append ..

theorem ofAccount_other (n m : Str) (hne : m ≠ n) (ps : List (EnvPosting M)) (h : ∀ p ∈ ps, p.account = m) :
    ofAccount n ps = [] := by
  unfold ofAccount
  rw [List.filter_eq_nil_iff]
  intro p hp
  simp [h p hp, hne]

theorem fillAll_perm (today : Date) {as as' : List (Str × Account M)} (hp : as.Perm as') (hk : Keyed as)
    (ps : List (EnvPosting M)) (h : Ledger.fillAll today as = .ok ps) :
    ∃ ps', Ledger.fillAll today as' = .ok ps' ∧ ps.Perm ps' ∧ ∀ n, ofAccount n ps' = ofAccount n ps := by
  induction hp generalizing ps with
  | nil => exact ⟨ps, h, .refl _, fun _ => rfl⟩
  | cons x _ ih =>
    obtain ⟨k, a⟩ := x
    obtain ⟨qs, rs, h1, h2, rfl⟩ := (fillAll_cons today k a _ ps).1 h
    have hk' : Keyed _ := ⟨(List.nodup_cons.1 hk.1).2, fun k' a' hm => hk.2 k' a' (by simp [hm])⟩
    obtain ⟨rs', h3, h4, h5⟩ := ih hk' rs h2
    refine ⟨qs ++ rs', (fillAll_cons today k a _ _).2 ⟨qs, rs', h1, h3, rfl⟩, h4.append_left qs, fun n => ?_⟩
    rw [ofAccount_append, ofAccount_append, h5]
  | swap x y l =>
    obtain ⟨k, a⟩ := x
    obtain ⟨k', a'⟩ := y
    obtain ⟨qs', rs', h1, h2, rfl⟩ := (fillAll_cons today k' a' _ ps).1 h
    obtain ⟨qs, rs, h3, h4, rfl⟩ := (fillAll_cons today k a _ rs').1 h2
    refine ⟨qs ++ (qs' ++ rs), (fillAll_cons ..).2 ⟨qs, _, h3, (fillAll_cons ..).2 ⟨qs', rs, h1, h4, rfl⟩, rfl⟩,
      ?_, fun n => ?_⟩
    · rw [← List.append_assoc, ← List.append_assoc]
      exact List.perm_append_comm.append_right rs
    · have e1 := fillingPostings_account today a qs h3 k (hk.2 k a (by simp))
      have e2 := fillingPostings_account today a' qs' h1 k' (hk.2 k' a' (by simp))
      have hne : k' ≠ k := by
        have := (List.nodup_cons.1 hk.1).1
        intro he
        exact this (by simp [he])
      rw [ofAccount_append, ofAccount_append, ofAccount_append, ofAccount_append]
      by_cases hn : k = n
      · rw [ofAccount_other n k' (hn ▸ hne) qs' e2]; rfl
      · rw [ofAccount_other n k hn qs e1]; rfl
  | trans p1 _ ih1 ih2 =>
    obtain ⟨ps1, h1, h2, h3⟩ := ih1 hk ps h
    have hk' : Keyed _ := ⟨(p1.map Prod.fst).nodup_iff.1 hk.1,
      fun k a hm => hk.2 k a (p1.mem_iff.2 hm)⟩
    obtain ⟨ps2, h4, h5, h6⟩ := ih2 hk' ps1 h1
    exact ⟨ps2, h4, h2.trans h5, fun n => by rw [h6, h3]⟩

/-! ### Their effect -/

theorem processReal_envelopes (name : Str) (x : Entry M) (ps : List (EnvPosting M)) (r : Pool M) :
    Account.processReal name x (ps.map Posting.envelope) r = .ok r := by
  induction ps with
  | nil => rfl
  | cons p ps ih =>
    rw [List.map_cons, Account.processReal]
    simp only [Posting.isEnvelope, Bool.true_eq_false, and_false, if_false]
    exact ih

theorem fillEntry_envelopePostings (today : Date) (ps : List (EnvPosting M)) :
    (Ledger.fillEntry today ps).envelopePostings = ps := by
  show (ps.map Posting.envelope).filterMap _ = ps
  induction ps with
  | nil => rfl
  | cons p ps ih => rw [List.map_cons, List.filterMap_cons]; simp only [ih]

theorem fillEntry_has (today : Date) (ps : List (EnvPosting M)) :
    (Ledger.fillEntry today ps).hasEnvelopePosting = !ps.isEmpty := by
  cases ps with
  | nil => rfl
  | cons p ps => rfl

theorem processEntry_fill (today : Date) (ps ps' : List (EnvPosting M)) (hne : ps ≠ []) (hne' : ps' ≠ [])
    (e : Envelope M) (h : ofAccount e.account ps' = ofAccount e.account ps) :
    e.processEntry today (Ledger.fillEntry today ps') = e.processEntry today (Ledger.fillEntry today ps) := by
  have key : ∀ qs : List (EnvPosting M), (qs.filter fun p => decide (p.Names e))
      = (ofAccount e.account qs).filter fun p => decide (p.Names e) := by
    intro qs
    unfold ofAccount
    rw [List.filter_filter]
    congr 1
    funext p
    unfold EnvPosting.Names
    by_cases h1 : p.account = e.account <;> simp [h1]
  unfold Envelope.processEntry
  rw [fillEntry_has, fillEntry_has]
  have e1 : ps.isEmpty = false := by simpa using hne
  have e2 : ps'.isEmpty = false := by simpa using hne'
  rw [e1, e2]
  simp only [Bool.not_false, if_true]
  rw [processManual_eq, processManual_eq, fillEntry_envelopePostings, fillEntry_envelopePostings,
    key ps', key ps, h]
  rfl

theorem processEnvelopes_congr (today : Date) (x y : Entry M) (es : List (Envelope M))
    (h : ∀ e ∈ es, e.processEntry today x = e.processEntry today y) :
    Account.processEnvelopes today x es = Account.processEnvelopes today y es := by
  induction es with
  | nil => rfl
  | cons e es ih =>
    simp only [Account.processEnvelopes]
    rw [h e (by simp), ih (fun e' he' => h e' (by simp [he']))]

theorem processAll_fill (today : Date) (ps ps' : List (EnvPosting M)) (hne : ps ≠ []) (hne' : ps' ≠ [])
    (h : ∀ n, ofAccount n ps' = ofAccount n ps) (as : List (Str × Account M)) :
    Ledger.processAll today (Ledger.fillEntry today ps') as = Ledger.processAll today (Ledger.fillEntry today ps) as := by
  induction as with
  | nil => rfl
  | cons x as ih =>
    obtain ⟨k, a⟩ := x
    simp only [Ledger.processAll]
    rw [ih]
    congr 1
    unfold Account.processEntry
    rw [processEnvelopes_congr today _ _ a.expenses (fun e _ => processEntry_fill today ps ps' hne hne' e (h _)),
      processEnvelopes_congr today _ _ a.goals (fun e _ => processEntry_fill today ps ps' hne hne' e (h _))]
    show (_ >>= fun _ => _ >>= fun _ => Account.processReal a.name _ (ps'.map Posting.envelope) a.real >>= _)
      = (_ >>= fun _ => _ >>= fun _ => Account.processReal a.name _ (ps.map Posting.envelope) a.real >>= _)
    simp only [processReal_envelopes]

/-- Specification: the same entry, but for the order of its postings. -/
def SameButOrder (x y : Entry M) : Prop :=
  y = { x with postings := y.postings } ∧ x.postings.Perm y.postings

theorem SameButOrder.refl (x : Entry M) : SameButOrder x x := ⟨rfl, .refl _⟩

theorem insertBy_forall₂ {α : Type} (lt : α → α → Bool) (R : α → α → Prop)
    (hR : ∀ a b c d, R a b → R c d → lt a c = lt b d) (a b : α) (hab : R a b) (l l' : List α)
    (h : List.Forall₂ R l l') : List.Forall₂ R (insertBy lt a l) (insertBy lt b l') := by
  induction h with
  | nil => exact .cons hab .nil
  | cons hr hl ih =>
    simp only [insertBy]
    rw [hR _ _ _ _ hr hab]
    split
    · exact .cons hr ih
    · exact .cons hab (.cons hr hl)

theorem stableSort_forall₂ {α : Type} (lt : α → α → Bool) (R : α → α → Prop)
    (hR : ∀ a b c d, R a b → R c d → lt a c = lt b d) (l l' : List α)
    (h : List.Forall₂ R l l') : List.Forall₂ R (stableSort lt l) (stableSort lt l') := by
  induction h with
  | nil => exact .nil
  | cons hr _ ih => exact insertBy_forall₂ lt R hR _ _ hr _ _ ih

theorem forall₂_refl {α : Type} {R : α → α → Prop} (hr : ∀ a, R a a) (l : List α) : List.Forall₂ R l l := by
  induction l with
  | nil => exact .nil
  | cons a l ih => exact .cons (hr a) ih

theorem forall₂_app {α : Type} {R : α → α → Prop} {a b c d : List α} (h : List.Forall₂ R a b)
    (h' : List.Forall₂ R c d) : List.Forall₂ R (a ++ c) (b ++ d) := by
  induction h with
  | nil => exact h'
  | cons hr _ ih => exact .cons hr ih

/-- Specification: two states of the files that differ at most in the order of some lines at the end of
one file. -/
def SameButLines (a : APath) (w1 w2 : World) : Prop :=
  w1.cwd = w2.cwd ∧ w1.canAppend = w2.canAppend ∧ (∀ b, b ≠ a → w1.file b = w2.file b) ∧
  (w1.file a = w2.file a ∨ ∃ (front : Str) (ls1 ls2 : List Str), ls1.Perm ls2 ∧
    w1.file a = some (front ++ ls1.flatten) ∧ w2.file a = some (front ++ ls2.flatten))

/-- C82: whatever the order in which the accounts are met, filling succeeds or fails alike; the accounts
afterwards, with all their envelopes, are the same; the entries are the same but for the order of postings in
the new entry; and so is the file, but for the order of the lines of the new entry. In any arithmetic. -/
theorem C82_fill_order (env : Env) (o1 o2 : HashOrder) (h1 : FairOrder o1) (h2 : FairOrder o2) (w w1 : World)
    (l l1 : Ledger M) (hl : l.Inv) (h : l.fillEnvelopes (env.withOrd o1) w = (w1, .ok l1)) :
    ∃ w2 l2, l.fillEnvelopes (env.withOrd o2) w = (w2, .ok l2) ∧
      l2.accounts = l1.accounts ∧ List.Forall₂ SameButOrder l1.entries l2.entries ∧
      (l2.filePath, l2.dateFormat, l2.currency, l2.decimal) =
        (l1.filePath, l1.dateFormat, l1.currency, l1.decimal) ∧
      SameButLines (resolve w.cwd l.filePath) w1 w2 := by
  have hk : Keyed (o1 l.accounts) := by
    refine ⟨((h1 _ l.accounts).map Prod.fst).nodup_iff.2 hl.keys, fun k a hm e he => ?_⟩
    have hm' := (h1 _ l.accounts).mem_iff.1 hm
    rw [(hl.wf k a hm').owner e he, hl.names k a hm']
  have hperm : (o1 l.accounts).Perm (o2 l.accounts) := (h1 _ l.accounts).trans (h2 _ l.accounts).symm
  unfold Ledger.fillEnvelopes at h ⊢
  split at h
  · cases h
  · rename_i ps hps
    obtain ⟨ps', hps', hpp, hof⟩ := fillAll_perm env.today hperm hk ps hps
    rw [show Ledger.fillAll (env.withOrd o2).today ((env.withOrd o2).ord l.accounts) = .ok ps' from hps']
    simp only at h ⊢
    have hfp : (ps.filter fun p => !Mag.eq p.amount.mag (Mag.zero : M)).Perm
        (ps'.filter fun p => !Mag.eq p.amount.mag (Mag.zero : M)) := hpp.filter _
    have hfo : ∀ n, ofAccount n (ps'.filter fun p => !Mag.eq p.amount.mag (Mag.zero : M))
        = ofAccount n (ps.filter fun p => !Mag.eq p.amount.mag (Mag.zero : M)) := by
      intro n
      have := hof n
      unfold ofAccount at this ⊢
      have comm : ∀ l : List (EnvPosting M), (l.filter fun p => !Mag.eq p.amount.mag (Mag.zero : M)).filter (fun p => decide (p.account = n))
          = (l.filter fun p => decide (p.account = n)).filter fun p => !Mag.eq p.amount.mag (Mag.zero : M) := by
        intro l
        rw [List.filter_filter, List.filter_filter]
        congr 1
        funext p
        exact Bool.and_comm _ _
      rw [comm, comm, this]
    generalize (ps.filter fun p => !Mag.eq p.amount.mag (Mag.zero : M)) = qs at h hfp hfo
    generalize (ps'.filter fun p => !Mag.eq p.amount.mag (Mag.zero : M)) = qs' at hfp hfo ⊢
    by_cases hq : qs = []
    · subst hq
      have hq' : qs' = [] := List.perm_nil.1 hfp.symm
      subst hq'
      cases h
      exact ⟨w, l, rfl, rfl, forall₂_refl SameButOrder.refl _, rfl, rfl, rfl, fun _ _ => rfl, Or.inl rfl⟩
    · have hq' : qs' ≠ [] := by
        intro he
        subst he
        exact hq (List.perm_nil.1 hfp)
      rw [if_neg (by simpa using hq)] at h
      rw [if_neg (by simpa using hq')]
      unfold Ledger.appendEntry at h ⊢
      split at h
      · cases h
      · rename_i hcan
        rw [if_neg hcan]
        simp only [Entry.asParsable, bind, Except.bind, pure, Except.pure] at h ⊢
        cases hd : env.fmtDate env.today l.dateFormat with
        | none =>
          simp only [Ledger.fillEntry, Entry.new, Env.withOrd, hd, unwrap] at h
          cases h
        | some date =>
          have hd1 : ∀ (o : HashOrder) (zs : List (EnvPosting M)),
              (env.withOrd o).fmtDate (Ledger.fillEntry (env.withOrd o).today zs).date l.dateFormat = some date :=
            fun _ _ => hd
          simp only [hd1, unwrap] at h ⊢
          split at h
          · cases h
          · rename_i w1' hw1
            obtain ⟨hw, hadd⟩ := Prod.mk.inj h
            subst hw
            obtain ⟨accs, h3, rfl, accs', h4⟩ := addEntry_ok _ _ _ _ hadd
            unfold World.append at hw1
            simp only at hw1
            split at hw1
            · rename_i hc
              split at hw1
              · rename_i old hold
                cases hw1
                unfold World.append
                simp only [hc, if_true, hold]
                refine ⟨_, Ledger.mk l.filePath (stableSort (fun a b => Date.lt a.date b.date)
                    (l.entries ++ [Ledger.fillEntry env.today qs'])) l.dateFormat accs l.currency l.decimal, Prod.ext rfl ?_, rfl, ?_, rfl, ?_⟩
                · have e1 : Ledger.processAll env.today (Ledger.fillEntry env.today qs') l.accounts = .ok accs := by
                    rw [processAll_fill env.today qs qs' hq hq' hfo]; exact h3
                  have e2 : ∃ r, Ledger.processAll env.today (Ledger.fillEntry env.today qs') (o2 l.accounts) = .ok r := by
                    rw [processAll_exists]
                    have := (processAll_exists env.today (Ledger.fillEntry env.today qs') l.accounts).1 ⟨_, e1⟩
                    intro p hp
                    exact this p ((h2 _ l.accounts).mem_iff.1 hp)
                  obtain ⟨r, e2⟩ := e2
                  show Ledger.addEntry (env.withOrd o2) l (Ledger.fillEntry env.today qs') = _
                  unfold Ledger.addEntry
                  show (Ledger.processAll env.today _ (o2 l.accounts) >>= fun _ =>
                    Ledger.processAll env.today _ l.accounts >>= _) = _
                  rw [e2, e1]
                  rfl
                · refine stableSort_forall₂ _ SameButOrder (fun a b c d hab hcd => ?_) _ _
                    (forall₂_app (forall₂_refl SameButOrder.refl _) (.cons ⟨rfl, hfp.map _⟩ .nil))
                  rw [hab.1, hcd.1]
                · refine ⟨rfl, rfl, ?_, Or.inr ?_⟩
                  · intro b hb
                    simp only [World.write, if_neg hb]
                  · simp only [World.write, if_true]
                    have hsome : ∀ x y : Str, some (old ++ '\n' :: (x ++ y)) = some ((old ++ '\n' :: x) ++ y) := by simp
                    refine ⟨old ++ '\n' :: (date ++ ' ' :: '~' :: ' ' :: s%"move to envelopes" ++ [] ++
                      (s%" // " ++ s%"automatically generated by silverfox") ++ ['\n']),
                      ((qs.map Posting.envelope).map fun p : Posting M => s%"    " ++ p.display ++ ['\n']),
                      ((qs'.map Posting.envelope).map fun p : Posting M => s%"    " ++ p.display ++ ['\n']), ?_, ?_, ?_⟩
                    · exact (hfp.map _).map _
                    · exact hsome _ _
                    · exact hsome _ _
              · cases hw1
            · cases hw1

/-- C82: the same for a journal that was loaded. -/
theorem C82_loaded_fill_order (env : Env) (o1 o2 : HashOrder) (h1 : FairOrder o1) (h2 : FairOrder o2)
    (fuel : Nat) (w w' w1 : World) (path : Str) (l l1 : Ledger M)
    (hload : Ledger.fromFile (env.withOrd o1) fuel w path = .ok (l, w'))
    (h : l.fillEnvelopes (env.withOrd o1) w' = (w1, .ok l1)) :
    ∃ w2 l2, Ledger.fromFile (env.withOrd o2) fuel w path = .ok (l, w') ∧
      l.fillEnvelopes (env.withOrd o2) w' = (w2, .ok l2) ∧
      l2.accounts = l1.accounts ∧ List.Forall₂ SameButOrder l1.entries l2.entries ∧
      SameButLines (resolve w'.cwd l.filePath) w1 w2 := by
  obtain ⟨w2, l2, e1, e2, e3, _, e4⟩ := C82_fill_order env o1 o2 h1 h2 w' w1 l l1
    (loaded_inv _ _ _ _ _ _ hload) h
  refine ⟨w2, l2, ?_, e1, e2, e3, e4⟩
  exact (C53_loading env o1 o2 h1 h2 fuel w path (l, w')).1 hload

/-- Two accounts with an envelope each. -/
def twoFills : World := disk [("j",
  "account a\n  expense food due every 1st\n    amount 50\n    funding aggressive
account b\n  expense rent due every 1st\n    amount 40\n    funding aggressive
2024/01/02 * pay\n a 30\n b 20\n")]

/-- The file afterwards. -/
def filledText (env : Env) : Option Str := do
  let r ← (Ledger.fromFile env 9 twoFills s%"j" : Res (Ledger Rat × World)).toOption
  (r.1.fillEnvelopes env r.2).1.file [s%"h", s%"j"]

/-- The lines of the new entry really depend on the order. -/
example : filledText (stdEnv june15) ≠ none ∧
    filledText (stdEnv june15) ≠ filledText ((stdEnv june15).withOrd fun l => l.reverse) := by decide +kernel

example : FairOrder (fun l => l.reverse) := fun _ l => List.reverse_perm l

end Silverfox
