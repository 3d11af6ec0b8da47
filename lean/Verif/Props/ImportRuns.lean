import Verif.Props.Sessions
import Verif.Props.Import

/-
C103: a journal goes on loading, also after imports.
-/

namespace Silverfox

set_option linter.unusedSectionVars false
variable {M : Type} [Mag M]

/-! ### Specification -/

/-- Specification: the run is about this journal, or about none. -/
structure Run.About (path : Str) (r : Run) : Prop where
  inner : r.day.Inner
  fair : FairOrder r.ord
  about : ∀ f, Flags.parse r.args = .ok (some f) → f.file.or r.out.file = some path ∨ f.file.or r.out.file = none

/-- Specification: each run that imports succeeds, or changes no file; and the entries that the rules make of the records of its
table have the property `P`. The table is read after the envelopes have been filled. -/
def ImportsAre (P : Entry M → Prop) (env : Env) (path : Str) : List Run → World → Prop
  | [], _ => True
  | r :: rs, w => (∀ f, Flags.parse r.args = .ok (some f) → f.sub = .import_ →
      ((∃ out, (mainProgram M (r.env env) r.out r.args { w with cwd := r.cwd }).2 = .ok out) ∨
        (r.exec M env w).file = w.file ∧ (r.exec M env w).canAppend = w.canAppend) ∧
      ∀ (l : Ledger M) w1 csv rules recs, Ledger.fromFile (r.env env) r.out.fuel { w with cwd := r.cwd } path = .ok (l, w1) →
        f.csv = some csv →
        importerFromFile (r.env env) (if f.noMove then w1 else (l.fillEnvelopes (r.env env) w1).1) r.out.fuel csv f.rules =
          .ok (rules, recs) →
        ∀ rec ∈ recs, ∀ e : Entry M, rules.entry (r.env env) rec l.accountNames = .ok e → P e) ∧
      ImportsAre P env path rs (r.exec M env w)

/-- Specification: the same account up to money. -/
structure SameDeclared (p p' : Str × Account M) : Prop where
  key : p'.1 = p.1
  name : p'.2.name = p.2.name
  expenses : List.Forall₂ Envelope.SameButMoney p.2.expenses p'.2.expenses
  goals : List.Forall₂ Envelope.SameButMoney p.2.goals p'.2.goals

/-! ### Two ledgers that differ in the money of envelopes -/

theorem envSim_symm {e e' : Envelope M} (h : EnvSim (fun _ _ => True) e e') : EnvSim (fun _ _ => True) e' e := by
  obtain ⟨⟨h1, h2, _⟩, h3, h4, h5⟩ := h
  have hf := SameButMoney.fields h1
  refine ⟨⟨?_, h2.symm, trivial⟩, h4, h3, ?_⟩
  · cases e; cases e'
    unfold Envelope.SameButMoney at *
    simp_all
  · unfold Envelope.SafeSchedule at h5 ⊢; rw [hf.2.2.2.2.2.1]; exact h5

theorem forall₂_swap {α : Type} {P Q : α → α → Prop} (hpq : ∀ a b, P a b → Q b a) {xs ys : List α}
    (h : List.Forall₂ P xs ys) : List.Forall₂ Q ys xs := by
  induction h with
  | nil => exact .nil
  | cons hx _ ih => exact .cons (hpq _ _ hx) ih

theorem mapSim_symm {as as' : List (Str × Account M)} (h : List.Forall₂ (MapSim fun _ _ => True) as as') :
    List.Forall₂ (MapSim fun _ _ => True) as' as :=
  forall₂_swap (fun _ _ h => ⟨h.1.symm, h.2.name.symm, h.2.real.symm, forall₂_swap (fun _ _ => envSim_symm) h.2.expenses,
    forall₂_swap (fun _ _ => envSim_symm) h.2.goals⟩) h

/-- A posting of other amount, for example rounded. -/
abbrev Rescaled (q q' : EnvPosting M) : Prop := q'.account = q.account ∧ q'.envelope = q.envelope

theorem applyAmount_apart (d1 d2 date : Date) (a a' : Amount M) (e e' e1 e1' : Envelope M)
    (hs : EnvSim (fun _ _ => True) e e') (h : e.applyAmount d1 a date = .ok e1) (h' : e'.applyAmount d2 a' date = .ok e1') :
    EnvSim (fun _ _ => True) e1 e1' := by
  obtain ⟨⟨hsame, hlast, _⟩, hone, hone', hsafe⟩ := hs
  have k := applyAmount_keeps d1 e e1 a date h
  have k' := applyAmount_keeps d2 e' e1' a' date h'
  have kf := SameButMoney.fields k.1
  have kf' := SameButMoney.fields k'.1
  refine ⟨⟨?_, by rw [k'.2.2.2, k.2.2.2], trivial⟩, ?_, ?_, ?_⟩
  · have x1 := k.1
    have x2 := k'.1
    unfold Envelope.SameButMoney at *
    rw [x2, x1, hsame]
  · unfold Envelope.OneCurrency at hone ⊢; rw [k.2.1, k.2.2.1, kf.2.2.1]; exact hone
  · unfold Envelope.OneCurrency at hone' ⊢; rw [k'.2.1, k'.2.2.1, kf'.2.2.1]; exact hone'
  · unfold Envelope.SafeSchedule at hsafe ⊢; rw [kf.2.2.2.2.2.1]; exact hsafe

theorem processManual_apart (d1 d2 date : Date) (qs qs' : List (EnvPosting M)) (hq : List.Forall₂ Rescaled qs qs')
    (e e' e1 e1' : Envelope M) (hs : EnvSim (fun _ _ => True) e e')
    (h : Envelope.processManual d1 date qs e = .ok e1) (h' : Envelope.processManual d2 date qs' e' = .ok e1') :
    EnvSim (fun _ _ => True) e1 e1' := by
  induction hq generalizing e e' with
  | nil => cases h; cases h'; exact hs
  | @cons q q' qs qs' hx _ ih =>
    have hf := SameButMoney.fields hs.same.same
    unfold Envelope.processManual at h h'
    rw [hf.1, hf.2.1, hx.1, hx.2] at h'
    split at h
    · rename_i hc
      rw [if_pos hc] at h'
      simp only [bind, Except.bind] at h h'
      split at h
      · cases h
      · rename_i e2 he2
        split at h'
        · cases h'
        · rename_i e2' he2'
          exact ih e2 e2' (applyAmount_apart d1 d2 date _ _ e e' e2 e2' hs he2 he2') h h'
    · rename_i hc
      rw [if_neg hc] at h'
      exact ih e e' hs h h'

theorem processEnvelopes_apart (d1 d2 : Date) (x x' : Entry M) (qs qs' : List (EnvPosting M))
    (hq : List.Forall₂ Rescaled qs qs') (hx : MoveOf x qs) (hx' : MoveOf x' qs') (hd : x'.date = x.date)
    (es es' es1 es1' : List (Envelope M)) (hs : List.Forall₂ (EnvSim fun _ _ => True) es es')
    (h : Account.processEnvelopes d1 x es = .ok es1) (h' : Account.processEnvelopes d2 x' es' = .ok es1') :
    List.Forall₂ (EnvSim fun _ _ => True) es1 es1' := by
  obtain ⟨m1, m2⟩ := moveOf_has hx
  obtain ⟨m3, m4⟩ := moveOf_has hx'
  induction hs generalizing es1 es1' with
  | nil => cases h; cases h'; exact .nil
  | cons he _ ih =>
    simp only [Account.processEnvelopes, Envelope.processEntry, m1, m2, m3, m4, if_true, bind, Except.bind, pure,
      Except.pure] at h h'
    split at h
    · cases h
    · rename_i e1 he1
      split at h
      · cases h
      · rename_i es2 hes2
        split at h'
        · cases h'
        · rename_i e1' he1'
          split at h'
          · cases h'
          · rename_i es2' hes2'
            cases h
            cases h'
            exact .cons (processManual_apart d1 d2 x.date qs qs' hq _ _ _ _ he he1 (by rw [← hd]; exact he1')) (ih _ _ hes2 hes2')

theorem processAll_apart (d1 d2 : Date) (x x' : Entry M) (qs qs' : List (EnvPosting M))
    (hq : List.Forall₂ Rescaled qs qs') (hx : MoveOf x qs) (hx' : MoveOf x' qs') (hd : x'.date = x.date)
    (as as' as1 as1' : List (Str × Account M)) (hs : List.Forall₂ (MapSim fun _ _ => True) as as')
    (h : Ledger.processAll d1 x as = .ok as1) (h' : Ledger.processAll d2 x' as' = .ok as1') :
    List.Forall₂ (MapSim fun _ _ => True) as1 as1' := by
  induction hs generalizing as1 as1' with
  | nil => cases h; cases h'; exact .nil
  | @cons p p' ps ps' hp _ ih =>
    obtain ⟨k, a⟩ := p
    obtain ⟨k', a'⟩ := p'
    obtain ⟨hk, ha⟩ := hp
    simp only at hk ha
    simp only [Ledger.processAll, Account.processEntry, hx.2, hx'.2, processReal_move, bind, Except.bind, pure,
      Except.pure] at h h'
    cases h1 : Account.processEnvelopes d1 x a.expenses with
    | error f => rw [h1] at h; cases h
    | ok ex =>
    cases h2 : Account.processEnvelopes d1 x a.goals with
    | error f => rw [h1, h2] at h; cases h
    | ok go =>
    cases h3 : Account.processEnvelopes d2 x' a'.expenses with
    | error f => rw [h3] at h'; cases h'
    | ok ex' =>
    cases h4 : Account.processEnvelopes d2 x' a'.goals with
    | error f => rw [h3, h4] at h'; cases h'
    | ok go' =>
    rw [h1, h2] at h
    rw [h3, h4] at h'
    simp only at h h'
    split at h
    · cases h
    · rename_i as2 has2
      split at h'
      · cases h'
      · rename_i as2' has2'
        cases h
        cases h'
        exact .cons ⟨hk, ha.name, ha.real,
          processEnvelopes_apart d1 d2 x x' qs qs' hq hx hx' hd _ _ _ _ ha.expenses h1 h3,
          processEnvelopes_apart d1 d2 x x' qs qs' hq hx hx' hd _ _ _ _ ha.goals h2 h4⟩ (ih _ _ has2 has2')

/-! ### The state of the journal between runs -/

/-- The journal loads on every day, as `lb` but for the money in envelopes. -/
structure Loading (env : Env) (path : Str) (file0 : APath → Option Str) (l0 : Ledger M) (Q : Entry M → Prop) (w : World)
    (lb : Ledger M) : Prop where
  format : lb.dateFormat = l0.dateFormat
  clear : ClearNames lb
  added : ∃ added, (∀ m ∈ added, Q m) ∧ lb.entries.Perm (l0.entries ++ added)
  accounts : List.Forall₂ SameDeclared l0.accounts lb.accounts
  loads : ∀ d : Date, d.Inner → ∃ l, LoadsOn env d w path l ∧ LedSim (fun _ _ => True) file0 lb l

theorem SameDeclared.trans {p q r : Str × Account M} (h1 : SameDeclared p q) (h2 : SameDeclared q r) : SameDeclared p r :=
  ⟨h2.key.trans h1.key, h2.name.trans h1.name,
    forall₂_trans (P := Envelope.SameButMoney) (Q := Envelope.SameButMoney) (fun _ _ _ => sameButMoney_trans) h1.expenses h2.expenses,
    forall₂_trans (P := Envelope.SameButMoney) (Q := Envelope.SameButMoney) (fun _ _ _ => sameButMoney_trans) h1.goals h2.goals⟩

theorem sameDeclared_envelopes {l l' : Ledger M} (h : List.Forall₂ SameDeclared l.accounts l'.accounts) :
    ∀ e' ∈ l'.allEnvelopes, ∃ e ∈ l.allEnvelopes, e.SameButMoney e' := by
  intro e' he'
  obtain ⟨p', hp', he'⟩ := List.mem_flatMap.1 he'
  obtain ⟨p, hp, hs⟩ := forall₂_back h p' hp'
  rcases List.mem_append.1 he' with he' | he'
  · obtain ⟨e, he, h1⟩ := forall₂_back hs.expenses e' he'
    exact ⟨e, List.mem_flatMap.2 ⟨p, hp, List.mem_append_left _ he⟩, h1⟩
  · obtain ⟨e, he, h1⟩ := forall₂_back hs.goals e' he'
    exact ⟨e, List.mem_flatMap.2 ⟨p, hp, List.mem_append_right _ he⟩, h1⟩

theorem processAll_declared (d : Date) (x : Entry M) (as as' : List (Str × Account M))
    (h : Ledger.processAll d x as = .ok as') : List.Forall₂ SameDeclared as as' := by
  induction as generalizing as' with
  | nil => cases h; exact .nil
  | cons p as ih =>
    obtain ⟨k, a⟩ := p
    simp only [Ledger.processAll, Account.processEntry, bind, Except.bind, pure, Except.pure] at h
    cases h1 : Account.processEnvelopes d x a.expenses with
    | error f => rw [h1] at h; cases h
    | ok ex =>
    cases h2 : Account.processEnvelopes d x a.goals with
    | error f => rw [h1, h2] at h; cases h
    | ok go =>
    rw [h1, h2] at h
    simp only at h
    split at h
    · cases h
    · rename_i a1 ha1
      split at ha1
      · cases ha1
      · cases ha1
        split at h
        · cases h
        · rename_i as2 has2
          cases h
          have key : ∀ es es', Account.processEnvelopes d x es = .ok es' → List.Forall₂ Envelope.SameButMoney es es' :=
            fun es es' h => forall₂_imp (fun _ _ h => (processEntry_keeps d _ _ x h).1) (processEnvelopes_forall₂ d x es es' h)
          exact .cons ⟨rfl, rfl, key _ _ h1, key _ _ h2⟩ (ih _ has2)

theorem clearNames_declared {l l' : Ledger M} (h : List.Forall₂ SameDeclared l.accounts l'.accounts) (hc : ClearNames l) :
    ClearNames l' := by
  intro e he1 e' he1'
  obtain ⟨a, ha, hs1⟩ := sameDeclared_envelopes h e he1
  obtain ⟨b, hb, hs2⟩ := sameDeclared_envelopes h e' he1'
  have f1 := SameButMoney.fields hs1
  have f2 := SameButMoney.fields hs2
  rw [f1.2.1, f2.2.1, f1.1, f2.1, f1.2.2.1, f2.2.2.1]
  exact hc a ha b hb

theorem ledSim_names {R : M × M → M × M → Prop} {file : APath → Option Str} {l l' : Ledger M} (h : LedSim R file l l') :
    l'.accountNames = l.accountNames := mapSim_names _ _ h.accounts

/-- Appending the text of an entry that can be read back. -/
theorem Loading.append {env : Env} (hord : FairOrder env.ord) {path : Str} (hp : path.head? = some '/')
    {file0 : APath → Option Str} {d0 : Date} {l0 lb lb1 : Ledger M} {Q : Entry M → Prop} {w : World}
    (hg : Loading env path file0 l0 Q w lb) (x : Entry M) (hQ : Q x.rounded) (ds text s : Str)
    (hw : x.Writable env lb.dateFormat ds) (hd : ds ∉ keywords) (hv : x.validate = .ok ())
    (hacc : ∀ p ∈ x.postings, p.isEnvelope = false → p.account ∈ lb.accountNames)
    (ht : x.asParsable env lb.dateFormat = .ok text)
    (hadd : lb.addEntry (env.on d0) x.rounded = .ok lb1) (w2 : World)
    (hs : w.file (resolve w.cwd path) = some s)
    (hself : w2.file (resolve w.cwd path) = some (s ++ '\n' :: text))
    (hother : ∀ p, p ≠ resolve w.cwd path → w2.file p = w.file p) (hc2 : w2.canAppend = w.canAppend) :
    Loading env path file0 l0 Q w2 lb1 := by
  obtain ⟨accs, h1, h2, _⟩ := addEntry_ok _ _ _ _ hadd
  have hdecl := processAll_declared _ _ _ _ h1
  have hdecl' : List.Forall₂ SameDeclared lb.accounts lb1.accounts := by rw [h2]; exact hdecl
  obtain ⟨added, ha1, ha2⟩ := hg.added
  refine ⟨by rw [h2]; exact hg.format, clearNames_declared hdecl' hg.clear, ⟨added ++ [x.rounded], ?_, ?_⟩,
    forall₂_trans (P := SameDeclared) (Q := SameDeclared) (fun _ _ _ => SameDeclared.trans) hg.accounts hdecl', ?_⟩
  · intro m hm
    rcases List.mem_append.1 hm with hm | hm
    · exact ha1 m hm
    · rw [List.mem_singleton.1 hm]; exact hQ
  · rw [h2]
    refine (stableSort_perm _ _).trans ?_
    rw [← List.append_assoc]
    exact ha2.append_right _
  · intro d hdi
    obtain ⟨ld, ⟨fd, cd, hld⟩, hsd⟩ := hg.loads d hdi
    have hw' : x.Writable (env.on d) ld.dateFormat ds := by
      rw [hsd.format]
      exact ⟨hw.1, hw.2, hw.3, hw.4, hw.5, hw.6, hw.7⟩
    have ht' : x.asParsable (env.on d) ld.dateFormat = .ok text := by
      rw [hsd.format, ← ht]
      rfl
    have := append_reload_any (env.on d) fd w _ w2 path ld x ds text s hld hw' hd hv
      (by rw [ledSim_names hsd]; exact hacc) ht' hs hself hother hc2
    obtain ⟨ld1, h8, h9⟩ := addEntry_sim env hord d0 d (anyPassage d0 d hdi) file0 x.rounded lb ld _ hsd hadd
    rw [h8] at this
    refine ⟨ld1, ⟨fd, cd, ?_⟩, h9⟩
    rw [fromFile_cwd _ _ _ _ _ hp] at this
    exact this

theorem Loading.same {env : Env} {path : Str} (hp : path.head? = some '/') {file0 : APath → Option Str}
    {l0 lb : Ledger M} {Q : Entry M → Prop} {w : World} (hg : Loading env path file0 l0 Q w lb) (w' : World)
    (h1 : w'.file = w.file) (h2 : w'.canAppend = w.canAppend) : Loading env path file0 l0 Q w' lb := by
  refine ⟨hg.format, hg.clear, hg.added, hg.accounts, fun d hd => ?_⟩
  obtain ⟨l, h3, h4⟩ := hg.loads d hd
  have : w' = { w with cwd := w'.cwd } := by rw [← h1, ← h2]
  rw [this]
  exact ⟨l, h3.elsewhere hp _, h4⟩

/-- What filling does to the files and the ledger. -/
theorem fillEnvelopes_both (env : Env) (hord : FairOrder env.ord) (w : World) (l : Ledger M) :
    (l.fillEnvelopes env w).1 = w ∧ (∀ l', (l.fillEnvelopes env w).2 = .ok l' → l' = l) ∨
    ∃ (fs : List (EnvPosting M)) (text s : Str), fs ≠ [] ∧
      (∀ q ∈ fs, Mag.eq q.amount.mag (Mag.zero : M) = false ∧
        ∃ k a qs, (k, a) ∈ l.accounts ∧ a.fillingPostings env.today = .ok qs ∧ q ∈ qs) ∧
      (Ledger.fillEntry env.today fs).asParsable env l.dateFormat = .ok text ∧
      w.file (resolve w.cwd l.filePath) = some s ∧
      (l.fillEnvelopes env w).1 = w.write (resolve w.cwd l.filePath) (s ++ '\n' :: text) ∧
      (l.fillEnvelopes env w).2 = l.addEntry env (Ledger.fillEntry env.today fs) := by
  unfold Ledger.fillEnvelopes
  split
  · exact .inl ⟨rfl, by rintro l' ⟨⟩⟩
  · rename_i ps hps
    obtain ⟨_, h2⟩ := fillAll_ok _ _ _ hps
    simp only
    split
    · exact .inl ⟨rfl, by rintro l' h; cases h; rfl⟩
    · rename_i hne
      unfold Ledger.appendEntry
      split
      · exact .inl ⟨rfl, by rintro l' ⟨⟩⟩
      · split
        · exact .inl ⟨rfl, by rintro l' ⟨⟩⟩
        · rename_i text ht
          split
          · exact .inl ⟨rfl, by rintro l' ⟨⟩⟩
          · rename_i w2 hw2
            right
            unfold World.append at hw2
            simp only at hw2
            split at hw2
            · split at hw2
              · rename_i s hs
                refine ⟨_, text, s, by simpa using hne, ?_, ht, hs, (Option.some.inj hw2).symm, rfl⟩
                intro q hq
                rw [List.mem_filter] at hq
                obtain ⟨k, a, qs, h7, h8, h9⟩ := h2 q hq.1
                exact ⟨by simpa using hq.2, k, a, qs, (hord _ l.accounts).mem_iff.1 h7, h8, h9⟩
              · cases hw2
            · cases hw2

/-- The ledger of a run is that of its day. -/
theorem run_ledger (env : Env) (hord : FairOrder env.ord) (path : Str) (hp : path.head? = some '/') (w w1 : World) (r : Run)
    (hr : FairOrder r.ord) (l l' : Ledger M)
    (hl : Ledger.fromFile (r.env env) r.out.fuel { w with cwd := r.cwd } path = .ok (l, w1)) (hl' : LoadsOn env r.day w path l') :
    l' = l := by
  obtain ⟨fuel', cwd', hl'⟩ := hl'
  have h3 : Ledger.fromFile (env.on r.day) r.out.fuel { w with cwd := r.cwd } path = .ok (l, w1) :=
    (C53_loading (env.on r.day) r.ord env.ord hr hord _ _ _ _).1 hl
  rw [fromFile_cwd _ _ _ _ _ hp] at h3
  exact congrArg Prod.fst (fromFile_unique _ _ _ _ _ _ _ hl' h3)

theorem Loading.filled {env : Env} (hord : FairOrder env.ord) {path : Str} (hp : path.head? = some '/')
    {file0 : APath → Option Str} {d0 : Date} (hd0 : d0.Inner) {l0 lb : Ledger M} {Q : Entry M → Prop} {w : World}
    (hg : Loading env path file0 l0 Q w lb) (r : Run) (hr : r.About path)
    (hQ : ∀ m : Entry M, IsMove [r.day] m → Q m) (hwd : WritableDay env l0.dateFormat r.day)
    (l : Ledger M) (w1 : World) (hl : Ledger.fromFile (r.env env) r.out.fuel { w with cwd := r.cwd } path = .ok (l, w1))
    (hfill : ∀ k a qs, (k, a) ∈ l.accounts → a.fillingPostings r.day = .ok qs → ∀ q ∈ qs,
        Mag.eq q.amount.mag (Mag.zero : M) = false → Printable q.amount) :
    ∃ lb', Loading env path file0 l0 Q (l.fillEnvelopes (r.env env) w1).1 lb' ∧
      ∀ lm, (l.fillEnvelopes (r.env env) w1).2 = .ok lm → List.Forall₂ (MapSim fun _ _ => True) lm.accounts lb'.accounts ∧
        lm.dateFormat = l.dateFormat ∧ lm.filePath = path ∧ lm.accountNames = l.accountNames := by
  obtain ⟨⟨is, hsteps⟩, hfile, hcan⟩ := fromFile_sound _ _ _ _ _ _ hl
  have hpath : l.filePath = path := hsteps.filePath.1
  obtain ⟨l', hl', hsim⟩ := hg.loads r.day hr.inner
  obtain rfl := run_ledger env hord path hp w w1 r hr.fair l l' hl hl'
  rcases fillEnvelopes_both (r.env env) hr.fair w1 l' with ⟨h1, h1'⟩ | ⟨fs, text, s, hne, hfs, ht, hs, hw2, hl2⟩
  · refine ⟨lb, hg.same hp _ (by rw [h1]; exact hfile) (by rw [h1]; exact hcan), fun lm hlm => ?_⟩
    rw [h1' lm hlm]
    exact ⟨mapSim_symm hsim.accounts, rfl, hpath, rfl⟩
  have hplain := loaded_plain _ _ _ _ _ _ hl
  have hq : ∀ q ∈ fs, (Posting.envelope q).Writable ∧ ∃ e ∈ lb.allEnvelopes, q.account = e.account ∧
      q.envelope = e.name ∧ q.amount.sym = e.amount.sym := by
    intro q hq
    obtain ⟨hz, k, a, qs, hka, hqs, hqq⟩ := hfs q hq
    obtain ⟨e, hem, h3, h4, h5⟩ := fillingPostings_of _ a qs hqs q hqq
    obtain ⟨hn1, hn2⟩ := hplain.named k a hka
    obtain ⟨h6, h7⟩ := hn2 e hem
    refine ⟨⟨by rw [h3, h7]; exact hn1, by rw [h4]; exact h6, hfill k a qs hka hqs q hqq hz⟩, ?_⟩
    obtain ⟨e0, he0, hs0⟩ := (ledSim_envelopes hsim).1 e (List.mem_flatMap.2 ⟨(k, a), hka, hem⟩)
    have hf := SameButMoney.fields hs0.same.same
    exact ⟨e0, he0, by rw [h3, hf.2.1], by rw [h4, hf.1], by rw [h5, hf.2.2.1]⟩
  generalize hx : Ledger.fillEntry r.day fs = x
  have hx' : Ledger.fillEntry (r.env env).today fs = x := hx
  have hmade0 : MoveOf x fs := ⟨hne, by rw [← hx]; rfl⟩
  have hmade : MoveOf x.rounded (fs.map fun q => ⟨q.account, q.envelope, q.amount.rounded⟩) := by
    refine ⟨by simpa using hne, ?_⟩
    rw [← hx]
    show (fs.map Posting.envelope).map Posting.rounded = _
    rw [List.map_map, List.map_map]
    rfl
  obtain ⟨accs, hadd, hout⟩ := addEntry_move (env.on d0) hord hd0 lb x.rounded _ hmade (by
    intro e hel
    obtain ⟨e', hs'⟩ := (ledSim_envelopes hsim).2 e hel
    refine ⟨hs'.one, hs'.safe, fun q hq' ha hn => ?_⟩
    obtain ⟨q0, hq0, rfl⟩ := List.mem_map.1 hq'
    obtain ⟨_, e0, he0, h3, h4, h5⟩ := hq q0 hq0
    show q0.amount.sym = _
    rw [h5]
    exact hg.clear e0 he0 e hel (h3.symm.trans ha) (h4.symm.trans hn))
  have hP : resolve w1.cwd l'.filePath = resolve w.cwd path := by rw [hpath]; exact absolute_anywhere path hp _ _
  rw [hP] at hs hw2
  obtain ⟨ds, hd1, hd2, hd3, hd4⟩ := hwd
  have hmove : IsMove [r.day] x.rounded := by
    refine ⟨by rw [← hx]; exact List.mem_singleton.2 rfl, by rw [← hx]; rfl, by rw [← hx]; rfl, fun p hp => ?_⟩
    rw [hmade.2] at hp
    obtain ⟨q, _, rfl⟩ := List.mem_map.1 hp
    exact ⟨q, rfl⟩
  refine ⟨_, hg.append hord hp x (hQ _ hmove) ds text s ?_ hd4 (by rw [← hx]; exact fillEntry_validate _ _) ?_ ?_ hadd _
    (by rw [← hfile]; exact hs)
    (by rw [hw2]; show (if _ then _ else _) = _; rw [if_pos rfl])
    (by intro p hp'; rw [hw2]; show (if p = _ then _ else w1.file p) = _; rw [if_neg hp', hfile])
    (by rw [hw2]; exact hcan), ?_⟩
  · rw [hg.format, ← hx]
    refine ⟨hd1, hd3, hd2, ⟨⟨[s%"move", s%"to", s%"envelopes"], by decide, rfl⟩,
        (by decide : NoComment s%"move to envelopes"), (by decide : '[' ∉ s%"move to envelopes")⟩,
        by rintro p ⟨⟩, ?_, ?_⟩
    · intro c hc
      have : some s%"automatically generated by silverfox" = some c := hc
      cases this
      decide
    · intro p hp
      obtain ⟨q, hqm, rfl⟩ := List.mem_map.1 hp
      exact (hq q hqm).1
  · intro p hp he'
    rw [← hx] at hp
    obtain ⟨q, _, rfl⟩ := List.mem_map.1 hp
    cases he'
  · rw [← hsim.format, ← ht, hx']
    rfl
  · intro lm hlm
    rw [hl2, hx'] at hlm
    obtain ⟨accs1, k1, k2, _⟩ := addEntry_ok _ _ _ _ hlm
    obtain ⟨accs2, k3, k4, _⟩ := addEntry_ok _ _ _ _ hadd
    have : accs2 = accs := (congrArg Ledger.accounts k4).symm
    subst this
    obtain ⟨g1, g2, _, g4, _⟩ := addEntry_frame _ _ _ _ hlm
    refine ⟨?_, g2, g1.trans hpath, g4⟩
    rw [k2]
    refine processAll_apart r.day d0 x x.rounded fs _ ?_ hmade0 hmade rfl _ _ _ _ (mapSim_symm hsim.accounts) k1 k3
    clear hfs hne hmade hmade0 hq hx hx' ht hl2
    induction fs with
    | nil => exact .nil
    | cons q fs ih => exact .cons ⟨rfl, rfl⟩ ih

/-- The property `Keeps` is the same on every day. -/
theorem keeps_run (env : Env) (r : Run) (known : List Str) (fmt : Str) (e : Entry M) (h : Keeps env known fmt e) :
    (∃ d, e.Writable env fmt d ∧ d ∉ keywords) ∧ Keeps (r.env env) known fmt e := by
  obtain ⟨⟨d, h1, h2⟩, h3⟩ := h
  exact ⟨⟨d, h1, h2⟩, ⟨d, ⟨h1.1, h1.2, h1.3, h1.4, h1.5, h1.6, h1.7⟩, h2⟩, h3⟩

theorem Loading.imported {env : Env} (hord : FairOrder env.ord) {path : Str} (hp : path.head? = some '/')
    {file0 : APath → Option Str} {d0 : Date} (hd0 : d0.Inner) {l0 : Ledger M} {Q : Entry M → Prop}
    (r : Run) (rules : Rules) (known : List Str) (hk0 : known = l0.accountNames) :
    ∀ (recs : List (List Str)) (w w' : World) (lb lm lm' : Ledger M), Loading env path file0 l0 Q w lb →
    List.Forall₂ (MapSim fun _ _ => True) lm.accounts lb.accounts → lm.dateFormat = lb.dateFormat → lm.filePath = path →
    (∀ rec ∈ recs, ∀ e : Entry M, rules.entry (r.env env) rec known = .ok e → Keeps env known l0.dateFormat e ∧ Q e.bare) →
    Ledger.importLoop (r.env env) rules known recs w lm = (w', .ok lm') →
    ∃ lb', Loading env path file0 l0 Q w' lb'
  | [], w, w', lb, lm, lm', hg, _, _, _, _, h => by
    simp only [Ledger.importLoop, Prod.mk.injEq, Except.ok.injEq] at h
    obtain ⟨rfl, rfl⟩ := h
    exact ⟨lb, hg⟩
  | rec :: recs, w, w', lb, lm, lm', hg, hs, hf, hpath, hkeeps, h => by
    simp only [Ledger.importLoop] at h
    split at h
    · cases h
    · rename_i e he
      split at h
      · cases h
      · rename_i w1 lm1 hap
        obtain ⟨⟨⟨d, hw, hd⟩, hr, hv, hacc⟩, hQ⟩ := hkeeps rec (by simp) e he
        rcases appendEntry_cases _ w lm e w1 _ hap with ⟨_, hx, _⟩ | ⟨t, ht, ⟨c1, c2, c3, c4⟩, hadd⟩
        · cases hx
        have hadd := hadd.symm
        obtain ⟨g1, g2, _, g4, _⟩ := addEntry_frame _ _ _ _ hadd
        obtain ⟨accs, k1, k2, _⟩ := addEntry_ok _ _ _ _ hadd
        -- the same entry is taken in by the journal as loaded
        obtain ⟨accs', k3, k4⟩ := processAll_sim r.day d0 (anyPassage r.day d0 hd0) e _ _ hs accs k1
        have k5 : Ledger.processAll d0 e.rounded lb.accounts = .ok accs' := by rw [hr, processAll_bare]; exact k3
        have k6 : ∃ y, Ledger.processAll d0 e.rounded (env.ord lb.accounts) = .ok y := by
          have h5 := (processAll_exists d0 e.rounded lb.accounts).1 ⟨_, k5⟩
          rw [processAll_exists]
          intro p hp
          exact h5 p ((hord _ lb.accounts).mem_iff.1 hp)
        obtain ⟨y, hy⟩ := k6
        have hadd' : lb.addEntry (env.on d0) e.rounded = .ok { lb with accounts := accs', entries := stableSort (fun a b => Date.lt a.date b.date) (lb.entries ++ [e.rounded]) } := by
          unfold Ledger.addEntry
          show (Ledger.processAll d0 e.rounded (env.ord lb.accounts) >>= _) = _
          rw [hy]
          show (Ledger.processAll d0 e.rounded lb.accounts >>= _) = _
          rw [k5]
          rfl
        rw [hpath] at c3 c4
        have hnames : lb.accountNames = l0.accountNames := by
          have : ∀ {as as' : List (Str × Account M)}, List.Forall₂ SameDeclared as as' → as'.map Prod.fst = as.map Prod.fst := by
            intro as as' h
            induction h with
            | nil => rfl
            | cons hx _ ih => simp [hx.key, ih]
          exact this hg.accounts
        cases hs0 : w.file (resolve w.cwd path) with
        | none =>
          -- the journal could not have been loaded
          obtain ⟨ld, ⟨fd, cd, hld⟩, _⟩ := hg.loads d0 hd0
          exfalso
          cases fd with
          | zero => cases hld
          | succ f =>
            simp only [Ledger.fromFile, Ledger.addFromFile] at hld
            have : w.read path = none := by unfold World.read; rw [hs0]; split <;> rfl
            rw [this] at hld
            cases hld
        | some s =>
          rw [hs0] at c3
          have hg1 := hg.append hord hp e (by rw [hr]; exact hQ) d t s (by rw [hg.format]; exact hw) hd hv
            (by rw [hnames, ← hk0]; exact hacc) (by rw [← ht, hf]; rfl) hadd' w1 hs0 (by rw [c3]; simp) c4 c2
          refine Loading.imported hord hp hd0 r rules known hk0 recs w1 w' _ lm1 lm' hg1 ?_ ?_ (g1.trans hpath)
            (fun r' hr' => hkeeps r' (by simp [hr'])) h
          · rw [k2]; exact k4
          · exact g2.trans hf

/-! ### Whole sessions -/

/-- What a run does to the files. -/
theorem exec_cases (env : Env) (path : Str) (r : Run) (hr : r.About path) (w : World) :
    (r.exec M env w).file = w.file ∧ (r.exec M env w).canAppend = w.canAppend ∨
    ∃ (l : Ledger M) (w1 : World), Ledger.fromFile (r.env env) r.out.fuel { w with cwd := r.cwd } path = .ok (l, w1) ∧
      (r.exec M env w = (l.fillEnvelopes (r.env env) w1).1 ∨
       ∃ f csv w2 lm, Flags.parse r.args = .ok (some f) ∧ f.sub = .import_ ∧ f.csv = some csv ∧
        (f.noMove = true ∧ w2 = w1 ∧ lm = l ∨ f.noMove = false ∧ l.fillEnvelopes (r.env env) w1 = (w2, .ok lm)) ∧
        r.exec M env w = (lm.importCsv (r.env env) r.out.fuel w2 csv f.rules).1 ∧
        ((∃ out, (mainProgram M (r.env env) r.out r.args { w with cwd := r.cwd }).2 = .ok out) →
          ∃ lm', (lm.importCsv (r.env env) r.out.fuel w2 csv f.rules).2 = .ok lm')) := by
  unfold Run.exec mainProgram
  split
  · exact .inl ⟨rfl, rfl⟩
  · exact .inl ⟨rfl, rfl⟩
  · rename_i f hf
    have h2 := hr.about f hf
    unfold execute
    split
    · exact .inl ⟨rfl, rfl⟩
    · rename_i p hp
      have : p = path := by
        rcases h2 with h2 | h2 <;> rw [h2] at hp
        · exact (Option.some.inj hp).symm
        · cases hp
      subst this
      split
      · exact .inl ⟨rfl, rfl⟩
      · rename_i l w1 hl
        obtain ⟨_, h3, h4⟩ := fromFile_sound _ _ _ _ _ _ hl
        have key : ∀ w2 (lm : Ledger M), (f.noMove = true ∧ w2 = w1 ∧ lm = l ∨ f.noMove = false ∧ l.fillEnvelopes (r.env env) w1 = (w2, .ok lm)) →
            (runSub (r.env env) r.out f w2 lm).1 = w2 ∨
            ∃ csv, f.sub = .import_ ∧ f.csv = some csv ∧
              (runSub (r.env env) r.out f w2 lm).1 = (lm.importCsv (r.env env) r.out.fuel w2 csv f.rules).1 ∧
              ((∃ out, (runSub (r.env env) r.out f w2 lm).2 = .ok out) →
                ∃ lm', (lm.importCsv (r.env env) r.out.fuel w2 csv f.rules).2 = .ok lm') := by
          intro w2 lm _
          by_cases hsub : f.sub = .import_
          · unfold runSub
            simp only [hsub]
            cases hc : f.csv with
            | none => exact .inl rfl
            | some c =>
              right
              refine ⟨c, trivial, rfl, ?_, ?_⟩
              · simp only; split <;> simp_all
              · simp only
                split
                · rename_i l' hl'; intro _; exact ⟨l', by rw [hl']⟩
                · rintro ⟨out, ⟨⟩⟩
          · exact .inl (runSub_world _ _ _ _ _ hsub)
        split
        · rename_i hm
          rcases key w1 l (.inl ⟨hm, rfl, rfl⟩) with h5 | ⟨csv, h5, h6, h7, h8⟩
          · left; rw [h5]; exact ⟨h3, h4⟩
          · right
            exact ⟨l, w1, hl, .inr ⟨f, csv, w1, l, hf, h5, h6, .inl ⟨hm, rfl, rfl⟩, h7, h8⟩⟩
        · rename_i hm
          have hm' : f.noMove = false := by simpa using hm
          split
          · rename_i w2 x hx
            right
            exact ⟨l, w1, hl, .inl (by rw [hx])⟩
          · rename_i w2 lm hx
            rcases key w2 lm (.inr ⟨hm', hx⟩) with h5 | ⟨csv, h5, h6, h7, h8⟩
            · right
              exact ⟨l, w1, hl, .inl (by rw [h5, hx])⟩
            · right
              exact ⟨l, w1, hl, .inr ⟨f, csv, w2, lm, hf, h5, h6, .inr ⟨hm', hx⟩, h7, h8⟩⟩

theorem Loading.symbols {env : Env} (hord : FairOrder env.ord) {path : Str} (hp : path.head? = some '/')
    {file0 : APath → Option Str} {l0 lb : Ledger M} {Q : Entry M → Prop} {w w1 : World}
    (hg : Loading env path file0 l0 Q w lb) (r : Run) (hr : r.About path) (l : Ledger M)
    (hl : Ledger.fromFile (r.env env) r.out.fuel { w with cwd := r.cwd } path = .ok (l, w1)) :
    (∀ e ∈ l.allEnvelopes, ∃ e0 ∈ l0.allEnvelopes, e0.SameButMoney e) ∧ l.accountNames = l0.accountNames ∧
    l.dateFormat = l0.dateFormat ∧ l.dateFormat = lb.dateFormat := by
  obtain ⟨l', hl', hsim⟩ := hg.loads r.day hr.inner
  obtain rfl := run_ledger env hord path hp w w1 r hr.fair l l' hl hl'
  refine ⟨?_, ?_, by rw [hsim.format, hg.format], hsim.format⟩
  · intro e he
    obtain ⟨e1, he1, hs1⟩ := (ledSim_envelopes hsim).1 e he
    obtain ⟨e0, he0, hs0⟩ := sameDeclared_envelopes hg.accounts e1 he1
    exact ⟨e0, he0, sameButMoney_trans hs0 hs1.same.same⟩
  · rw [ledSim_names hsim]
    have : ∀ {as as' : List (Str × Account M)}, List.Forall₂ SameDeclared as as' → as'.map Prod.fst = as.map Prod.fst := by
      intro as as' h
      induction h with
      | nil => rfl
      | cons hx _ ih => simp [hx.key, ih]
    exact this hg.accounts

theorem loading_step (env : Env) (hord : FairOrder env.ord) (path : Str) (hp : path.head? = some '/')
    (file0 : APath → Option Str) (d0 : Date) (hd0 : d0.Inner) (l0 : Ledger M) (hsym : PlainSymbols l0)
    (Q P : Entry M → Prop) (hP : ∀ e, P e → Keeps env l0.accountNames l0.dateFormat e ∧ Q e.bare) (w : World)
    (lb : Ledger M) (hg : Loading env path file0 l0 Q w lb) (r : Run) (rs : List Run) (hr : r.About path)
    (hQ : ∀ m : Entry M, IsMove [r.day] m → Q m)
    (hwd : WritableDay env l0.dateFormat r.day)
    (hf : FillsAre (fun a : Amount M => FmtOk (round8 a.mag)) env path (r :: rs) w)
    (hi : ImportsAre P env path (r :: rs) w) :
    ∃ lb', Loading env path file0 l0 Q (r.exec M env w) lb' := by
  rcases exec_cases (M := M) env path r hr w with ⟨h1, h2⟩ | ⟨l, w1, hl, h⟩
  · exact ⟨lb, hg.same hp _ h1 h2⟩
  obtain ⟨hs1, hs2, hs3, hs4⟩ := hg.symbols hord hp r hr l hl
  obtain ⟨_, hfile, hcan⟩ := fromFile_sound _ _ _ _ _ _ hl
  have hpath : l.filePath = path := (fromFile_sound _ _ _ _ _ _ hl).1.choose_spec.filePath.1
  obtain ⟨lb1, hg1, hm1⟩ := hg.filled hord hp hd0 r hr hQ hwd l w1 hl (by
    intro k a qs hka hqs q hq hz
    obtain ⟨e, he, _, _, h4⟩ := fillingPostings_of _ a qs hqs q hq
    obtain ⟨e0, he0, hs0⟩ := hs1 e (List.mem_flatMap.2 ⟨(k, a), hka, he⟩)
    refine ⟨hf.1 l w1 hl k a qs hka hqs q hq hz, fun s hs => ?_⟩
    obtain ⟨h5, h6, h7⟩ := hsym e0 he0 s (by rw [← (SameButMoney.fields hs0).2.2.1, ← h4]; exact hs)
    exact ⟨h5, h6, isOp_false h7⟩)
  rcases h with h | ⟨f, csv, w2, lm, h1, h2, h3, h4, h5, h6⟩
  · rw [h]; exact ⟨lb1, hg1⟩
  obtain ⟨h7, h8⟩ := hi.1 f h1 h2
  rcases h7 with h7 | ⟨h7, h7'⟩
  swap
  · exact ⟨lb, hg.same hp _ h7 h7'⟩
  obtain ⟨lm', hlm'⟩ := h6 h7
  -- the state in which the records are read
  obtain ⟨lb2, hg2, a1, a2, a3, a4, a5⟩ : ∃ lb2, Loading env path file0 l0 Q w2 lb2 ∧
      List.Forall₂ (MapSim fun _ _ => True) lm.accounts lb2.accounts ∧ lm.dateFormat = lb2.dateFormat ∧ lm.filePath = path ∧
      lm.accountNames = l.accountNames ∧ w2 = (if f.noMove then w1 else (l.fillEnvelopes (r.env env) w1).1) := by
    rcases h4 with ⟨hm, rfl, rfl⟩ | ⟨hm, hx⟩
    · obtain ⟨l', hl', hsim⟩ := hg.loads r.day hr.inner
      obtain rfl := run_ledger env hord path hp w w2 r hr.fair lm l' hl hl'
      exact ⟨lb, hg.same hp _ hfile hcan, mapSim_symm hsim.accounts, hsim.format, hpath, rfl, by rw [hm]; rfl⟩
    · rw [hx] at hg1 hm1
      obtain ⟨b1, b2, b3, b4⟩ := hm1 lm rfl
      exact ⟨lb1, hg1, b1, by rw [b2, hs3, hg1.format], b3, b4, by rw [hm, hx]; rfl⟩
  rw [h5]
  unfold Ledger.importCsv at hlm' ⊢
  cases hrec : importerFromFile (r.env env) w2 r.out.fuel csv f.rules with
  | error x => rw [hrec] at hlm'; cases hlm'
  | ok rr =>
    obtain ⟨rules, recs⟩ := rr
    rw [hrec] at hlm'
    simp only at hlm' ⊢
    have hloop : Ledger.importLoop (r.env env) rules lm.accountNames recs w2 lm =
        ((Ledger.importLoop (r.env env) rules lm.accountNames recs w2 lm).1, .ok lm') := by rw [← hlm']
    refine Loading.imported hord hp hd0 r rules lm.accountNames (a4.trans hs2) recs w2 _ lb2 lm lm' hg2 a1 a2 a3 ?_ hloop
    intro rec hrec' e he
    rw [a4] at he ⊢
    rw [hs2]
    exact hP e (h8 l w1 csv rules recs hl h3 (by rw [← a5]; exact hrec) rec hrec' e he)

theorem loading_runs (env : Env) (hord : FairOrder env.ord) (path : Str) (hp : path.head? = some '/')
    (file0 : APath → Option Str) (d0 : Date) (hd0 : d0.Inner) (l0 : Ledger M) (hsym : PlainSymbols l0)
    (Q P : Entry M → Prop) (hP : ∀ e, P e → Keeps env l0.accountNames l0.dateFormat e ∧ Q e.bare) (runs : List Run) :
    ∀ (w : World) (lb : Ledger M), Loading env path file0 l0 Q w lb →
    (∀ r ∈ runs, r.About path ∧ WritableDay env l0.dateFormat r.day ∧ ∀ m : Entry M, IsMove [r.day] m → Q m) →
    FillsAre (fun a : Amount M => FmtOk (round8 a.mag)) env path runs w → ImportsAre P env path runs w →
    ∃ lb', Loading env path file0 l0 Q (afterRuns M env runs w) lb' := by
  induction runs with
  | nil => intro w lb hg _ _ _; exact ⟨lb, hg⟩
  | cons r rs ih =>
    intro w lb hg hr hf hi
    obtain ⟨h1, h2, h3⟩ := hr r (by simp)
    obtain ⟨lb', hg'⟩ := loading_step env hord path hp file0 d0 hd0 l0 hsym Q P hP w lb hg r rs h1 h3 h2 hf hi
    exact ih _ lb' hg' (fun r hr' => hr r (by simp [hr'])) hf.2 hi.2

theorem goes_on_importing (env : Env) (hord : FairOrder env.ord) (path : Str) (hp : path.head? = some '/') (w : World)
    (hsafe : SafeFiles M env w.file) (d0 : Date) (hd0 : d0.Inner) (l0 : Ledger M) (hload : LoadsOn env d0 w path l0)
    (hclear : ClearNames l0) (hsym : PlainSymbols l0) (runs : List Run)
    (hr : ∀ r ∈ runs, r.About path ∧ WritableDay env l0.dateFormat r.day)
    (P : Entry M → Prop) (hP : ∀ e, P e → Keeps env l0.accountNames l0.dateFormat e)
    (hf : FillsAre (fun a : Amount M => FmtOk (round8 a.mag)) env path runs w) (hi : ImportsAre P env path runs w) :
    ∃ added : List (Entry M), (∀ m ∈ added, IsMove (runs.map Run.day) m ∨ ∃ e, P e ∧ m = e.bare) ∧
      ∀ d : Date, d.Inner → ∃ l, LoadsOn env d (afterRuns M env runs w) path l ∧ l.entries.Perm (l0.entries ++ added) ∧
        List.Forall₂ SameDeclared l0.accounts l.accounts := by
  have hg : Loading env path w.file l0 (fun m => IsMove (runs.map Run.day) m ∨ ∃ e, P e ∧ m = e.bare) w l0 := by
    refine ⟨rfl, hclear, ⟨[], (by intro m hm; cases hm), by simp⟩, forall₂_self _ fun p _ => ⟨rfl, rfl,
      forall₂_self _ fun e _ => rfl, forall₂_self _ fun e _ => rfl⟩, fun d hd => ?_⟩
    obtain ⟨fuel, cwd, h⟩ := hload
    obtain ⟨l, ⟨f, h1⟩, h2⟩ := loads_on_other_day env hord d0 d (anyPassage d0 d hd) w hsafe path l0 cwd ⟨fuel, h⟩
    exact ⟨l, ⟨f, cwd, h1⟩, h2⟩
  obtain ⟨lb, hg'⟩ := loading_runs env hord path hp w.file d0 hd0 l0 hsym _ P (fun e he => ⟨hP e he, .inr ⟨e, he, rfl⟩⟩) runs w l0 hg
    (fun r hr' => ⟨(hr r hr').1, (hr r hr').2, fun m hm => .inl ⟨List.mem_map.2 ⟨r, hr', (List.mem_singleton.1 hm.1).symm⟩, hm.2⟩⟩) hf hi
  obtain ⟨added, g3, g4⟩ := hg'.added
  refine ⟨added, g3, fun d hd => ?_⟩
  obtain ⟨l, h1, h2⟩ := hg'.loads d hd
  refine ⟨l, h1, by rw [h2.entries]; exact g4, ?_⟩
  refine forall₂_trans (P := SameDeclared) (Q := MapSim fun _ _ => True) (fun a b c hab hbc => hab.trans ?_) hg'.accounts h2.accounts
  exact ⟨hbc.1, hbc.2.name, forall₂_imp (fun _ _ h => h.same.same) hbc.2.expenses,
    forall₂_imp (fun _ _ h => h.same.same) hbc.2.goals⟩

/-! ### C103 -/

/-- **C103, in part.** A journal that loads goes on loading, whatever reports and imports are run on whatever days: it
then has the entries that it had, moves to envelopes, and entries made of the records of the imported tables (with
property `P`), nothing else, and its accounts and envelopes are the same but for the money. This is in exact
arithmetic. The entries that the rules make must be such that they can be read back (`Keeps`), and each import must
succeed or change nothing. Missing: other imports, for which it is false (C70, C71), and what is missing in C96. -/
theorem C103_goes_on_loading_partial (env : Env) (hord : FairOrder env.ord) (path : Str) (hp : path.head? = some '/')
    (w : World) (hsafe : SafeFiles Rat env w.file) (d0 : Date) (hd0 : d0.Inner) (l0 : Ledger Rat)
    (hload : LoadsOn env d0 w path l0) (hclear : ClearNames l0) (hsym : PlainSymbols l0) (runs : List Run)
    (hr : ∀ r ∈ runs, r.About path ∧ WritableDay env l0.dateFormat r.day)
    (P : Entry Rat → Prop) (hP : ∀ e, P e → Keeps env l0.accountNames l0.dateFormat e)
    (hi : ImportsAre P env path runs w) :
    ∃ added : List (Entry Rat), (∀ m ∈ added, IsMove (runs.map Run.day) m ∨ ∃ e, P e ∧ m = e.bare) ∧
      ∀ d : Date, d.Inner → ∃ l, LoadsOn env d (afterRuns Rat env runs w) path l ∧ l.entries.Perm (l0.entries ++ added) ∧
        List.Forall₂ SameDeclared l0.accounts l.accounts := by
  refine goes_on_importing env hord path hp w hsafe d0 hd0 l0 hload hclear hsym runs hr P hP ?_ hi
  clear hr hload hsafe hi
  induction runs generalizing w with
  | nil => trivial
  | cons r rs ih => exact ⟨fun _ _ _ _ _ _ _ _ q _ _ => fmtOk_rat _, ih _⟩

/-- **C103, in part.** The same in the arithmetic of the program, as long as the amounts moved are finite. -/
theorem C103_goes_on_loading_f64_partial (env : Env) (hord : FairOrder env.ord) (path : Str) (hp : path.head? = some '/')
    (w : World) (hsafe : SafeFiles F64 env w.file) (d0 : Date) (hd0 : d0.Inner) (l0 : Ledger F64)
    (hload : LoadsOn env d0 w path l0) (hclear : ClearNames l0) (hsym : PlainSymbols l0) (runs : List Run)
    (hr : ∀ r ∈ runs, r.About path ∧ WritableDay env l0.dateFormat r.day)
    (P : Entry F64 → Prop) (hP : ∀ e, P e → Keeps env l0.accountNames l0.dateFormat e)
    (hf : FillsAre (fun a : Amount F64 => (round8 a.mag).finite = true) env path runs w) (hi : ImportsAre P env path runs w) :
    ∃ added : List (Entry F64), (∀ m ∈ added, IsMove (runs.map Run.day) m ∨ ∃ e, P e ∧ m = e.bare) ∧
      ∀ d : Date, d.Inner → ∃ l, LoadsOn env d (afterRuns F64 env runs w) path l ∧ l.entries.Perm (l0.entries ++ added) ∧
        List.Forall₂ SameDeclared l0.accounts l.accounts := by
  refine goes_on_importing env hord path hp w hsafe d0 hd0 l0 hload hclear hsym runs hr P hP ?_ hi
  clear hr hload hsafe hi
  induction runs generalizing w with
  | nil => trivial
  | cons r rs ih =>
    exact ⟨fun l w1 h k a qs h1 h2 q h3 h4 => fmtOk_f64 (hf.1 l w1 h k a qs h1 h2 q h3 h4), ih _ hf.2⟩

/-! ### A concrete session -/

def exCsvText : String := "Date,What,Amount\n2024/06/01,Tea,3\n"

def exRulesText : String := "fields date, description, amount\naccount1 a\namount1 %amount%\naccount2 b\namount2 -%amount%\n"

/-- The journal with a bill, a table and its rules. -/
def exTill : World := disk [("j", exBillText), ("b.csv", exCsvText), ("b.csv.rules", exRulesText)]

def exCsvItems : List Str := [[], s%"Date,What,Amount", s%"2024/06/01,Tea,3"]

def exRulesItems : List Str :=
  [[], s%"fields date, description, amount", s%"account1 a", s%"amount1 %amount%", s%"account2 b", s%"amount2 -%amount%"]

theorem exCsv_items : Itemised (lines exCsvText.toList) exCsvItems :=
  ⟨[], [(s%"Date,What,Amount", []), (s%"2024/06/01,Tea,3", [])], by decide +kernel, by decide +kernel, by
    intro b hb
    simp only [List.mem_cons, List.not_mem_nil, or_false] at hb
    rcases hb with rfl | rfl <;> refine ⟨by decide +kernel, _, _, rfl, by decide⟩, by decide +kernel⟩

theorem exRules_items : Itemised (lines exRulesText.toList) exRulesItems :=
  ⟨[], [(s%"fields date, description, amount", []), (s%"account1 a", []), (s%"amount1 %amount%", []), (s%"account2 b", []),
    (s%"amount2 -%amount%", [])], by decide +kernel, by decide +kernel, by
    intro b hb
    simp only [List.mem_cons, List.not_mem_nil, or_false] at hb
    rcases hb with rfl | rfl | rfl | rfl | rfl <;> refine ⟨by decide +kernel, _, _, rfl, by decide⟩, by decide +kernel⟩

theorem exTill_isItem (c : Str) (h : IsItem exTill.file c) : c ∈ exBillItems ++ exCsvItems ++ exRulesItems := by
  obtain ⟨p, t, cs, h1, h2, h3⟩ := h
  have ht : t = exBillText.toList ∨ t = exCsvText.toList ∨ t = exRulesText.toList := by
    unfold exTill disk at h1
    simp only at h1
    split at h1
    · rename_i d n
      split at h1
      · rw [List.find?_cons] at h1
        split at h1
        · exact .inl (Option.some.inj h1).symm
        · rw [List.find?_cons] at h1
          split at h1
          · exact .inr (.inl (Option.some.inj h1).symm)
          · rw [List.find?_cons] at h1
            split at h1
            · exact .inr (.inr (Option.some.inj h1).symm)
            · cases h1
      · cases h1
    · cases h1
  have key : ∀ (text : Str) (is : List Str), Itemised (lines text) is → t = text → c ∈ is := by
    intro text is hi hx
    rw [hx] at h2
    obtain ⟨items, _, hu⟩ := C88_items_of_a_text (lines text)
    rw [hu _ h2, ← hu _ hi] at h3
    exact h3
  rcases ht with ht | ht | ht
  · exact List.mem_append_left _ (List.mem_append_left _ (key _ _ exBill_items ht))
  · exact List.mem_append_left _ (List.mem_append_right _ (key _ _ exCsv_items ht))
  · exact List.mem_append_right _ (key _ _ exRules_items ht)

theorem exTill_safe : SafeFiles Rat (stdEnv june15) exTill.file := by
  intro c fmt a hc hf hp e he
  have hc := exTill_isItem c hc
  have hfmt : fmt = s%"%Y/%m/%d" := by
    rcases hf with rfl | ⟨c', more, hi, hw⟩
    · rfl
    · exfalso
      have hall : (exBillItems ++ exCsvItems ++ exRulesItems).all (fun c => decide ((splitWs c).head? ≠ some s%"date_format")) = true := by
        decide +kernel
      have := List.all_eq_true.1 hall c' (exTill_isItem c' hi)
      rw [hw] at this
      simp at this
  subst hfmt
  have hall : (exBillItems ++ exCsvItems ++ exRulesItems).all (fun c => match (Account.parse (stdEnv june15) c '.' s%"%Y/%m/%d" : Res (Account Rat)) with
      | .ok a => a.envelopes.all fun e => decide (e.freq = .monthly 20)
      | .error _ => true) = true := by decide +kernel
  have h1 := List.all_eq_true.1 hall c hc
  rw [hp] at h1
  have h2 : e.freq = .monthly 20 := by simpa using List.all_eq_true.1 h1 e he
  unfold Envelope.SafeSchedule
  rw [h2]
  exact ⟨by simp [Frequency.Safe], trivial⟩

/-- The entry made of the record. -/
def exTea : Entry Rat := ⟨⟨2024, 6, 1, by decide⟩, .cleared, s%"Tea", none, none,
  [.classic ⟨s%"b", some ⟨-3, none⟩, none, none⟩, .classic ⟨s%"a", some ⟨3, none⟩, none, none⟩]⟩

theorem exTea_keeps : Keeps (stdEnv june15) [s%"a", s%"b"] s%"%Y/%m/%d" exTea := by
  refine ⟨⟨s%"2024/06/01", ⟨by decide +kernel, ⟨⟨by decide, by decide⟩, by decide⟩, by decide +kernel,
    ⟨⟨[s%"Tea"], by decide, rfl⟩, by decide, by decide⟩, by rintro p ⟨⟩, by rintro p ⟨⟩, ?_⟩, by decide⟩,
    by decide +kernel, by decide +kernel, by decide +kernel⟩
  intro p hp
  simp only [exTea, List.mem_cons, List.not_mem_nil, or_false] at hp
  rcases hp with rfl | rfl
  all_goals
    refine ⟨⟨⟨by decide, by decide⟩, by decide⟩, by decide, ?_, by simp, by simp⟩
    rintro a ⟨⟩
    exact C11_printable_exact _ (by rintro s ⟨⟩)

/-- The table is imported in June, from another directory; the envelopes are shown in July. -/
def exImportRuns : List Run :=
  [⟨june15, id, [], [s%"import", s%"--csv", s%"/h/b.csv", s%"-f", s%"/h/j"], exOutside⟩,
    ⟨⟨2024, 7, 1, by decide⟩, List.reverse, [], [s%"env", s%"-f", s%"/h/j"], exOutside⟩]

theorem exImportRuns_are : ImportsAre (fun e => e = exTea) (stdEnv june15) s%"/h/j" exImportRuns exTill := by
  refine ⟨fun f hf hsub => ⟨.inl ?_, ?_⟩, fun f hf hsub => ?_, trivial⟩
  · decide +kernel
  · intro l w1 csv rules recs hl hcsv hrecs rec hrec e he
    have hf' : f = ⟨some s%"/h/j", .import_, false, some s%"/h/b.csv", none⟩ := by
      have h : Flags.parse [s%"import", s%"--csv", s%"/h/b.csv", s%"-f", s%"/h/j"] =
        .ok (some ⟨some s%"/h/j", .import_, false, some s%"/h/b.csv", none⟩) := by decide +kernel
      exact Option.some.inj (Except.ok.inj (hf.symm.trans h))
    subst hf'
    obtain rfl := Option.some.inj hcsv
    have hall : (match (Ledger.fromFile (stdEnv june15) exOutside.fuel { exTill with cwd := [] } s%"/h/j" : Res (Ledger Rat × World)) with
        | .ok (l, w1) => match importerFromFile (stdEnv june15) (l.fillEnvelopes (stdEnv june15) w1).1 exOutside.fuel s%"/h/b.csv" none with
          | .ok (rules, recs) => recs.all fun rec => match (rules.entry (stdEnv june15) rec l.accountNames : Res (Entry Rat)) with
            | .ok e => decide (e = exTea)
            | .error _ => true
          | .error _ => true
        | .error _ => true) = true := by decide +kernel
    have hl' : (Ledger.fromFile (stdEnv june15) exOutside.fuel { exTill with cwd := [] } s%"/h/j" : Res (Ledger Rat × World)) = .ok (l, w1) := hl
    rw [hl'] at hall
    have hrecs' : importerFromFile (stdEnv june15) (l.fillEnvelopes (stdEnv june15) w1).1 exOutside.fuel s%"/h/b.csv" none = .ok (rules, recs) := hrecs
    simp only [hrecs'] at hall
    have h1 := List.all_eq_true.1 hall rec hrec
    have he' : (rules.entry (stdEnv june15) rec l.accountNames : Res (Entry Rat)) = .ok e := he
    rw [he'] at h1
    simpa using h1
  · have h : Flags.parse [s%"env", s%"-f", s%"/h/j"] = .ok (some ⟨some s%"/h/j", .envelopes, false, none, none⟩) := by
      decide +kernel
    have hf' := Option.some.inj (Except.ok.inj (hf.symm.trans h))
    rw [hf'] at hsub
    cases hsub

/-- The conditions hold of this session, in which envelopes are filled and an entry is imported. -/
example : ∃ added : List (Entry Rat), (∀ m ∈ added, IsMove (exImportRuns.map Run.day) m ∨ m = exTea) ∧
      ∀ d : Date, d.Inner → ∃ l : Ledger Rat, LoadsOn (stdEnv june15) d (afterRuns Rat (stdEnv june15) exImportRuns exTill) s%"/h/j" l ∧
        l.entries.length = 2 + added.length := by
  have h : ∃ r : Ledger Rat × World, Ledger.fromFile (stdEnv june15) 2 exTill s%"/h/j" = .ok r ∧
      (ClearNames r.1 ∧ (∀ e ∈ r.1.allEnvelopes, e.amount.sym = none) ∧ r.1.dateFormat = s%"%Y/%m/%d" ∧ r.1.entries.length = 2 ∧
        r.1.accountNames = [s%"a", s%"b"]) := by
    decide +kernel
  obtain ⟨⟨l0, w1⟩, h1, h2, h3, h4, h5, h10⟩ := h
  obtain ⟨_, h6, h7⟩ := fromFile_sound _ _ _ _ _ _ h1
  have hload : LoadsOn (stdEnv june15) june15 exTill s%"/h/j" l0 :=
    ⟨2, w1.cwd, by rw [← h6, ← h7]; exact h1⟩
  obtain ⟨added, g1, g2⟩ := C103_goes_on_loading_partial (stdEnv june15) (fun _ l => List.Perm.refl l) s%"/h/j" rfl exTill exTill_safe
    june15 (by unfold Date.Inner; decide) l0 hload h2 (fun e he s hs => by rw [h3 e he] at hs; cases hs) exImportRuns (by
      intro r hr
      rw [h4]
      simp only [exImportRuns, List.mem_cons, List.not_mem_nil, or_false] at hr
      rcases hr with rfl | rfl
      · refine ⟨⟨by unfold Date.Inner; decide, fun _ l => List.Perm.refl l, fun f hf => ?_⟩,
          writableDay_default _ rfl rfl _ (by decide)⟩
        have h : Flags.parse [s%"import", s%"--csv", s%"/h/b.csv", s%"-f", s%"/h/j"] =
          .ok (some ⟨some s%"/h/j", .import_, false, some s%"/h/b.csv", none⟩) := by decide +kernel
        rw [Option.some.inj (Except.ok.inj (hf.symm.trans h))]
        exact .inl rfl
      · refine ⟨⟨by unfold Date.Inner; decide, fun _ l => List.reverse_perm l, fun f hf => ?_⟩,
          writableDay_default _ rfl rfl _ (by decide)⟩
        have h : Flags.parse [s%"env", s%"-f", s%"/h/j"] = .ok (some ⟨some s%"/h/j", .envelopes, false, none, none⟩) := by
          decide +kernel
        rw [Option.some.inj (Except.ok.inj (hf.symm.trans h))]
        exact .inl rfl) (fun e => e = exTea) (by rintro e rfl; rw [h4, h10]; exact exTea_keeps) exImportRuns_are
  refine ⟨added, fun m hm => (g1 m hm).imp id (by rintro ⟨e, rfl, rfl⟩; rfl), fun d hd => ?_⟩
  obtain ⟨l, h8, h9, _⟩ := g2 d hd
  exact ⟨l, h8, by rw [h9.length_eq, List.length_append, h5]⟩

example : ∃ r : Ledger Rat × World, Ledger.fromFile (stdEnv june15) 2 (afterRuns Rat (stdEnv june15) exImportRuns exTill) s%"/h/j" = .ok r ∧
    (r.1.entries.map (fun e => e.description) = [s%"x", s%"Tea", s%"y", s%"move to envelopes", s%"move to envelopes"]) := by decide +kernel

end Silverfox
