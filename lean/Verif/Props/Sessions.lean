import Verif.Props.Days
import Verif.Props.Reload

/-
C96: a journal goes on loading, whatever is reported on whatever days.
-/

namespace Silverfox

set_option linter.unusedSectionVars false
variable {M : Type} [Mag M]

/-! ### Specification -/

/-- Specification: one run of the program: the day, the order in which hash tables happen to be visited, the
directory it is started in, its arguments and its surroundings. -/
structure Run where
  day : Date
  ord : HashOrder
  cwd : APath
  args : List Str
  out : Outside

/-- The environment of a run. -/
def Run.env (r : Run) (env : Env) : Env := (env.on r.day).withOrd r.ord

/-- The files after a run. -/
def Run.exec (M : Type) [Mag M] (env : Env) (r : Run) (w : World) : World :=
  (mainProgram M (r.env env) r.out r.args { w with cwd := r.cwd }).1

/-- The files after several runs. -/
def afterRuns (M : Type) [Mag M] (env : Env) : List Run → World → World
  | [], w => w
  | r :: rs, w => afterRuns M env rs (r.exec M env w)

/-- Specification: the run is about this journal, or about none, and imports nothing. -/
structure Run.Reports (path : Str) (r : Run) : Prop where
  inner : r.day.Inner
  fair : FairOrder r.ord
  about : ∀ f, Flags.parse r.args = .ok (some f) →
    f.sub ≠ .import_ ∧ (f.file.or r.out.file = some path ∨ f.file.or r.out.file = none)

/-- Specification: the day can be written in the date format and read again, as a word that is no keyword. -/
def WritableDay (env : Env) (fmt : Str) (day : Date) : Prop :=
  ∃ s, env.fmtDate day fmt = some s ∧ env.parseDate s fmt = some day ∧ Name s ∧
    s ∉ [s%"account", s%"currency", s%"date_format", s%"include"]

/-- Specification: the journal loads on that day. -/
def LoadsOn (env : Env) (day : Date) (w : World) (path : Str) (l : Ledger M) : Prop :=
  ∃ fuel cwd, Ledger.fromFile (env.on day) fuel w path = .ok (l, { w with cwd := cwd })

/-- The envelopes of a ledger. -/
def Ledger.allEnvelopes (l : Ledger M) : List (Envelope M) := l.accounts.flatMap fun p => p.2.envelopes

/-- Specification: an expense and a goal of one account, of the same name, are in the same currency. -/
def ClearNames (l : Ledger M) : Prop :=
  ∀ e ∈ l.allEnvelopes, ∀ e' ∈ l.allEnvelopes, e.account = e'.account → e.name = e'.name → e.amount.sym = e'.amount.sym

/-- Specification: the amounts moved by filling in these runs, where not zero, have the property `P`. -/
def FillsAre (P : Amount M → Prop) (env : Env) (path : Str) : List Run → World → Prop
  | [], _ => True
  | r :: rs, w => (∀ l w1, Ledger.fromFile (r.env env) r.out.fuel { w with cwd := r.cwd } path = .ok (l, w1) →
      ∀ k a qs, (k, a) ∈ l.accounts → a.fillingPostings r.day = .ok qs → ∀ q ∈ qs,
        Mag.eq q.amount.mag (Mag.zero : M) = false → P q.amount) ∧ FillsAre P env path rs (r.exec M env w)

/-- Specification: an entry that only moves money to envelopes, on one of these days. -/
def IsMove (days : List Date) (e : Entry M) : Prop :=
  e.date ∈ days ∧ e.description = s%"move to envelopes" ∧ e.status = .cleared ∧ ∀ p ∈ e.postings, ∃ q, p = .envelope q

/-- Specification: the same account up to the money in its envelopes. -/
structure SameOutside (p p' : Str × Account M) : Prop where
  key : p'.1 = p.1
  name : p'.2.name = p.2.name
  real : p'.2.real = p.2.real
  expenses : List.Forall₂ Envelope.SameButMoney p.2.expenses p'.2.expenses
  goals : List.Forall₂ Envelope.SameButMoney p.2.goals p'.2.goals

/-! ### Appending, then loading on any day -/

theorem append_reload_any (env : Env) (fuel : Nat) (w w1 w2 : World) (path : Str) (l : Ledger M) (e : Entry M)
    (d text s : Str)
    (hload : Ledger.fromFile env fuel w path = .ok (l, w1))
    (hw : e.Writable env l.dateFormat d) (hd : d ∉ keywords) (hv : e.validate = .ok ())
    (hacc : ∀ p ∈ e.postings, p.isEnvelope = false → p.account ∈ l.accountNames)
    (ht : e.asParsable env l.dateFormat = .ok text) (hs : w.file (resolve w.cwd path) = some s)
    (hself : w2.file (resolve w.cwd path) = some (s ++ '\n' :: text))
    (hother : ∀ p, p ≠ resolve w.cwd path → w2.file p = w.file p) (hc2 : w2.canAppend = w.canAppend) :
    Ledger.fromFile env fuel { w2 with cwd := w.cwd } path =
      (l.addEntry env e.rounded).map fun l'' => (l'', { w2 with cwd := w1.cwd }) := by
  cases fuel with
  | zero => cases hload
  | succ f =>
    obtain ⟨⟨is, hsteps⟩, hfile, hcan⟩ := fromFile_sound env (f + 1) w w1 path l hload
    have hdec : l.decimal = '.' := hsteps.filePath.2
    simp only [Ledger.fromFile, Ledger.addFromFile] at hload
    cases hr : w.read path with
    | none => rw [hr] at hload; cases hload
    | some s' =>
      rw [hr] at hload
      simp only at hload
      have hs' : endsInName path = true ∧ w.file (resolve w.cwd path) = some s' := by
        unfold World.read at hr
        split at hr
        · rename_i he; exact ⟨he, hr⟩
        · cases hr
      have : s' = s := Option.some.inj (hs'.2.symm.trans hs)
      subst this
      obtain ⟨text', ht', ⟨x, xs, hx, hxw⟩, hadd⟩ := addEff_written env (Ledger.addFromFile env f) l
        { w1 with file := w2.file } d e hw hd hv hacc hdec
      have : text' = text := Except.ok.inj (ht'.symm.trans ht)
      subst this
      have hagain := fromFile_lines_again env f w path s' l w1 hs'.2 hload w2.file hother
      have hworld : ({ w2 with cwd := w.cwd } : World).cdParent path = (w.cdParent path).withFiles w2.file := by
        show (⟨_, w2.canAppend, _⟩ : World) = ⟨_, w.canAppend, _⟩
        rw [hc2]
        rfl
      have hread : ({ w2 with cwd := w.cwd } : World).read path = some (s' ++ '\n' :: text') := by
        unfold World.read
        rw [if_pos hs'.1]
        exact hself
      simp only [Ledger.fromFile, Ledger.addFromFile, hread]
      rw [hworld, addLinesFrom_eff, eff_lines_append, hx, addEff_append _ _ _ _ _ hxw, ← addLinesFrom_eff, hagain]
      show addEff env _ (x :: xs) (l, w1.withFiles w2.file) [] = _
      rw [← hx]
      refine hadd.trans ?_
      have : ({ w1 with file := w2.file } : World) = { w2 with cwd := w1.cwd } := by
        rw [hc2, ← hcan]
      rw [this]

/-! ### An entry of envelope postings is always processed -/

theorem processManual_total (today date : Date) (ht : today.Inner) (ps : List (EnvPosting M)) (e : Envelope M)
    (hc : e.OneCurrency) (hs : e.SafeSchedule)
    (hp : ∀ q ∈ ps, q.account = e.account → q.envelope = e.name → q.amount.sym = e.amount.sym) :
    ∃ e', Envelope.processManual today date ps e = .ok e' ∧ e.SameButMoney e' := by
  induction ps generalizing e with
  | nil => exact ⟨e, rfl, rfl⟩
  | cons q ps ih =>
    unfold Envelope.processManual
    split
    · rename_i h
      obtain ⟨e1, h1⟩ := applyAmount_total today date e q.amount ht hc hs (hp q (by simp) (by simp_all) (by simp_all))
      obtain ⟨k1, k2, k3, _⟩ := applyAmount_keeps today e e1 q.amount date h1
      have kf := SameButMoney.fields k1
      have c1 : e1.OneCurrency := by unfold Envelope.OneCurrency at hc ⊢; rw [k2, k3, kf.2.2.1]; exact hc
      have s1 : e1.SafeSchedule := by unfold Envelope.SafeSchedule at hs ⊢; rw [kf.2.2.2.2.2.1]; exact hs
      obtain ⟨e2, h2, h3⟩ := ih e1 c1 s1 (by rw [kf.1, kf.2.1, kf.2.2.1]; exact fun q hq => hp q (by simp [hq]))
      refine ⟨e2, by simp only [bind, Except.bind, h1]; exact h2, ?_⟩
      unfold Envelope.SameButMoney at *
      rw [h3, k1]
    · exact ih e hc hs fun q hq => hp q (by simp [hq])

/-- An entry made of these envelope postings. -/
def MoveOf (e : Entry M) (qs : List (EnvPosting M)) : Prop := qs ≠ [] ∧ e.postings = qs.map Posting.envelope

theorem moveOf_has {e : Entry M} {qs : List (EnvPosting M)} (h : MoveOf e qs) :
    e.hasEnvelopePosting = true ∧ e.envelopePostings = qs := by
  obtain ⟨h1, h2⟩ := h
  unfold Entry.hasEnvelopePosting Entry.envelopePostings
  rw [h2]
  constructor
  · cases qs with
    | nil => exact absurd rfl h1
    | cons q qs => simp [Posting.isEnvelope]
  · clear h1 h2
    induction qs with
    | nil => rfl
    | cons q qs ih => simp only [List.map_cons, List.filterMap_cons, ih]

theorem processEnvelopes_move (today : Date) (ht : today.Inner) (x : Entry M) (qs : List (EnvPosting M))
    (hx : MoveOf x qs) (es : List (Envelope M)) (hc : ∀ e ∈ es, e.OneCurrency) (hs : ∀ e ∈ es, e.SafeSchedule)
    (hp : ∀ e ∈ es, ∀ q ∈ qs, q.account = e.account → q.envelope = e.name → q.amount.sym = e.amount.sym) :
    ∃ es', Account.processEnvelopes today x es = .ok es' ∧ List.Forall₂ Envelope.SameButMoney es es' := by
  induction es with
  | nil => exact ⟨[], rfl, .nil⟩
  | cons e es ih =>
    obtain ⟨h1, h2⟩ := moveOf_has hx
    obtain ⟨e', h3, h4⟩ := processManual_total today x.date ht qs e (hc e (by simp)) (hs e (by simp)) (hp e (by simp))
    obtain ⟨es', h5, h6⟩ := ih (fun e he => hc e (by simp [he])) (fun e he => hs e (by simp [he]))
      (fun e he => hp e (by simp [he]))
    refine ⟨e' :: es', ?_, .cons h4 h6⟩
    simp only [Account.processEnvelopes, Envelope.processEntry, h1, h2, if_true, bind, Except.bind, h3, h5, pure, Except.pure]

theorem processReal_move (n : Str) (x : Entry M) (qs : List (EnvPosting M)) (r : Pool M) :
    Account.processReal n x (qs.map Posting.envelope) r = .ok r := by
  induction qs with
  | nil => rfl
  | cons q qs ih =>
    rw [List.map_cons, Account.processReal, if_neg (fun h => by cases h.2)]
    exact ih

theorem processAccount_move (today : Date) (ht : today.Inner) (x : Entry M) (qs : List (EnvPosting M))
    (hx : MoveOf x qs) (k : Str) (a : Account M) (hc : ∀ e ∈ a.envelopes, e.OneCurrency) (hs : ∀ e ∈ a.envelopes, e.SafeSchedule)
    (hp : ∀ e ∈ a.envelopes, ∀ q ∈ qs, q.account = e.account → q.envelope = e.name → q.amount.sym = e.amount.sym) :
    ∃ a', a.processEntry today x = .ok a' ∧ SameOutside (k, a) (k, a') := by
  have hm : ∀ e, (e ∈ a.expenses ∨ e ∈ a.goals) → e ∈ a.envelopes := fun e he => List.mem_append.2 he
  obtain ⟨ex, h1, h2⟩ := processEnvelopes_move today ht x qs hx a.expenses (fun e he => hc e (hm e (.inl he)))
    (fun e he => hs e (hm e (.inl he))) (fun e he => hp e (hm e (.inl he)))
  obtain ⟨go, h3, h4⟩ := processEnvelopes_move today ht x qs hx a.goals (fun e he => hc e (hm e (.inr he)))
    (fun e he => hs e (hm e (.inr he))) (fun e he => hp e (hm e (.inr he)))
  refine ⟨{ a with expenses := ex, goals := go, real := a.real }, ?_, ⟨rfl, rfl, rfl, h2, h4⟩⟩
  simp only [Account.processEntry, h1, h3, hx.2, processReal_move, bind, Except.bind, pure, Except.pure]

theorem processAll_move (today : Date) (ht : today.Inner) (x : Entry M) (qs : List (EnvPosting M))
    (hx : MoveOf x qs) (as : List (Str × Account M))
    (h : ∀ p ∈ as, ∀ e ∈ p.2.envelopes, e.OneCurrency ∧ e.SafeSchedule ∧
      ∀ q ∈ qs, q.account = e.account → q.envelope = e.name → q.amount.sym = e.amount.sym) :
    ∃ as', Ledger.processAll today x as = .ok as' ∧ List.Forall₂ SameOutside as as' := by
  induction as with
  | nil => exact ⟨[], rfl, .nil⟩
  | cons p as ih =>
    obtain ⟨k, a⟩ := p
    have h0 := h (k, a) (by simp)
    obtain ⟨a', h1, h2⟩ := processAccount_move today ht x qs hx k a (fun e he => (h0 e he).1) (fun e he => (h0 e he).2.1)
      (fun e he => (h0 e he).2.2)
    obtain ⟨as', h3, h4⟩ := ih fun p hp => h p (by simp [hp])
    exact ⟨(k, a') :: as', by simp only [Ledger.processAll, h1, h3, bind, Except.bind, pure, Except.pure], .cons h2 h4⟩

theorem addEntry_move (env : Env) (hord : FairOrder env.ord) (ht : env.today.Inner) (l : Ledger M) (x : Entry M)
    (qs : List (EnvPosting M)) (hx : MoveOf x qs)
    (h : ∀ e ∈ l.allEnvelopes, e.OneCurrency ∧ e.SafeSchedule ∧
      ∀ q ∈ qs, q.account = e.account → q.envelope = e.name → q.amount.sym = e.amount.sym) :
    ∃ accs, l.addEntry env x = .ok { l with accounts := accs, entries := stableSort (fun a b => Date.lt a.date b.date) (l.entries ++ [x]) } ∧
      List.Forall₂ SameOutside l.accounts accs := by
  have h' : ∀ p ∈ l.accounts, ∀ e ∈ p.2.envelopes, _ := fun p hp e he => h e (List.mem_flatMap.2 ⟨p, hp, he⟩)
  obtain ⟨as', h1, h2⟩ := processAll_move env.today ht x qs hx l.accounts h'
  obtain ⟨bs, h3, _⟩ := processAll_move env.today ht x qs hx (env.ord l.accounts)
    fun p hp => h' p ((hord _ l.accounts).mem_iff.1 hp)
  refine ⟨as', ?_, h2⟩
  simp only [Ledger.addEntry, h1, h3, bind, Except.bind, pure, Except.pure]

/-! ### What a run does to the journal -/

/-- The postings made by filling an account. -/
theorem fillingPostings_of (today : Date) (a : Account M) (qs : List (EnvPosting M))
    (h : a.fillingPostings today = .ok qs) : ∀ q ∈ qs, ∃ e ∈ a.envelopes,
      q.account = e.account ∧ q.envelope = e.name ∧ q.amount.sym = e.amount.sym := by
  have key : ∀ (es : List (Envelope M)) (av : Pool M) (qs : List (EnvPosting M)),
      (∀ e ∈ es, e ∈ a.envelopes) → Account.fillLoop today es av = .ok qs →
      ∀ q ∈ qs, ∃ e ∈ a.envelopes, q.account = e.account ∧ q.envelope = e.name ∧ q.amount.sym = e.amount.sym := by
    intro es
    induction es with
    | nil => intro av qs _ h q hq; cases h; cases hq
    | cons v es ih =>
      intro av qs hes h q hq
      obtain ⟨p, ps', rfl, h1, h2⟩ := fillLoop_cons today v es av qs h
      rcases List.mem_cons.1 hq with rfl | hq
      · refine ⟨v, hes v (by simp), ?_⟩
        obtain ⟨h3, h4, h5⟩ := fillingPosting_ok _ _ _ _ h1
        refine ⟨h3, h4, ?_⟩
        generalize q.amount = qa at h5 ⊢
        unfold Envelope.fillingAmount at h5
        split at h5
        · cases h5
        · simp only [bind, Except.bind, pure, Except.pure] at h5
          split at h5
          · cases h5
          · split at h5
            · cases h5; rfl
            · split at h5
              · cases h5
              · split at h5
                · cases h5; rfl
                · split at h5
                  · cases h5; rfl
                  · cases h5; rfl
                  · cases h5; rfl
      · exact ih _ _ (fun e he => hes e (by simp [he])) h2 q hq
  exact key _ _ _ (by simp) h

theorem fillEnvelopes_world (env : Env) (hord : FairOrder env.ord) (w : World) (l : Ledger M) :
    (l.fillEnvelopes env w).1 = w ∨
    ∃ (fs : List (EnvPosting M)) (text s : Str), fs ≠ [] ∧
      (∀ q ∈ fs, Mag.eq q.amount.mag (Mag.zero : M) = false ∧
        ∃ k a qs, (k, a) ∈ l.accounts ∧ a.fillingPostings env.today = .ok qs ∧ q ∈ qs) ∧
      (Ledger.fillEntry env.today fs).asParsable env l.dateFormat = .ok text ∧
      w.file (resolve w.cwd l.filePath) = some s ∧
      (l.fillEnvelopes env w).1 = w.write (resolve w.cwd l.filePath) (s ++ '\n' :: text) := by
  unfold Ledger.fillEnvelopes
  split
  · exact .inl rfl
  · rename_i ps hps
    obtain ⟨_, h2⟩ := fillAll_ok _ _ _ hps
    simp only
    split
    · exact .inl rfl
    · rename_i hne
      unfold Ledger.appendEntry
      split
      · exact .inl rfl
      · split
        · exact .inl rfl
        · rename_i text ht
          split
          · exact .inl rfl
          · rename_i w2 hw2
            right
            unfold World.append at hw2
            simp only at hw2
            split at hw2
            · split at hw2
              · rename_i s hs
                refine ⟨_, text, s, by simpa using hne, ?_, ht, hs, (Option.some.inj hw2).symm⟩
                intro q hq
                rw [List.mem_filter] at hq
                obtain ⟨k, a, qs, h7, h8, h9⟩ := h2 q hq.1
                exact ⟨by simpa using hq.2, k, a, qs, (hord _ l.accounts).mem_iff.1 h7, h8, h9⟩
              · cases hw2
            · cases hw2

theorem runSub_world (env : Env) (o : Outside) (f : Flags) (w : World) (l : Ledger M) (h : f.sub ≠ .import_) :
    (runSub env o f w l).1 = w := by
  unfold runSub
  split
  · rfl
  · rfl
  · split <;> rfl
  · rename_i h'; exact absurd h' h
  · rfl
  · rfl

theorem exec_world (env : Env) (path : Str) (r : Run) (hr : r.Reports path) (w : World) :
    (r.exec M env w).file = w.file ∧ (r.exec M env w).canAppend = w.canAppend ∨
    ∃ (l : Ledger M) (w1 : World), Ledger.fromFile (r.env env) r.out.fuel { w with cwd := r.cwd } path = .ok (l, w1) ∧
      r.exec M env w = (l.fillEnvelopes (r.env env) w1).1 := by
  unfold Run.exec mainProgram
  split
  · exact .inl ⟨rfl, rfl⟩
  · exact .inl ⟨rfl, rfl⟩
  · rename_i f hf
    obtain ⟨h1, h2⟩ := hr.about f hf
    unfold execute
    split
    · exact .inl ⟨rfl, rfl⟩
    · rename_i p hp
      have : p = path := by
        rcases h2 with h2 | h2 <;> rw [h2] at hp
        · exact (Option.some.inj hp).symm
        · cases hp
      subst this
      split
      · exact .inl ⟨rfl, rfl⟩
      · rename_i l w1 hl
        split
        · left
          rw [runSub_world _ _ _ _ _ h1]
          obtain ⟨_, h3, h4⟩ := fromFile_sound _ _ _ _ _ _ hl
          exact ⟨h3, h4⟩
        · right
          refine ⟨l, w1, hl, ?_⟩
          split
          · rename_i w2 x hx; rw [hx]
          · rename_i w2 x hx; rw [hx, runSub_world _ _ _ _ _ h1]

/-! ### The journal goes on loading -/

theorem absolute_anywhere (path : Str) (h : path.head? = some '/') (c c' : APath) : resolve c path = resolve c' path := by
  unfold resolve; rw [if_pos h, if_pos h]

theorem fromFile_cwd (env : Env) (fuel : Nat) (w : World) (c : APath) (path : Str) (h : path.head? = some '/') :
    (Ledger.fromFile env fuel { w with cwd := c } path : Res (Ledger M × World)) = Ledger.fromFile env fuel w path := by
  cases fuel with
  | zero => rfl
  | succ f =>
    simp only [Ledger.fromFile, Ledger.addFromFile, World.read, World.cdParent, absolute_anywhere path h c w.cwd]

theorem fromFile_unique (env : Env) (f1 f2 : Nat) (w : World) (path : Str) (r1 r2 : Ledger M × World)
    (h1 : Ledger.fromFile env f1 w path = .ok r1) (h2 : Ledger.fromFile env f2 w path = .ok r2) : r1 = r2 := by
  have h3 := addFromFile_mono env f1 f2 _ _ path h1
  have h4 := addFromFile_mono env f2 f1 _ _ path h2
  rw [Nat.add_comm] at h4
  exact Except.ok.inj (h3.symm.trans h4)

theorem LoadsOn.elsewhere {env : Env} {day : Date} {w : World} {path : Str} {l : Ledger M} (hp : path.head? = some '/')
    (h : LoadsOn env day w path l) (c : APath) : LoadsOn env day { w with cwd := c } path l := by
  obtain ⟨fuel, cwd, h⟩ := h
  exact ⟨fuel, cwd, by rw [fromFile_cwd _ _ _ _ _ hp]; exact h⟩

theorem sameButMoney_trans {a b c : Envelope M} (h1 : a.SameButMoney b) (h2 : b.SameButMoney c) : a.SameButMoney c := by
  unfold Envelope.SameButMoney at *
  rw [h2, h1]

theorem forall₂_trans {α : Type} {P Q R : α → α → Prop} (h : ∀ a b c, P a b → Q b c → R a c) {xs ys zs : List α}
    (h1 : List.Forall₂ P xs ys) (h2 : List.Forall₂ Q ys zs) : List.Forall₂ R xs zs := by
  induction h1 generalizing zs with
  | nil => cases h2; exact .nil
  | cons hx _ ih =>
    cases h2 with
    | cons hy h2 => exact .cons (h _ _ _ hx hy) (ih h2)

theorem SameOutside.trans {p q r : Str × Account M} (h1 : SameOutside p q) (h2 : SameOutside q r) : SameOutside p r :=
  ⟨h2.key.trans h1.key, h2.name.trans h1.name, h2.real.trans h1.real,
    forall₂_trans (P := Envelope.SameButMoney) (Q := Envelope.SameButMoney) (fun _ _ _ => sameButMoney_trans) h1.expenses h2.expenses,
    forall₂_trans (P := Envelope.SameButMoney) (Q := Envelope.SameButMoney) (fun _ _ _ => sameButMoney_trans) h1.goals h2.goals⟩

theorem forall₂_back {α β : Type} {P : α → β → Prop} {xs : List α} {ys : List β} (h : List.Forall₂ P xs ys) :
    ∀ y ∈ ys, ∃ x ∈ xs, P x y := by
  induction h with
  | nil => intro y hy; cases hy
  | @cons x y xs ys hx _ ih =>
    intro z hz
    rcases List.mem_cons.1 hz with rfl | hz
    · exact ⟨x, by simp, hx⟩
    · obtain ⟨x', h1, h2⟩ := ih z hz
      exact ⟨x', by simp [h1], h2⟩

theorem forall₂_forth {α β : Type} {P : α → β → Prop} {xs : List α} {ys : List β} (h : List.Forall₂ P xs ys) :
    ∀ x ∈ xs, ∃ y ∈ ys, P x y := by
  induction h with
  | nil => intro y hy; cases hy
  | @cons x y xs ys hx _ ih =>
    intro z hz
    rcases List.mem_cons.1 hz with rfl | hz
    · exact ⟨y, by simp, hx⟩
    · obtain ⟨x', h1, h2⟩ := ih z hz
      exact ⟨x', by simp [h1], h2⟩

theorem sameOutside_envelopes {l l' : Ledger M} (h : List.Forall₂ SameOutside l.accounts l'.accounts) :
    ∀ e' ∈ l'.allEnvelopes, ∃ e ∈ l.allEnvelopes, e.SameButMoney e' := by
  intro e' he'
  obtain ⟨p', hp', he'⟩ := List.mem_flatMap.1 he'
  obtain ⟨p, hp, hs⟩ := forall₂_back h p' hp'
  rcases List.mem_append.1 he' with he' | he'
  · obtain ⟨e, he, h1⟩ := forall₂_back hs.expenses e' he'
    exact ⟨e, List.mem_flatMap.2 ⟨p, hp, List.mem_append_left _ he⟩, h1⟩
  · obtain ⟨e, he, h1⟩ := forall₂_back hs.goals e' he'
    exact ⟨e, List.mem_flatMap.2 ⟨p, hp, List.mem_append_right _ he⟩, h1⟩

theorem ledSim_envelopes {R : M × M → M × M → Prop} {file : APath → Option Str} {l l' : Ledger M} (h : LedSim R file l l') :
    (∀ e' ∈ l'.allEnvelopes, ∃ e ∈ l.allEnvelopes, EnvSim R e e') ∧ (∀ e ∈ l.allEnvelopes, ∃ e', EnvSim R e e') := by
  constructor
  · intro e' he'
    obtain ⟨p', hp', he'⟩ := List.mem_flatMap.1 he'
    obtain ⟨p, hp, _, hs⟩ := forall₂_back h.accounts p' hp'
    rcases List.mem_append.1 he' with he' | he'
    · obtain ⟨e, he, h1⟩ := forall₂_back hs.expenses e' he'
      exact ⟨e, List.mem_flatMap.2 ⟨p, hp, List.mem_append_left _ he⟩, h1⟩
    · obtain ⟨e, he, h1⟩ := forall₂_back hs.goals e' he'
      exact ⟨e, List.mem_flatMap.2 ⟨p, hp, List.mem_append_right _ he⟩, h1⟩
  · intro e he
    obtain ⟨p, hp, he⟩ := List.mem_flatMap.1 he
    obtain ⟨p', hp', _, hs⟩ := forall₂_forth h.accounts p hp
    rcases List.mem_append.1 he with he | he
    · obtain ⟨e', he', h1⟩ := forall₂_forth hs.expenses e he
      exact ⟨e', h1⟩
    · obtain ⟨e', he', h1⟩ := forall₂_forth hs.goals e he
      exact ⟨e', h1⟩

/-- The state of a journal between runs. -/
def Going (env : Env) (path : Str) (file0 : APath → Option Str) (l0 : Ledger M) (days : List Date) (w : World) :
    Prop :=
  ∃ (lb : Ledger M) (moves : List (Entry M)), lb.dateFormat = l0.dateFormat ∧ ClearNames lb ∧
    (∀ m ∈ moves, IsMove days m) ∧ lb.entries.Perm (l0.entries ++ moves) ∧
    List.Forall₂ SameOutside l0.accounts lb.accounts ∧
    ∀ d : Date, d.Inner → ∃ l, LoadsOn env d w path l ∧ LedSim (fun _ _ => True) file0 lb l

theorem anyPassage (d1 d2 : Date) (h : d2.Inner) : Passage (M := M) (fun _ _ => True) d1 d2 :=
  ⟨h, fun _ => trivial, fun _ _ _ _ _ _ => trivial, fun _ _ _ _ _ _ _ _ _ _ _ _ _ _ _ _ => trivial,
    fun _ _ _ _ _ _ _ => trivial, fun _ _ _ _ _ _ => trivial⟩

theorem fillEntry_validate (day : Date) (fs : List (EnvPosting M)) : (Ledger.fillEntry day fs).validate = .ok () := by
  have key : ∀ (fs : List (EnvPosting M)) (syms : List Str), ∃ syms', validateLoop (fs.map Posting.envelope) 0 syms = .ok (0, syms') := by
    intro fs
    induction fs with
    | nil => intro syms; exact ⟨syms, rfl⟩
    | cons q fs ih =>
      intro syms
      simp only [List.map_cons, validateLoop, Posting.amount]
      split
      · exact ih _
      · exact ih _
  obtain ⟨syms', hk⟩ := key fs []
  unfold Entry.validate
  show (do let (blanks, syms) ← validateLoop (fs.map Posting.envelope) 0 []; _) = _
  rw [hk]
  rfl

theorem going_step (env : Env) (hord : FairOrder env.ord) (path : Str) (hp : path.head? = some '/')
    (file0 : APath → Option Str) (d0 : Date) (hd0 : d0.Inner) (l0 : Ledger M) (days : List Date) (w : World)
    (hg : Going env path file0 l0 days w) (r : Run) (hr : r.Reports path) (hday : r.day ∈ days)
    (hwd : WritableDay env l0.dateFormat r.day)
    (hfill : ∀ l w1, Ledger.fromFile (r.env env) r.out.fuel { w with cwd := r.cwd } path = .ok (l, w1) →
      ∀ k a qs, (k, a) ∈ l.accounts → a.fillingPostings r.day = .ok qs → ∀ q ∈ qs,
        Mag.eq q.amount.mag (Mag.zero : M) = false → Printable q.amount) :
    Going env path file0 l0 days (r.exec M env w) := by
  have same : ∀ w' : World, w'.file = w.file → w'.canAppend = w.canAppend → Going env path file0 l0 days w' := by
    intro w' h1 h2
    obtain ⟨lb, moves, g1, g2, g3, g4, g5, g6⟩ := hg
    refine ⟨lb, moves, g1, g2, g3, g4, g5, fun d hd => ?_⟩
    obtain ⟨l, h3, h4⟩ := g6 d hd
    have : w' = { w with cwd := w'.cwd } := by rw [← h1, ← h2]
    rw [this]
    exact ⟨l, h3.elsewhere hp _, h4⟩
  rcases exec_world (M := M) env path r hr w with ⟨h1, h2⟩ | ⟨l, w1, hl, he⟩
  · exact same _ h1 h2
  obtain ⟨⟨is, hsteps⟩, hfile, hcan⟩ := fromFile_sound _ _ _ _ _ _ hl
  have hpath : l.filePath = path := hsteps.filePath.1
  rcases fillEnvelopes_world (r.env env) hr.fair w1 l with h1 | ⟨fs, text, s, hne, hfs, ht, hs, hw2⟩
  · rw [he, h1]; exact same _ hfile hcan
  rw [← he] at hw2
  obtain ⟨lb, moves, g1, g2, g3, g4, g5, g6⟩ := hg
  -- the ledger of the run is the one of its day
  obtain ⟨l', ⟨fuel', cwd', hl'⟩, hsim⟩ := g6 r.day hr.inner
  have hll : l' = l := by
    have h3 : Ledger.fromFile (env.on r.day) r.out.fuel { w with cwd := r.cwd } path = .ok (l, w1) :=
      (C53_loading (env.on r.day) r.ord env.ord hr.fair hord _ _ _ _).1 hl
    rw [fromFile_cwd _ _ _ _ _ hp] at h3
    exact congrArg Prod.fst (fromFile_unique _ _ _ _ _ _ _ hl' h3)
  subst hll
  have hplain := loaded_plain _ _ _ _ _ _ hl
  -- the postings
  have hq : ∀ q ∈ fs, (Posting.envelope q).Writable ∧ ∃ e ∈ lb.allEnvelopes, q.account = e.account ∧
      q.envelope = e.name ∧ q.amount.sym = e.amount.sym := by
    intro q hq
    obtain ⟨hz, k, a, qs, hka, hqs, hqq⟩ := hfs q hq
    obtain ⟨e, hem, h3, h4, h5⟩ := fillingPostings_of _ a qs hqs q hqq
    obtain ⟨hn1, hn2⟩ := hplain.named k a hka
    obtain ⟨h6, h7⟩ := hn2 e hem
    refine ⟨⟨by rw [h3, h7]; exact hn1, by rw [h4]; exact h6, hfill l' w1 hl k a qs hka hqs q hqq hz⟩, ?_⟩
    obtain ⟨e0, he0, hs0⟩ := (ledSim_envelopes hsim).1 e (List.mem_flatMap.2 ⟨(k, a), hka, hem⟩)
    have hf := SameButMoney.fields hs0.same.same
    exact ⟨e0, he0, by rw [h3, hf.2.1], by rw [h4, hf.1], by rw [h5, hf.2.2.1]⟩
  generalize hx : Ledger.fillEntry r.day fs = x
  have hx' : Ledger.fillEntry (r.env env).today fs = x := hx
  have hmade : MoveOf x.rounded (fs.map fun q => ⟨q.account, q.envelope, q.amount.rounded⟩) := by
    refine ⟨by simpa using hne, ?_⟩
    rw [← hx]
    show (fs.map Posting.envelope).map Posting.rounded = _
    rw [List.map_map, List.map_map]
    rfl
  -- the journal on the first day
  obtain ⟨accs, hadd, hout⟩ := addEntry_move (env.on d0) hord hd0 lb x.rounded _ hmade (by
    intro e hel
    obtain ⟨e', hs'⟩ := (ledSim_envelopes hsim).2 e hel
    refine ⟨hs'.one, hs'.safe, fun q hq' ha hn => ?_⟩
    obtain ⟨q0, hq0, rfl⟩ := List.mem_map.1 hq'
    obtain ⟨_, e0, he0, h3, h4, h5⟩ := hq q0 hq0
    show q0.amount.sym = _
    rw [h5]
    exact g2 e0 he0 e hel (h3.symm.trans ha) (h4.symm.trans hn))
  refine ⟨{ lb with accounts := accs, entries := stableSort (fun a b => Date.lt a.date b.date) (lb.entries ++ [x.rounded]) },
    moves ++ [x.rounded], g1, ?_, ?_, ?_, forall₂_trans (P := SameOutside) (Q := SameOutside) (fun _ _ _ => SameOutside.trans) g5 hout, ?_⟩
  · intro e he1 e' he1'
    obtain ⟨a, ha, hs1⟩ := sameOutside_envelopes (l := lb) hout e he1
    obtain ⟨b, hb, hs2⟩ := sameOutside_envelopes (l := lb) hout e' he1'
    have f1 := SameButMoney.fields hs1
    have f2 := SameButMoney.fields hs2
    rw [f1.2.1, f2.2.1, f1.1, f2.1, f1.2.2.1, f2.2.2.1]
    exact g2 a ha b hb
  · intro m hm
    rcases List.mem_append.1 hm with hm | hm
    · exact g3 m hm
    · rw [List.mem_singleton.1 hm]
      refine ⟨by rw [← hx]; exact hday, by rw [← hx]; rfl, by rw [← hx]; rfl, fun p hp => ?_⟩
      rw [hmade.2] at hp
      obtain ⟨q, _, rfl⟩ := List.mem_map.1 hp
      exact ⟨q, rfl⟩
  · refine (stableSort_perm _ _).trans ?_
    rw [← List.append_assoc]
    exact g4.append_right _
  · intro d hd
    obtain ⟨ld, ⟨fd, cd, hld⟩, hsd⟩ := g6 d hd
    obtain ⟨ds, hd1, hd2, hd3, hd4⟩ := hwd
    have hfmt : ld.dateFormat = l0.dateFormat := by rw [hsd.format, g1]
    have hw : x.Writable (env.on d) ld.dateFormat ds := by
      rw [hfmt, ← hx]
      refine ⟨hd1, hd3, hd2, ⟨⟨[s%"move", s%"to", s%"envelopes"], by decide, rfl⟩,
          (by decide : NoComment s%"move to envelopes"), (by decide : '[' ∉ s%"move to envelopes")⟩,
          by rintro p ⟨⟩, ?_, ?_⟩
      · intro c hc
        have : some s%"automatically generated by silverfox" = some c := hc
        cases this
        decide
      · intro p hp
        obtain ⟨q, hqm, rfl⟩ := List.mem_map.1 hp
        exact (hq q hqm).1
    have ht' : x.asParsable (env.on d) ld.dateFormat = .ok text := by
      rw [hsd.format, ← hsim.format, ← ht, hx']
      rfl
    have hP : resolve w1.cwd l'.filePath = resolve w.cwd path := by rw [hpath]; exact absolute_anywhere path hp _ _
    rw [hP] at hs hw2
    have := append_reload_any (env.on d) fd w _ (r.exec M env w) path ld x ds text s hld hw hd4
      (by rw [← hx]; exact fillEntry_validate _ _) (by
        intro p hp he'
        rw [← hx] at hp
        obtain ⟨q, _, rfl⟩ := List.mem_map.1 hp
        cases he') ht' (by rw [← hfile]; exact hs)
      (by rw [hw2]; show (if _ then _ else _) = _; rw [if_pos rfl])
      (by intro p hp'; rw [hw2]; show (if p = _ then _ else w1.file p) = _; rw [if_neg hp', hfile])
      (by rw [hw2]; exact hcan)
    obtain ⟨ld1, h8, h9⟩ := addEntry_sim env hord d0 d (anyPassage d0 d hd) file0 x.rounded lb ld _ hsd hadd
    rw [h8] at this
    refine ⟨ld1, ⟨fd, cd, ?_⟩, h9⟩
    rw [fromFile_cwd _ _ _ _ _ hp] at this
    exact this

theorem going_symbols (env : Env) (hord : FairOrder env.ord) (path : Str) (hp : path.head? = some '/')
    (file0 : APath → Option Str) (l0 : Ledger M) (days : List Date) (w w1 : World)
    (hg : Going env path file0 l0 days w) (r : Run) (hr : r.Reports path) (l : Ledger M)
    (hl : Ledger.fromFile (r.env env) r.out.fuel { w with cwd := r.cwd } path = .ok (l, w1)) :
    ∀ e ∈ l.allEnvelopes, ∃ e0 ∈ l0.allEnvelopes, e0.SameButMoney e := by
  obtain ⟨lb, moves, g1, g2, g3, g4, g5, g6⟩ := hg
  obtain ⟨l', ⟨fuel', cwd', hl'⟩, hsim⟩ := g6 r.day hr.inner
  have hll : l' = l := by
    have h3 : Ledger.fromFile (env.on r.day) r.out.fuel { w with cwd := r.cwd } path = .ok (l, w1) :=
      (C53_loading (env.on r.day) r.ord env.ord hr.fair hord _ _ _ _).1 hl
    rw [fromFile_cwd _ _ _ _ _ hp] at h3
    exact congrArg Prod.fst (fromFile_unique _ _ _ _ _ _ _ hl' h3)
  subst hll
  intro e he
  obtain ⟨e1, he1, hs1⟩ := (ledSim_envelopes hsim).1 e he
  obtain ⟨e0, he0, hs0⟩ := sameOutside_envelopes g5 e1 he1
  exact ⟨e0, he0, sameButMoney_trans hs0 hs1.same.same⟩

/-- Specification: the currencies of the envelopes are single words without comment marks, and no operators. -/
def PlainSymbols (l : Ledger M) : Prop :=
  ∀ e ∈ l.allEnvelopes, ∀ s, e.amount.sym = some s → ValidSymbol '.' s ∧ NoComment s ∧ s ∉ [s%"!", s%"!!", s%"@", s%"="]

theorem going_runs (env : Env) (hord : FairOrder env.ord) (path : Str) (hp : path.head? = some '/')
    (file0 : APath → Option Str) (d0 : Date) (hd0 : d0.Inner) (l0 : Ledger M) (hsym : PlainSymbols l0)
    (days : List Date) (runs : List Run) : ∀ (w : World), Going env path file0 l0 days w →
    (∀ r ∈ runs, r.Reports path ∧ r.day ∈ days ∧ WritableDay env l0.dateFormat r.day) →
    FillsAre (fun a : Amount M => FmtOk (round8 a.mag)) env path runs w → Going env path file0 l0 days (afterRuns M env runs w) := by
  induction runs with
  | nil => intro w hg _ _; exact hg
  | cons r rs ih =>
    intro w hg hr hf
    obtain ⟨h1, h2, h3⟩ := hr r (by simp)
    refine ih _ (going_step env hord path hp file0 d0 hd0 l0 days w hg r h1 h2 h3 ?_) (fun r hr' => hr r (by simp [hr'])) hf.2
    intro l w1 hl k a qs hka hqs q hq hz
    obtain ⟨e, he, _, _, h4⟩ := fillingPostings_of _ a qs hqs q hq
    obtain ⟨e0, he0, hs0⟩ := going_symbols env hord path hp file0 l0 days w w1 hg r h1 l hl e (List.mem_flatMap.2 ⟨(k, a), hka, he⟩)
    refine ⟨hf.1 l w1 hl k a qs hka hqs q hq hz, fun s hs => ?_⟩
    obtain ⟨h5, h6, h7⟩ := hsym e0 he0 s (by rw [← (SameButMoney.fields hs0).2.2.1, ← h4]; exact hs)
    exact ⟨h5, h6, isOp_false h7⟩

theorem goes_on (env : Env) (hord : FairOrder env.ord) (path : Str) (hp : path.head? = some '/') (w : World)
    (hsafe : SafeFiles M env w.file) (d0 : Date) (hd0 : d0.Inner) (l0 : Ledger M) (hload : LoadsOn env d0 w path l0)
    (hclear : ClearNames l0) (hsym : PlainSymbols l0) (runs : List Run)
    (hr : ∀ r ∈ runs, r.Reports path ∧ WritableDay env l0.dateFormat r.day)
    (hf : FillsAre (fun a : Amount M => FmtOk (round8 a.mag)) env path runs w) :
    ∃ moves : List (Entry M), (∀ m ∈ moves, IsMove (runs.map Run.day) m) ∧
      ∀ d : Date, d.Inner → ∃ l, LoadsOn env d (afterRuns M env runs w) path l ∧ l.entries.Perm (l0.entries ++ moves) ∧
        List.Forall₂ SameOutside l0.accounts l.accounts := by
  have hg : Going env path w.file l0 (runs.map Run.day) w := by
    refine ⟨l0, [], rfl, hclear, (by intro m hm; cases hm), by simp, forall₂_self _ fun p _ => ⟨rfl, rfl, rfl,
      forall₂_self _ fun e _ => rfl, forall₂_self _ fun e _ => rfl⟩, fun d hd => ?_⟩
    obtain ⟨fuel, cwd, h⟩ := hload
    obtain ⟨l, ⟨f, h1⟩, h2⟩ := loads_on_other_day env hord d0 d (anyPassage d0 d hd) w hsafe path l0 cwd ⟨fuel, h⟩
    exact ⟨l, ⟨f, cwd, h1⟩, h2⟩
  obtain ⟨lb, moves, g1, g2, g3, g4, g5, g6⟩ := going_runs env hord path hp w.file d0 hd0 l0 hsym (runs.map Run.day) runs w hg
    (fun r hr' => ⟨(hr r hr').1, List.mem_map.2 ⟨r, hr', rfl⟩, (hr r hr').2⟩) hf
  refine ⟨moves, g3, fun d hd => ?_⟩
  obtain ⟨l, h1, h2⟩ := g6 d hd
  refine ⟨l, h1, by rw [h2.entries]; exact g4, ?_⟩
  refine forall₂_trans (P := SameOutside) (Q := MapSim fun _ _ => True) (fun a b c hab hbc => hab.trans ?_) g5 h2.accounts
  exact ⟨hbc.1, hbc.2.name, hbc.2.real, forall₂_imp (fun _ _ h => h.same.same) hbc.2.expenses,
    forall₂_imp (fun _ _ h => h.same.same) hbc.2.goals⟩

/-! ### C96 -/

/-- **C96, in part.** A journal that loads goes on loading: after any number of runs of the program for reports, each on
its own day, in its own directory, with its own order of hash tables, it loads on every day, with the entries that it
had and entries that only move money to envelopes on the days of the runs; accounts, real values and envelopes are
the same but for the money in the envelopes. This is in exact arithmetic. Missing: journals in which an expense and
a goal of one name have different currencies, for which it is false (`C96_filling_breaks_the_journal`), schedules
without last due date on some days (C93), and paths that are not absolute (C60). -/
theorem C96_goes_on_loading_partial (env : Env) (hord : FairOrder env.ord) (path : Str) (hp : path.head? = some '/')
    (w : World) (hsafe : SafeFiles Rat env w.file) (d0 : Date) (hd0 : d0.Inner) (l0 : Ledger Rat)
    (hload : LoadsOn env d0 w path l0) (hclear : ClearNames l0) (hsym : PlainSymbols l0) (runs : List Run)
    (hr : ∀ r ∈ runs, r.Reports path ∧ WritableDay env l0.dateFormat r.day) :
    ∃ moves : List (Entry Rat), (∀ m ∈ moves, IsMove (runs.map Run.day) m) ∧
      ∀ d : Date, d.Inner → ∃ l, LoadsOn env d (afterRuns Rat env runs w) path l ∧ l.entries.Perm (l0.entries ++ moves) ∧
        List.Forall₂ SameOutside l0.accounts l.accounts := by
  refine goes_on env hord path hp w hsafe d0 hd0 l0 hload hclear hsym runs hr ?_
  clear hr hload hsafe
  induction runs generalizing w with
  | nil => trivial
  | cons r rs ih => exact ⟨fun _ _ _ _ _ _ _ _ q _ _ => fmtOk_rat _, ih _⟩

/-- **C96, in part.** The same in the arithmetic of the program, as long as the amounts moved are finite. -/
theorem C96_goes_on_loading_f64_partial (env : Env) (hord : FairOrder env.ord) (path : Str) (hp : path.head? = some '/')
    (w : World) (hsafe : SafeFiles F64 env w.file) (d0 : Date) (hd0 : d0.Inner) (l0 : Ledger F64)
    (hload : LoadsOn env d0 w path l0) (hclear : ClearNames l0) (hsym : PlainSymbols l0) (runs : List Run)
    (hr : ∀ r ∈ runs, r.Reports path ∧ WritableDay env l0.dateFormat r.day)
    (hf : FillsAre (fun a : Amount F64 => (round8 a.mag).finite = true) env path runs w) :
    ∃ moves : List (Entry F64), (∀ m ∈ moves, IsMove (runs.map Run.day) m) ∧
      ∀ d : Date, d.Inner → ∃ l, LoadsOn env d (afterRuns F64 env runs w) path l ∧ l.entries.Perm (l0.entries ++ moves) ∧
        List.Forall₂ SameOutside l0.accounts l.accounts := by
  refine goes_on env hord path hp w hsafe d0 hd0 l0 hload hclear hsym runs hr ?_
  clear hr hload hsafe
  induction runs generalizing w with
  | nil => trivial
  | cons r rs ih =>
    exact ⟨fun l w1 h k a qs h1 h2 q h3 h4 => fmtOk_f64 (hf.1 l w1 h k a qs h1 h2 q h3 h4), ih _ hf.2⟩

/-- The days of four digits can be written in the default format. -/
theorem writableDay_default (env : Env) (hp : env.parseDate = stdParseDate) (hf : env.fmtDate = stdFmtDate) (d : Date)
    (hy : 0 ≤ d.y ∧ d.y ≤ 9999) : WritableDay env s%"%Y/%m/%d" d := by
  obtain ⟨s, h1, h2, h3, h4, c, r, h5, h6⟩ := std_date_default d hy
  refine ⟨s, by rw [hf]; exact h1, by rw [hp]; exact h2, ⟨h3, h4⟩, fun hm => ?_⟩
  rw [h5] at hm
  simp only [List.mem_cons, List.not_mem_nil, or_false] at hm
  rcases hm with hm | hm | hm | hm <;> (rw [(List.cons.inj hm).1] at h6; revert h6; decide)

/-- An expense and a goal of the same name in different currencies. -/
def exTwoFoods : World := disk [("j", "account a\n  expense food due every 20th\n    amount 20 EUR\n    funding aggressive
  goal food by 2024/12/01\n    amount 30\naccount b\n2024/06/01 * pay\n  a  100 EUR\n  b -100 EUR\n")]

/-- **C96.** False in general: with an expense and a goal of one name in different currencies, asking for the balance
appends an entry with which the journal no longer loads. -/
theorem C96_filling_breaks_the_journal :
    (∃ r : Ledger Rat × World, Ledger.fromFile (stdEnv june15) 9 exTwoFoods s%"/h/j" = .ok r ∧ (r.1.entries.length = 1)) ∧
    Ledger.fromFile (M := Rat) (stdEnv june15) 9
      (mainProgram Rat (stdEnv june15) exOutside [s%"balance", s%"-f", s%"/h/j"] exTwoFoods).1 s%"/h/j" = panicked := by
  rw [← isAbort_iff]
  decide +kernel

/-- Two runs: the balance in June, the envelopes in July, from another directory and with the tables in reverse. -/
def exRuns : List Run :=
  [⟨june15, id, [s%"h"], [s%"balance", s%"-f", s%"/h/j"], exOutside⟩,
    ⟨⟨2024, 7, 1, by decide⟩, List.reverse, [], [s%"env", s%"-f", s%"/h/j"], exOutside⟩]

instance (l : Ledger M) : Decidable (ClearNames l) := by unfold ClearNames; infer_instance

/-- The conditions hold of the journal with a bill, and both runs move money. -/
example : ∃ moves : List (Entry Rat), (∀ m ∈ moves, IsMove (exRuns.map Run.day) m) ∧
      ∀ d : Date, d.Inner → ∃ l : Ledger Rat, LoadsOn (stdEnv june15) d (afterRuns Rat (stdEnv june15) exRuns exBill) s%"/h/j" l ∧
        l.entries.length = 2 + moves.length := by
  have h : ∃ r : Ledger Rat × World, Ledger.fromFile (stdEnv june15) 2 exBill s%"/h/j" = .ok r ∧
      (ClearNames r.1 ∧ (∀ e ∈ r.1.allEnvelopes, e.amount.sym = none) ∧ r.1.dateFormat = s%"%Y/%m/%d" ∧ r.1.entries.length = 2) := by
    decide +kernel
  obtain ⟨⟨l0, w1⟩, h1, h2, h3, h4, h5⟩ := h
  obtain ⟨_, h6, h7⟩ := fromFile_sound _ _ _ _ _ _ h1
  have hload : LoadsOn (stdEnv june15) june15 exBill s%"/h/j" l0 :=
    ⟨2, w1.cwd, by rw [← h6, ← h7]; exact h1⟩
  obtain ⟨moves, g1, g2⟩ := C96_goes_on_loading_partial (stdEnv june15) (fun _ l => List.Perm.refl l) s%"/h/j" rfl exBill exBill_safe
    june15 (by unfold Date.Inner; decide) l0 hload h2 (fun e he s hs => by rw [h3 e he] at hs; cases hs) exRuns (by
      intro r hr
      rw [h4]
      simp only [exRuns, List.mem_cons, List.not_mem_nil, or_false] at hr
      rcases hr with rfl | rfl
      · refine ⟨⟨by unfold Date.Inner; decide, fun _ l => List.Perm.refl l, fun f hf => ?_⟩,
          writableDay_default _ rfl rfl _ (by decide)⟩
        have : f = ⟨some s%"/h/j", .balance, false, none, none⟩ := by
          have h : Flags.parse [s%"balance", s%"-f", s%"/h/j"] = .ok (some ⟨some s%"/h/j", .balance, false, none, none⟩) := by
            decide +kernel
          exact Option.some.inj (Except.ok.inj (hf.symm.trans h))
        subst this
        exact ⟨by decide, .inl rfl⟩
      · refine ⟨⟨by unfold Date.Inner; decide, fun _ l => List.reverse_perm l, fun f hf => ?_⟩,
          writableDay_default _ rfl rfl _ (by decide)⟩
        have : f = ⟨some s%"/h/j", .envelopes, false, none, none⟩ := by
          have h : Flags.parse [s%"env", s%"-f", s%"/h/j"] = .ok (some ⟨some s%"/h/j", .envelopes, false, none, none⟩) := by
            decide +kernel
          exact Option.some.inj (Except.ok.inj (hf.symm.trans h))
        subst this
        exact ⟨by decide, .inl rfl⟩)
  refine ⟨moves, g1, fun d hd => ?_⟩
  obtain ⟨l, h8, h9, _⟩ := g2 d hd
  exact ⟨l, h8, by rw [h9.length_eq, List.length_append, h5]⟩

example : ∃ r : Ledger Rat × World, Ledger.fromFile (stdEnv june15) 2 (afterRuns Rat (stdEnv june15) exRuns exBill) s%"/h/j" = .ok r ∧
    (r.1.entries.length = 4) := by decide +kernel

end Silverfox
