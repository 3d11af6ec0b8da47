import Verif.Props.Shuffle
import Verif.Props.Sessions

/-
C104: each entry is accepted or refused by itself.
-/

namespace Silverfox

set_option linter.unusedSectionVars false
variable {M : Type} [Mag M]

/-! ### Specification -/

/-- Specification: the file at that path loads. -/
def FileLoads (M : Type) [Mag M] (env : Env) (w : World) (path : Str) : Prop :=
  ∃ (fuel : Nat) (l : Ledger M) (cwd : APath), Ledger.fromFile env fuel w path = .ok (l, { w with cwd := cwd })

/-- Specification: the file at that path, in the directory of `home`, has these items. -/
structure HasItems (w : World) (home path : Str) (items : List Str) : Prop where
  named : endsInName path = true
  there : (resolve w.cwd path).dropLast = (resolve w.cwd home).dropLast
  text : ∃ t, w.file (resolve w.cwd path) = some t ∧ Itemised (lines t) items

/-! ### One envelope -/

/-- The same envelope, with money in the same currencies. -/
structure EnvSame (e e' : Envelope M) : Prop where
  same : e.SameButMoney e'
  now : e'.now.sym = e.now.sym
  next : e'.next.sym = e.next.sym

theorem EnvSame.refl (e : Envelope M) : EnvSame e e := ⟨rfl, rfl, rfl⟩

theorem EnvSame.symm {e e' : Envelope M} (h : EnvSame e e') : EnvSame e' e := by
  refine ⟨?_, h.now.symm, h.next.symm⟩
  have := h.same
  unfold Envelope.SameButMoney at *
  rw [this]

theorem EnvSame.trans {a b c : Envelope M} (h : EnvSame a b) (h' : EnvSame b c) : EnvSame a c := by
  refine ⟨?_, h'.now.trans h.now, h'.next.trans h.next⟩
  have h1 := h.same
  have h2 := h'.same
  unfold Envelope.SameButMoney at *
  rw [h2, h1]

theorem envProcess_decl (d : Date) (x : Entry M) (e e1 : Envelope M) (h : e.processEntry d x = .ok e1) : EnvSame e e1 := by
  obtain ⟨h1, h2, h3⟩ := processEntry_keeps d e e1 x h
  exact ⟨h1, h2, h3⟩

theorem applyAmount_decl (d date : Date) (a : Amount M) (e e' e1 : Envelope M) (hs : EnvSame e e')
    (h : e.applyAmount d a date = .ok e1) : ∃ e1', e'.applyAmount d a date = .ok e1' := by
  have hf := (SameButMoney.fields hs.same).2.2.2.2.2.1
  unfold Envelope.applyAmount at h ⊢
  simp only [Amount.add, hs.now, hs.next, hf, bind, Except.bind, pure, Except.pure] at h ⊢
  split at h
  · rename_i h1
    simp only [h1, if_true]
    split at h
    · cases h
    · rename_i hx
      split at hx
      · rename_i hsym; rw [if_pos hsym]; exact ⟨_, rfl⟩
      · cases hx
  · rename_i h1
    simp only [h1]
    split at h
    · rename_i h2
      simp only [h2, if_true]
      cases hl : Frequency.lastDue d e.freq with
      | error f => rw [hl] at h; cases h
      | ok last =>
        rw [hl] at h
        cases last with
        | none =>
          simp only at h ⊢
          split at h
          · cases h
          · rename_i hx
            split at hx
            · rename_i hsym; rw [if_pos hsym]; exact ⟨_, rfl⟩
            · cases hx
        | some dd =>
          simp only at h ⊢
          split at h
          · rename_i h3
            simp only [h3, if_true]
            split at h
            · cases h
            · rename_i hx
              split at hx
              · rename_i hsym; rw [if_pos hsym]; exact ⟨_, rfl⟩
              · cases hx
          · rename_i h3
            simp only [h3]
            split at h
            · cases h
            · rename_i hx
              split at hx
              · rename_i hsym; rw [if_pos hsym]; exact ⟨_, rfl⟩
              · cases hx
    · rename_i h2
      simp only [h2]
      exact ⟨_, rfl⟩

theorem processManual_decl (d date : Date) (ps : List (EnvPosting M)) (e e' e1 : Envelope M) (hs : EnvSame e e')
    (h : Envelope.processManual d date ps e = .ok e1) : ∃ e1', Envelope.processManual d date ps e' = .ok e1' := by
  induction ps generalizing e e' with
  | nil => exact ⟨e', rfl⟩
  | cons p ps ih =>
    have hf := SameButMoney.fields hs.same
    unfold Envelope.processManual at h ⊢
    rw [hf.1, hf.2.1]
    split at h
    · rename_i hc
      simp only [bind, Except.bind] at h
      split at h
      · cases h
      · rename_i e2 he2
        obtain ⟨e2', h2⟩ := applyAmount_decl d date p.amount e e' e2 hs he2
        have k := applyAmount_keeps d e e2 p.amount date he2
        have k' := applyAmount_keeps d e' e2' p.amount date h2
        have d1 : EnvSame e e2 := ⟨k.1, k.2.1, k.2.2.1⟩
        have d2 : EnvSame e' e2' := ⟨k'.1, k'.2.1, k'.2.2.1⟩
        obtain ⟨e1', h4⟩ := ih e2 e2' (d1.symm.trans (hs.trans d2)) h
        exact ⟨e1', by simp only [if_pos hc, bind, Except.bind, h2]; exact h4⟩
    · rename_i hc
      rw [if_neg hc]
      exact ih e e' hs h

theorem envProcess_accepts (d : Date) (x : Entry M) (e e' e1 : Envelope M) (hs : EnvSame e e')
    (h : e.processEntry d x = .ok e1) : ∃ e1', e'.processEntry d x = .ok e1' := by
  unfold Envelope.processEntry at h ⊢
  split at h
  · rename_i hc; rw [if_pos hc]; exact processManual_decl d _ _ e e' e1 hs h
  · rename_i hc
    rw [if_neg hc]
    have hf := SameButMoney.fields hs.same
    unfold Envelope.infer at h ⊢
    simp only [hf.2.1, hf.2.2.1, hf.2.2.2.2.1, inferLoop_congr e e' hf.2.1 hf.2.2.1 hf.2.2.2.2.1] at h ⊢
    split at h
    · rename_i hc; rw [if_pos hc]; exact ⟨e', rfl⟩
    · rename_i hc
      rw [if_neg hc]
      simp only [bind, Except.bind, pure, Except.pure] at h ⊢
      split at h
      · cases h
      · rename_i p hp
        split at h
        · rename_i hz
          simp only [hz, if_true]
          exact applyAmount_decl d _ _ e e' e1 hs h
        · rename_i hz
          exact ⟨e', by simp only [hz]; rfl⟩

/-! ### Accounts and ledgers -/

structure AcctSame (a a' : Account M) : Prop where
  name : a'.name = a.name
  expenses : List.Forall₂ EnvSame a.expenses a'.expenses
  goals : List.Forall₂ EnvSame a.goals a'.goals

abbrev MapSame : Str × Account M → Str × Account M → Prop := fun p p' => p'.1 = p.1 ∧ AcctSame p.2 p'.2

theorem AcctSame.refl (a : Account M) : AcctSame a a :=
  ⟨rfl, forall₂_self _ fun e _ => .refl e, forall₂_self _ fun e _ => .refl e⟩

theorem forall₂_flip {α : Type} {R : α → α → Prop} (hR : ∀ a b, R a b → R b a) {xs ys : List α}
    (h : List.Forall₂ R xs ys) : List.Forall₂ R ys xs := by
  induction h with
  | nil => exact .nil
  | cons hx _ ih => exact .cons (hR _ _ hx) ih

theorem AcctSame.symm {a b : Account M} (h : AcctSame a b) : AcctSame b a :=
  ⟨h.name.symm, forall₂_flip (fun _ _ => EnvSame.symm) h.expenses, forall₂_flip (fun _ _ => EnvSame.symm) h.goals⟩

theorem AcctSame.trans {a b c : Account M} (h : AcctSame a b) (h' : AcctSame b c) : AcctSame a c :=
  ⟨h'.name.trans h.name, forall₂_chain (R := EnvSame) (fun _ _ _ => EnvSame.trans) h.expenses h'.expenses,
    forall₂_chain (R := EnvSame) (fun _ _ _ => EnvSame.trans) h.goals h'.goals⟩

theorem processEnvelopes_accepts (d : Date) (x : Entry M) (es es' es1 : List (Envelope M))
    (hs : List.Forall₂ EnvSame es es') (h : Account.processEnvelopes d x es = .ok es1) :
    ∃ es1', Account.processEnvelopes d x es' = .ok es1' := by
  induction hs generalizing es1 with
  | nil => exact ⟨[], rfl⟩
  | cons hx _ ih =>
    simp only [Account.processEnvelopes, bind, Except.bind, pure, Except.pure] at h ⊢
    split at h
    · cases h
    · rename_i e1 he1
      split at h
      · cases h
      · rename_i es2 hes2
        obtain ⟨e1', h1⟩ := envProcess_accepts d x _ _ e1 hx he1
        obtain ⟨es2', h3⟩ := ih es2 hes2
        exact ⟨e1' :: es2', by simp only [h1, h3]⟩

theorem processReal_accepts (n : Str) (x : Entry M) (ps : List (Posting M)) (r r' r1 : Pool M)
    (h : Account.processReal n x ps r = .ok r1) : ∃ r1', Account.processReal n x ps r' = .ok r1' := by
  induction ps generalizing r r' with
  | nil => exact ⟨r', rfl⟩
  | cons p ps ih =>
    unfold Account.processReal at h ⊢
    split at h
    · rename_i hc
      rw [if_pos hc]
      cases hp : p.amount with
      | some a => rw [hp] at h; exact ih _ _ h
      | none =>
        rw [hp] at h
        simp only [bind, Except.bind] at h ⊢
        split at h
        · cases h
        · rename_i b hb
          cases b with
          | some a => exact ih _ _ h
          | none => exact ih _ _ h
    · rename_i hc
      rw [if_neg hc]
      exact ih _ _ h

theorem processEnvelopes_decl (d : Date) (x : Entry M) (es es1 : List (Envelope M))
    (h : Account.processEnvelopes d x es = .ok es1) : List.Forall₂ EnvSame es es1 :=
  forall₂_imp (fun _ _ h => envProcess_decl d x _ _ h) (processEnvelopes_forall₂ d x es es1 h)

theorem acctProcess_accepts (d : Date) (x : Entry M) (a a' a1 : Account M) (hs : AcctSame a a')
    (h : a.processEntry d x = .ok a1) : AcctSame a a1 ∧ ∃ a1', a'.processEntry d x = .ok a1' := by
  unfold Account.processEntry at h ⊢
  rw [hs.name]
  simp only [bind, Except.bind, pure, Except.pure] at h ⊢
  split at h
  · cases h
  · rename_i ex hex
    split at h
    · cases h
    · rename_i go hgo
      split at h
      · cases h
      · rename_i re hre
        cases h
        obtain ⟨ex', h1⟩ := processEnvelopes_accepts d x _ _ ex hs.expenses hex
        obtain ⟨go', h3⟩ := processEnvelopes_accepts d x _ _ go hs.goals hgo
        obtain ⟨re', h5⟩ := processReal_accepts _ x x.postings _ a'.real re hre
        exact ⟨⟨rfl, processEnvelopes_decl d x _ _ hex, processEnvelopes_decl d x _ _ hgo⟩, by simp only [h1, h3, h5]; exact ⟨_, rfl⟩⟩

theorem processAll_accepts (d : Date) (x : Entry M) (as as' as1 : List (Str × Account M)) (hs : List.Forall₂ MapSame as as')
    (h : Ledger.processAll d x as = .ok as1) :
    List.Forall₂ MapSame as as1 ∧ ∃ as1', Ledger.processAll d x as' = .ok as1' := by
  induction hs generalizing as1 with
  | nil => cases h; exact ⟨.nil, [], rfl⟩
  | @cons p p' ps ps' hx _ ih =>
    obtain ⟨k, a⟩ := p
    obtain ⟨k', a'⟩ := p'
    simp only [Ledger.processAll, bind, Except.bind, pure, Except.pure] at h ⊢
    split at h
    · cases h
    · rename_i a1 ha1
      split at h
      · cases h
      · rename_i as2 has2
        cases h
        obtain ⟨h0, a1', h1⟩ := acctProcess_accepts d x _ _ a1 hx.2 ha1
        obtain ⟨h2, as2', h3⟩ := ih as2 has2
        exact ⟨.cons ⟨rfl, h0⟩ h2, (k', a1') :: as2', by simp only [h1, h3]⟩

/-- Two ledgers with the same declarations. -/
structure LedDecl (l l' : Ledger M) : Prop where
  format : l'.dateFormat = l.dateFormat
  currency : l'.currency = l.currency
  decimal : l'.decimal = l.decimal
  accounts : List.Forall₂ MapSame l.accounts l'.accounts

theorem LedDecl.refl (l : Ledger M) : LedDecl l l := ⟨rfl, rfl, rfl, forall₂_self _ fun _ _ => ⟨rfl, .refl _⟩⟩

theorem LedDecl.symm {l l' : Ledger M} (h : LedDecl l l') : LedDecl l' l :=
  ⟨h.format.symm, h.currency.symm, h.decimal.symm, forall₂_flip (fun _ _ h => ⟨h.1.symm, h.2.symm⟩) h.accounts⟩

theorem LedDecl.trans {a b c : Ledger M} (h : LedDecl a b) (h' : LedDecl b c) : LedDecl a c :=
  ⟨h'.format.trans h.format, h'.currency.trans h.currency, h'.decimal.trans h.decimal,
    forall₂_chain (R := MapSame) (fun _ _ _ h h' => ⟨h'.1.trans h.1, h.2.trans h'.2⟩) h.accounts h'.accounts⟩

theorem LedDecl.names {l l' : Ledger M} (h : LedDecl l l') : l'.accountNames = l.accountNames := by
  have : ∀ {as as' : List (Str × Account M)}, List.Forall₂ MapSame as as' → as'.map Prod.fst = as.map Prod.fst := by
    intro as as' h
    induction h with
    | nil => rfl
    | cons hx _ ih => simp [hx.1, ih]
  exact this h.accounts

theorem addEntry_accepts (env : Env) (hord : FairOrder env.ord) (x : Entry M) (l l' l1 : Ledger M) (hs : LedDecl l l')
    (h : l.addEntry env x = .ok l1) : LedDecl l l1 ∧ ∃ l1', l'.addEntry env x = .ok l1' := by
  obtain ⟨accs, h1, rfl⟩ := (addEntry_iff env hord l l1 x).1 h
  obtain ⟨h2, accs', h3⟩ := processAll_accepts env.today x _ _ accs hs.accounts h1
  exact ⟨⟨rfl, rfl, rfl, h2⟩, _, (addEntry_iff env hord l' _ x).2 ⟨accs', h3, rfl⟩⟩

theorem addEntry_declared (env : Env) (hord : FairOrder env.ord) (x : Entry M) (l l1 : Ledger M)
    (h : l.addEntry env x = .ok l1) : LedDecl l l1 :=
  (addEntry_accepts env hord x l l l1 (.refl l) h).1

theorem addEntries_declared (env : Env) (hord : FairOrder env.ord) (es : List (Entry M)) (l l1 : Ledger M)
    (h : Ledger.addEntries env es l = .ok l1) : LedDecl l l1 := by
  induction es generalizing l with
  | nil => cases h; exact .refl _
  | cons e es ih =>
    simp only [Ledger.addEntries, bind, Except.bind] at h
    split at h
    · cases h
    · rename_i l2 h2
      exact (addEntry_declared env hord e l l2 h2).trans (ih l2 h)

/-! ### C104 -/

/-- **C104.** Whether an entry is accepted does not depend on the entries before it. -/
theorem C104_whatever_came_before (env : Env) (hord : FairOrder env.ord) (es : List (Entry M)) (l l1 : Ledger M)
    (h : Ledger.addEntries env es l = .ok l1) (x : Entry M) :
    (∃ l', l1.addEntry env x = .ok l') ↔ ∃ l', l.addEntry env x = .ok l' := by
  have hd := addEntries_declared env hord es l l1 h
  exact ⟨fun ⟨l', h'⟩ => (addEntry_accepts env hord x l1 l l' hd.symm h').2,
    fun ⟨l', h'⟩ => (addEntry_accepts env hord x l l1 l' hd h').2⟩

/-- **C104.** Entries are accepted together just when each is accepted alone. -/
theorem C104_each_alone (env : Env) (hord : FairOrder env.ord) (es : List (Entry M)) (l : Ledger M) :
    (∃ l', Ledger.addEntries env es l = .ok l') ↔ ∀ x ∈ es, ∃ l', l.addEntry env x = .ok l' := by
  have key : ∀ (es : List (Entry M)) (l0 : Ledger M), LedDecl l l0 →
      ((∃ l', Ledger.addEntries env es l0 = .ok l') ↔ ∀ x ∈ es, ∃ l', l.addEntry env x = .ok l') := by
    intro es
    induction es with
    | nil => intro l0 _; exact ⟨fun _ x hx => (by cases hx), fun _ => ⟨l0, rfl⟩⟩
    | cons e es ih =>
      intro l0 h0
      constructor
      · rintro ⟨l', h⟩
        simp only [Ledger.addEntries, bind, Except.bind] at h
        split at h
        · cases h
        · rename_i l2 h2
          intro x hx
          rcases List.mem_cons.1 hx with rfl | hx
          · exact (addEntry_accepts env hord x l0 l l2 h0.symm h2).2
          · exact (ih l2 (h0.trans (addEntry_declared env hord e l0 l2 h2))).1 ⟨l', h⟩ x hx
      · intro h
        obtain ⟨l2, h2⟩ := h e (by simp)
        obtain ⟨_, l3, h3⟩ := addEntry_accepts env hord e l l0 l2 h0 h2
        obtain ⟨l', h'⟩ := (ih l3 (h0.trans (addEntry_declared env hord e l0 l3 h3))).2 fun x hx => h x (by simp [hx])
        exact ⟨l', by simp only [Ledger.addEntries, bind, Except.bind, h3]; exact h'⟩
  exact key es l (.refl l)

/-! ### Files -/

theorem mapInsert_decl (as as' : List (Str × Account M)) (hs : List.Forall₂ MapSame as as') (k : Str) (a : Account M) :
    List.Forall₂ MapSame (mapInsert as k a) (mapInsert as' k a) := by
  induction hs with
  | nil => exact .cons ⟨rfl, .refl a⟩ .nil
  | @cons p p' ps ps' hx hxs ih =>
    obtain ⟨q, b⟩ := p
    obtain ⟨q', b'⟩ := p'
    obtain ⟨hk, hb⟩ := hx
    simp only at hk hb
    subst hk
    simp only [mapInsert]
    split
    · exact .cons ⟨rfl, .refl a⟩ hxs
    · exact .cons ⟨rfl, hb⟩ ih

theorem reading_decl (env : Env) (hord : FairOrder env.ord) (c : Str) (l l' l1 : Ledger M)
    (hs : LedDecl l l') (h : Reading env c l l1) : ∃ l1', Reading env c l' l1' ∧ LedDecl l1 l1' := by
  cases h with
  | account a h1 h2 =>
    refine ⟨_, .account a h1 (by rw [hs.decimal, hs.format]; exact h2), ?_⟩
    exact ⟨hs.format, hs.currency, hs.decimal, mapInsert_decl _ _ hs.accounts _ a⟩
  | currency v more h1 => exact ⟨_, .currency v more h1, ⟨hs.format, rfl, hs.decimal, hs.accounts⟩⟩
  | dateFormat v more h1 => exact ⟨_, .dateFormat v more h1, ⟨rfl, hs.currency, hs.decimal, hs.accounts⟩⟩
  | entry kw x _ h1 h2 h3 h4 =>
    obtain ⟨h6, l1', h5⟩ := addEntry_accepts env hord x l l' l1 hs h4
    refine ⟨l1', .entry kw x _ h1 h2 ?_ h5, h6.symm.trans (hs.trans (addEntry_declared env hord x l' l1' h5))⟩
    rw [hs.format, hs.decimal, hs.names]
    exact h3

theorem denotes_decl (env : Env) (hord : FairOrder env.ord) (file : APath → Option Str)
    (st st1 : Ledger M × APath) (task : Task) (h : Denotes env file st task st1)
    (l' : Ledger M) (hs : LedDecl st.1 l') :
    ∃ l1', Denotes env file (l', st.2) task (l1', st1.2) ∧ LedDecl st1.1 l1' := by
  induction h generalizing l' with
  | file l cwd path t cs st h1 h2 h3 _ ih =>
    obtain ⟨l1', h4, h5⟩ := ih l' hs
    exact ⟨l1', .file l' cwd path t cs _ h1 h2 h3 h4, h5⟩
  | done st => exact ⟨l', .done _, hs⟩
  | nothing st st' c cs h1 _ ih =>
    obtain ⟨l1', h4, h5⟩ := ih l' hs
    exact ⟨l1', .nothing _ _ c cs h1 h4, h5⟩
  | item l l2 cwd st' c cs h1 _ ih =>
    obtain ⟨l2', h2, h3⟩ := reading_decl env hord c l l' l2 hs h1
    obtain ⟨l1', h4, h5⟩ := ih l2' h3
    exact ⟨l1', .item l' l2' cwd _ c cs h2 h4, h5⟩
  | incl st st1 st' c v more cs h1 _ _ ih1 ih2 =>
    obtain ⟨l2', h2, h3⟩ := ih1 l' hs
    obtain ⟨l1', h4, h5⟩ := ih2 l2' h3
    exact ⟨l1', .incl _ _ _ c v more cs h1 h2 h4, h5⟩

/-- The declarations are the same for two files of one directory with the same first items. -/
theorem loads_items (env : Env) (w : World) (home path : Str) (items : List Str) (h : HasItems w home path items) :
    FileLoads M env w path ↔ ∃ st : Ledger M × APath, Denotes env w.file (Ledger.new path, (resolve w.cwd home).dropLast) (.items items) st := by
  obtain ⟨hn, hd, t, ht, hi⟩ := h
  constructor
  · rintro ⟨fuel, l, cwd, h⟩
    have h := (C88_loading_reads_the_items env w path l cwd).1 ⟨fuel, h⟩
    cases h with
    | file _ _ _ t0 cs _ h1 h2 h3 h4 =>
      rw [ht] at h2
      cases h2
      obtain ⟨items', _, hu⟩ := C88_items_of_a_text (lines t)
      rw [hu cs h3, ← hu _ hi, hd] at h4
      exact ⟨_, h4⟩
  · rintro ⟨⟨l, cwd⟩, h⟩
    obtain ⟨fuel, h'⟩ := (C88_loading_reads_the_items env w path l cwd).2 (.file _ _ path t _ _ hn ht hi (by rw [hd]; exact h))
    exact ⟨fuel, l, cwd, h'⟩

/-- Entries after the same declarations. -/
theorem denotes_entries (env : Env) (hord : FairOrder env.ord) (file : APath → Option Str) (es : List Str)
    (he : ∀ c ∈ es, IsEntryItem c) (l l0 : Ledger M) (cwd : APath) (hs : LedDecl l l0) :
    (∃ st, Denotes env file (l0, cwd) (.items es) st) ↔ ∀ c ∈ es, ∃ st, Denotes env file (l, cwd) (.items [c]) st := by
  induction es generalizing l0 with
  | nil => exact ⟨fun _ c hc => (by cases hc), fun _ => ⟨_, .done _⟩⟩
  | cons c es ih =>
    have hc := he c (by simp)
    constructor
    · rintro ⟨st, h⟩
      obtain ⟨x, l2, h1, h2, h3⟩ := denotes_entry env file c es hc l0 cwd st h
      intro c' hc'
      rcases List.mem_cons.1 hc' with rfl | hc'
      · obtain ⟨l2', h4, _⟩ := reading_decl env hord c' l0 l l2 hs.symm (entry_reading env c' hc l0 l2 x h1 h2)
        exact ⟨_, .item _ _ _ _ c' _ h4 (.done _)⟩
      · exact (ih (fun c hc => he c (by simp [hc])) l2 (hs.trans (addEntry_declared env hord x l0 l2 h2))).1 ⟨st, h3⟩ c' hc'
    · intro h
      obtain ⟨st, h1⟩ := h c (by simp)
      obtain ⟨x, l2, h2, h3, _⟩ := denotes_entry env file c [] hc l cwd st h1
      obtain ⟨l2', h4, h5⟩ := reading_decl env hord c l l0 l2 hs (entry_reading env c hc l l2 x h2 h3)
      obtain ⟨st', h6⟩ := (ih (fun c hc => he c (by simp [hc])) l2' ((addEntry_declared env hord x l l2 h3).trans h5)).2
        fun c' hc' => h c' (by simp [hc'])
      exact ⟨st', .item _ _ _ _ c _ h4 h6⟩

/-- **C104.** A journal of declarations and entries loads just when the declarations load, and each entry loads alone
after them. (`path` holds the whole journal, `path0` the declarations, `one c` the declarations and the entry `c`.) -/
theorem C104_a_journal_entry_by_entry (env : Env) (hord : FairOrder env.ord) (w : World) (path path0 : Str) (one : Str → Str)
    (pre es : List Str) (he : ∀ c ∈ es, IsEntryItem c)
    (h : HasItems w path path (pre ++ es)) (h0 : HasItems w path path0 pre)
    (h1 : ∀ c ∈ es, HasItems w path (one c) (pre ++ [c])) :
    FileLoads M env w path ↔ FileLoads M env w path0 ∧ ∀ c ∈ es, FileLoads M env w (one c) := by
  have new : ∀ p p' : Str, LedDecl (Ledger.new (M := M) p) (Ledger.new p') := fun p p' => ⟨rfl, rfl, rfl, .nil⟩
  rw [loads_items env w path path _ h, loads_items env w path path0 _ h0]
  have h2 : (∀ c ∈ es, FileLoads M env w (one c)) ↔ ∀ c ∈ es, ∃ st : Ledger M × APath,
      Denotes env w.file (Ledger.new (one c), (resolve w.cwd path).dropLast) (.items (pre ++ [c])) st :=
    ⟨fun h c hc => (loads_items env w path (one c) _ (h1 c hc)).1 (h c hc),
      fun h c hc => (loads_items env w path (one c) _ (h1 c hc)).2 (h c hc)⟩
  rw [h2]
  constructor
  · rintro ⟨st, hd⟩
    obtain ⟨st1, g1, g2⟩ := (denotes_append env w.file pre es _ st).1 hd
    refine ⟨?_, fun c hc => ?_⟩
    · obtain ⟨l', g3, _⟩ := denotes_decl env hord w.file _ _ _ g1 (Ledger.new path0) (new _ _)
      exact ⟨_, g3⟩
    · obtain ⟨l', g3, g4⟩ := denotes_decl env hord w.file _ _ _ g1 (Ledger.new (one c)) (new _ _)
      obtain ⟨st2, g5⟩ := (denotes_entries env hord w.file es he l' st1.1 st1.2 g4.symm).1 ⟨st, g2⟩ c hc
      exact ⟨st2, (denotes_append env w.file pre [c] _ st2).2 ⟨_, g3, g5⟩⟩
  · rintro ⟨⟨st0, g0⟩, ga⟩
    obtain ⟨l', g3, g4⟩ := denotes_decl env hord w.file _ _ _ g0 (Ledger.new path) (new _ _)
    obtain ⟨st, g⟩ := (denotes_entries env hord w.file es he l' l' st0.2 (.refl _)).2 (by
      intro c hc
      obtain ⟨st1, k⟩ := ga c hc
      obtain ⟨st2, k1, k2⟩ := (denotes_append env w.file pre [c] _ st1).1 k
      obtain ⟨l2', k3, k4⟩ := denotes_decl env hord w.file _ _ _ k1 (Ledger.new path0) (new _ _)
      -- the declarations mean one thing only
      obtain ⟨hn, hd, t, ht, hi⟩ := h0
      have file : ∀ st : Ledger M × APath, Denotes env w.file (Ledger.new path0, (resolve w.cwd path).dropLast) (.items pre) st →
          ∃ fuel, Ledger.fromFile env fuel w path0 = .ok (st.1, { w with cwd := st.2 }) := fun st hst =>
        (C88_loading_reads_the_items env w path0 st.1 st.2).2 (.file _ _ path0 t _ _ hn ht hi (by rw [hd]; exact hst))
      obtain ⟨f1, e1⟩ := file _ g0
      obtain ⟨f2, e2⟩ := file _ k3
      have e3 := fromFile_unique _ _ _ _ _ _ _ e1 e2
      have e4 : st0.1 = l2' := congrArg Prod.fst e3
      have e5 : st0.2 = st2.2 := congrArg (fun r => r.2.cwd) e3
      rw [← e4] at k4
      rw [e5]
      obtain ⟨l3', k5, _⟩ := denotes_decl env hord w.file _ _ _ k2 l' (k4.trans g4)
      exact ⟨_, k5⟩)
    exact ⟨st, (denotes_append env w.file pre es _ st).2 ⟨_, g3, g⟩⟩

/-- A journal with two entries, its declarations, and each entry alone. The second entry moves euros to an envelope
of another currency. -/
def exAlone : World := disk [
  ("j", "account a\n  expense food due every 20th\n    amount 20\naccount b\n2024/06/01 * p\n  a 10\n  b\n2024/06/03 * q\n  envelope a food 5 EUR\n"),
  ("d", "account a\n  expense food due every 20th\n    amount 20\naccount b\n"),
  ("p", "account a\n  expense food due every 20th\n    amount 20\naccount b\n2024/06/01 * p\n  a 10\n  b\n"),
  ("q", "account a\n  expense food due every 20th\n    amount 20\naccount b\n2024/06/03 * q\n  envelope a food 5 EUR\n")]

def exAlonePre : List Str := [[], s%"account a\n  expense food due every 20th\n    amount 20", s%"account b"]

def exAloneP : Str := s%"2024/06/01 * p\n  a 10\n  b"

def exAloneQ : Str := s%"2024/06/03 * q\n  envelope a food 5 EUR"

theorem exAlone_items : HasItems exAlone s%"j" s%"j" (exAlonePre ++ [exAloneP, exAloneQ]) ∧ HasItems exAlone s%"j" s%"d" exAlonePre ∧
    HasItems exAlone s%"j" s%"p" (exAlonePre ++ [exAloneP]) ∧ HasItems exAlone s%"j" s%"q" (exAlonePre ++ [exAloneQ]) := by
  refine ⟨⟨by decide, by decide, _, rfl, [], [(s%"account a", [s%"  expense food due every 20th", s%"    amount 20"]), (s%"account b", []),
      (s%"2024/06/01 * p", [s%"  a 10", s%"  b"]), (s%"2024/06/03 * q", [s%"  envelope a food 5 EUR"])],
      by decide +kernel, by decide +kernel, ?_, by decide +kernel⟩,
    ⟨by decide, by decide, _, rfl, [], [(s%"account a", [s%"  expense food due every 20th", s%"    amount 20"]), (s%"account b", [])],
      by decide +kernel, by decide +kernel, ?_, by decide +kernel⟩,
    ⟨by decide, by decide, _, rfl, [], [(s%"account a", [s%"  expense food due every 20th", s%"    amount 20"]), (s%"account b", []),
      (s%"2024/06/01 * p", [s%"  a 10", s%"  b"])],
      by decide +kernel, by decide +kernel, ?_, by decide +kernel⟩,
    ⟨by decide, by decide, _, rfl, [], [(s%"account a", [s%"  expense food due every 20th", s%"    amount 20"]), (s%"account b", []),
      (s%"2024/06/03 * q", [s%"  envelope a food 5 EUR"])],
      by decide +kernel, by decide +kernel, ?_, by decide +kernel⟩⟩
  all_goals
    intro b hb
    simp only [List.mem_cons, List.not_mem_nil, or_false] at hb
    rcases hb with rfl | rfl | rfl | rfl <;> refine ⟨by decide +kernel, _, _, rfl, by decide⟩

/-- The conditions of C104 hold; the journal does not load, because the second entry does not load alone. -/
example : FileLoads F64 (stdEnv june15) exAlone s%"j" ↔
    FileLoads F64 (stdEnv june15) exAlone s%"d" ∧ FileLoads F64 (stdEnv june15) exAlone s%"p" ∧ FileLoads F64 (stdEnv june15) exAlone s%"q" := by
  obtain ⟨h1, h2, h3, h4⟩ := exAlone_items
  have hne : exAloneP ≠ exAloneQ := by decide
  have := C104_a_journal_entry_by_entry (M := F64) (stdEnv june15) (fun _ l => List.Perm.refl l) exAlone s%"j" s%"d"
    (fun c => if c = exAloneP then s%"p" else s%"q") exAlonePre [exAloneP, exAloneQ] (by
      intro c hc
      simp only [List.mem_cons, List.not_mem_nil, or_false] at hc
      rcases hc with rfl | rfl
      · exact ⟨s%"2024/06/01", _, rfl, by decide⟩
      · exact ⟨s%"2024/06/03", _, rfl, by decide⟩) h1 h2 (by
      intro c hc
      simp only [List.mem_cons, List.not_mem_nil, or_false] at hc
      rcases hc with rfl | rfl
      · rw [if_pos rfl]; exact h3
      · rw [if_neg hne.symm]; exact h4)
  rw [this]
  simp [hne.symm]

example : (Ledger.fromFile (stdEnv june15) 9 exAlone s%"p" : Res (Ledger F64 × World)).isOk = true ∧
    (Ledger.fromFile (stdEnv june15) 9 exAlone s%"q" : Res (Ledger F64 × World)).isOk = false ∧
    (Ledger.fromFile (stdEnv june15) 9 exAlone s%"j" : Res (Ledger F64 × World)).isOk = false := by
  decide +kernel

end Silverfox
